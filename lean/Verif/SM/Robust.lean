import Verif.SM.PropsRun
/-
Helper lemmas: what the engine keeps whatever calls are made, in whatever order and however earlier calls ended.
-/
namespace Verif.SM
open Eng Spec

/-- The data of a state machine object whatever happened to it: some state is current, and the history variables hold what
the log says. The current state need not be a leaf: before the object is initialised it is the initial state. -/
structure Sound (m : Machine) (s : Mem) : Prop where
  state : ∃ cs, s.state = some cs ∧ IsState m cs
  hist : HistInv m s.hist s.log

/-- What is left to enter: the innermost states of the path of the target; nothing only if the target is composite. -/
def EntOK (m : Machine) (ts : Vid) (ent : List Vid) : Prop :=
  (ent = [] ∧ IsComposite m ts) ∨ ∃ r, ent = ts :: r

theorem path_composite {m : Machine} (wf : WellFormed m) : ∀ {l : List Vid} {v : Vid}, Path m v (v :: l) →
    ∀ x ∈ l, IsComposite m x := by
  intro l
  induction l with
  | nil => intro v _ x hx; simp at hx
  | cons p r ih =>
    intro v h x hx
    have h1 : Path m p (p :: r) := h.suffix (a := [v]) rfl
    have hc : IsComposite m p := wf.parent v p (by simpa using h.parent_head)
    rcases List.mem_cons.1 hx with rfl | hx
    · exact hc
    · exact ih h1 x hx

theorem exits_safe {m : Machine} (wf : WellFormed m) (lim : Limits m) {ts : Vid} {lt : List Vid} (hlt : Path m ts lt)
    {Q : List Vid → Mem → Prop} {R : Stop → Mem → Prop} (hR : ∀ s', R .fuel s') : ∀ {f ix : Nat} {stx : Option Vid}
    {ent : List Vid} {s : Mem}, (stx = none → EntOK m ts ent) → (∀ x, stx = some x → IsState m x) →
    (∀ j, ix = j + 1 → ∀ x, stx = some x → IsComposite m x) → HistInv m s.hist s.log →
    (∀ ent k l, EntOK m ts ent → HistInv m k l → Q ent { s with log := l, hist := k }) →
    wp (exits m ts f ix stx ent) Q R s := by
  have htsI : IsState m ts := hlt.isState
  obtain ⟨rt, hrt⟩ := hlt.cons
  intro f
  induction f with
  | zero => intro ix stx ent s _ _ _ _ _; exact hR _
  | succ f ih =>
    intro ix stx ent s hent hst hc hi hQ
    cases stx with
    | none =>
      have := hQ ent s.hist s.log (hent rfl) hi
      simpa [exits] using this
    | some x =>
      obtain ⟨lx, hlx⟩ := wf.path x (hst x rfl)
      obtain ⟨r, rfl⟩ := hlx.cons
      have hpar := hlx.parent_head
      unfold exits
      rw [wp_bind]
      rcases findLca_path (x := x) (f := f) (ent := []) hlt (by simp) with h1 | ⟨_, h2, h3⟩ | ⟨a1, b1, h1, h5, h3, h4⟩ |
        ⟨h1, _⟩
      · rw [h1]; exact hR _
      · rw [h3]
        simp only [wp_lift_ok, List.nil_append, wp_bind, wp_emit]
        refine updShallow_wp wf hpar rfl hi fun k hk => ?_
        rw [hpar]
        simp only
        have hcp : ∀ y, r.head? = some y → IsComposite m y := fun y hy =>
          wf.parent x y (by rw [hpar, hy])
        refine ih (fun _ => .inr ⟨rt, hrt⟩) (fun y hy => ?_) (fun _ _ y hy => hcp y hy) hk (fun ent k l h1 h2 => ?_)
        · exact (hcp y hy).isState
        · exact hQ ent k l h1 h2
      · rw [h4]
        simp only [wp_lift_ok, List.nil_append]
        cases ix with
        | zero =>
          simp only [wp_bind, wp_emit]
          refine updShallow_wp wf hpar rfl hi fun k hk => ?_
          have hd := lim.depth _ _ hlt
          rw [if_pos (by rw [h1] at hd; simp at hd; omega)]
          refine hQ _ k _ (.inr ?_) hk
          cases a1 with
          | nil => rw [hrt] at h1; simp at h1; exact ⟨[], by simp [h1.1]⟩
          | cons y a1 => rw [hrt] at h1; simp at h1; exact ⟨a1 ++ [x], by simp [h1.1]⟩
        | succ ix =>
          simp only [wp_pure]
          refine hQ _ s.hist s.log ?_ hi
          cases a1 with
          | nil =>
            rw [hrt] at h1; simp at h1
            exact .inl ⟨rfl, h1.1 ▸ hc ix rfl x rfl⟩
          | cons y a1 => rw [hrt] at h1; simp at h1; exact .inr ⟨a1, by simp [h1.1]⟩
      · have hd := lim.depth _ _ hlt
        simp at h1; omega

/-- The codes with which a well-formed state machine within the limits may answer. -/
def Known (c : RC) : Prop := c = .evtNFound ∨ c = .cndNFound ∨ c = .grdFalse ∨ c = .exTseg

theorem segExternal_safe {m : Machine} (wf : WellFormed m) (lim : Limits m) {env : Env} {e : Sig} {cs stn v : Vid}
    (hcs : IsState m cs) (hv : IsTarget m v) {Q : Vid × Bool → Mem → Prop} {R : Stop → Mem → Prop} {f : Nat}
    {ta : Option Act} {s : Mem} (hi : HistInv m s.hist s.log)
    (hQ : ∀ w b l k, IsLeaf m w → HistInv m k l → Q (w, b) { s with log := l, hist := k })
    (hR : ∀ s', R .fuel s')
    (hF : ∀ r l k, Known r → HistInv m k l → R (shown m r) { s with log := l, hist := k }) :
    wp (segLoop m env e false cs f false stn v ta false) Q R s := by
  cases f with
  | zero => exact hR _
  | succ f =>
    unfold segLoop
    rw [wp_bind, pushAct_wp, if_pos (by simpa using lim.segs)]
    rw [wp_bind]
    refine resolve_wp wf lim inside_histOf hR (hi.agree wf) hv (by simp) (fun st ts pend log1 hfo hts _ => ?_)
      (fun r log' hst => hF r log' s.hist (.inr (stuck_code hst)) (hi.ext hst.ext))
    obtain ⟨lt, hlt⟩ := wf.path ts hts
    simp only [wp_bind, stage4]
    refine exits_safe wf lim hlt hR (by simp) (fun x hx => by cases hx; exact hcs) (by simp) (hi.ext hfo.ext)
      fun ent k l hent hk => ?_
    rw [exec_wp, enter_wp]
    have hk3 : HistInv m k (l ++ acts e pend ++ ent.reverse.map .entry) := (hk.ext (Ext.acts _ _ _)).entries _
    rcases hts.cases with hleaf | hcomp
    · rw [comp_of_leaf hleaf]
      simp only
      rcases hent with ⟨_, hc⟩ | ⟨r, rfl⟩
      · exact absurd hc (by
          rintro ⟨_, _, _, _, _, hc⟩
          rcases hleaf with ⟨_, _, h⟩ | ⟨_, h⟩ <;> rw [h] at hc <;> simp at hc)
      · exact hQ ts _ _ k hleaf hk3
    · obtain ⟨p', t', d', ia', h', hts'⟩ := hcomp
      rw [comp_of_composite hts']
      simp only
      refine segMicro_wp wf lim inside_histOf hR hts' (hk3.agree wf) (fun w log' hde => ?_) (fun r log' hds => ?_)
      · obtain ⟨l', lv, rfl, h1, h2, h3, _⟩ := hde.facts hlt
        exact hQ w _ _ k h2 (hk3.append h1)
      · obtain ⟨l', rfl, h1⟩ := hds.facts
        exact hF r _ k (completes_code (.failed hds)) (hk3.append h1)

/-- The current state is a leaf. -/
def AtLeaf (m : Machine) (s : Mem) : Prop := ∃ cs, s.state = some cs ∧ IsLeaf m cs

/-- What every call leaves behind. -/
def Left (m : Machine) (s s' : Mem) : Prop := Sound m s' ∧ (AtLeaf m s → AtLeaf m s')

theorem compound_safe {m : Machine} (wf : WellFormed m) (lim : Limits m) {env : Env} {e : Sig} {f : Nat} {s : Mem}
    (hs : Sound m s) {Q : Bool → Mem → Prop} {R : Stop → Mem → Prop} (hR : ∀ s', R .fuel s')
    (hok : ∀ b s', Left m s s' → Q b s') (hfail : ∀ s' c, Known c → Left m s s' → R (shown m c) s') :
    wp (compound m env f e false) Q R s := by
  obtain ⟨cs, hst, hcs⟩ := hs.state
  obtain ⟨l, hl⟩ := wf.path cs hcs
  unfold compound
  simp only [wp_bind, wp_get]
  rw [hst]
  simp only [wp_bind]
  refine searchUp_wp hl (fun v t log1 hsel => ?_) (fun log' hn => ?_) (fun _ => hR _)
  · simp only
    have hi1 : HistInv m s.hist log1 := hs.hist.ext (selected_ext hsel)
    rcases ht : t.target with _ | w
    · simp only [wp_bind]
      rw [pushAct_wp, if_pos (by simpa using lim.segs), exec_wp, wp_pure]
      refine hok _ _ ⟨⟨⟨cs, hst, hcs⟩, ?_⟩, fun h => h⟩
      exact hi1.ext (by simpa using Ext.acts log1 e t.action.toList)
    · simp only [wp_bind]
      refine segExternal_safe wf lim hcs (wf.selTarget hsel ht) hi1 (fun w b l k hw hk => ?_) hR (fun r l k hr hk => ?_)
      · obtain ⟨lv, hlv⟩ := wf.path w hw.isState
        refine finish_wp wf hlv hR hk fun k' hk' => ?_
        exact hok _ _ ⟨⟨⟨w, rfl, hw.isState⟩, hk'⟩, fun _ => ⟨w, rfl, hw⟩⟩
      · exact hfail _ r hr ⟨⟨⟨cs, hst, hcs⟩, hk⟩, fun h => h⟩
  · simp only [wp_stop]
    exact hfail _ .evtNFound (.inl rfl) ⟨⟨⟨cs, hst, hcs⟩, hs.hist.ext hn.ext⟩, fun h => h⟩

theorem create_safe {m : Machine} (wf : WellFormed m) (lim : Limits m) {env : Env} {f : Nat} {s : Mem}
    (hs : Sound m s) {Q : Bool → Mem → Prop} {R : Stop → Mem → Prop} (hR : ∀ s', R .fuel s')
    (hok : ∀ b s', Left m s s' → AtLeaf m s' → Q b s') (hfail : ∀ s' c, Known c → Left m s s' → R (shown m c) s') :
    wp (compound m env f sigCreation true) Q R s := by
  obtain ⟨l, hl⟩ := wf.path m.istate wf.initial
  unfold compound
  simp only [wp_bind]
  refine segCreation_wp wf lim hl hR hs.hist (fun w log' hde hk => ?_) (fun r log' hds hk => ?_)
  · obtain ⟨_, lv, _, _, hleaf, hlv, _⟩ := hde.facts hl
    refine finish_wp wf hlv hR hk fun k' hk' => ?_
    exact hok _ _ ⟨⟨⟨w, rfl, hleaf.isState⟩, hk'⟩, fun _ => ⟨w, rfl, hleaf⟩⟩ ⟨w, rfl, hleaf⟩
  · exact hfail _ r (completes_code (.failed hds)) ⟨⟨hs.state, hk⟩, fun h => h⟩

theorem Left.trans {m : Machine} {a b c : Mem} (h1 : Left m a b) (h2 : Left m b c) : Left m a c :=
  ⟨h2.1, fun h => h2.2 (h1.2 h)⟩

theorem passes_safe {m : Machine} (wf : WellFormed m) (lim : Limits m) {env : Env} : ∀ {f : Nat} {e : Sig} {s : Mem},
    Sound m s → wp (passes m env f e false) (fun _ s' => Left m s s')
      (fun c s' => c = .fuel ∨ (∃ r, Known r ∧ c = shown m r) ∧ Left m s s') s := by
  intro f
  induction f with
  | zero => intro e s _; exact .inl rfl
  | succ f ih =>
    intro e s hs
    unfold passes
    rw [wp_bind]
    refine compound_safe wf lim hs (fun _ => .inl rfl) (fun b s' h => ?_) (fun s' c hc h => .inr ⟨⟨c, hc, rfl⟩, h⟩)
    cases b with
    | false => exact h
    | true =>
      exact wp_mono (ih h.1) (fun _ s2 h2 => h.trans h2) (fun c s2 h2 => h2.imp id fun ⟨h3, h4⟩ => ⟨h3, h.trans h4⟩)

theorem dispatch_safe {m : Machine} (wf : WellFormed m) (lim : Limits m) {env : Env} {f : Nat} {e : Sig} {s : Mem}
    (hs : Sound m s) : wp (dispatch m env f e) (fun _ s' => Left m s s' ∧ (e = sigCreation → AtLeaf m s'))
      (fun c s' => c = .fuel ∨ (∃ r, Known r ∧ c = shown m r) ∧ Left m s s') s := by
  unfold dispatch
  by_cases he : e = sigCreation
  · subst he
    cases f with
    | zero => exact .inl rfl
    | succ f =>
      rw [show (sigCreation == sigCreation) = true by simp]
      unfold passes
      rw [wp_bind]
      refine create_safe wf lim hs (fun _ => .inl rfl) (fun b s' h hl => ?_) (fun s' c hc h => .inr ⟨⟨c, hc, rfl⟩, h⟩)
      cases b with
      | false => exact ⟨h, fun _ => hl⟩
      | true =>
        exact wp_mono (passes_safe wf lim h.1) (fun _ s2 h2 => ⟨h.trans h2, fun _ => h2.2 hl⟩)
          (fun c s2 h2 => h2.imp id fun ⟨h3, h4⟩ => ⟨h3, h.trans h4⟩)
  · rw [show (e == sigCreation) = false by simpa using he]
    exact wp_mono (passes_safe wf lim hs) (fun _ s2 h2 => ⟨h2, fun h => absurd h he⟩) (fun c s2 h2 => h2)

theorem clear_safe {m : Machine} {h : Vid} {s s' : Mem} {r : Ans Unit} (hs : Sound m s)
    (hc : clearHistory h s = (s', r)) : r = .ok () ∧ Left m s s' := by
  have hc : ({ s with hist := setHist s.hist h none, log := s.log ++ [.clear h] }, Ans.ok ()) = (s', r) := hc
  simp only [Prod.mk.injEq] at hc
  obtain ⟨rfl, rfl⟩ := hc
  refine ⟨rfl, ⟨hs.state, ?_⟩, fun h => h⟩
  intro k d p trn hh
  have := hs.hist k d p trn hh
  simp only
  rw [lastChild_append, lastLeaf_append]
  cases d with
  | true =>
    simp only [if_true] at this ⊢
    simp only [lastLeaf, setHist, this]
    by_cases hk : k = h
    · simp [hk]
    · rw [if_neg hk, if_neg fun e => hk e.symm]
  | false =>
    simp only [Bool.false_eq_true, if_false] at this ⊢
    simp only [lastChild, setHist, this]
    by_cases hk : k = h
    · simp [hk]
    · rw [if_neg hk, if_neg fun e => hk e.symm]

theorem sound_mem0 {m : Machine} (wf : WellFormed m) : Sound m (mem0 m) :=
  ⟨⟨m.istate, rfl, wf.initial⟩, histInv_mem0 m⟩

end Verif.SM
