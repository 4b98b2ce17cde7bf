import Verif.SM.Engine
/-
Helper lemmas: shape of logs, end of a transition, and refinement of the reference semantics by the engine.
-/
namespace Verif.SM
open Eng Spec

/-! ### Logs only grow -/

/-- Calls of guards and effects. -/
def Quiet : Obs → Prop
  | .act _ _ => True
  | .guard _ _ _ => True
  | _ => False

theorem Quiet.silent {o : Obs} (h : Quiet o) : Silent o := by cases o <;> simp_all [Quiet, Silent]
theorem Quiet.noHist {o : Obs} (h : Quiet o) : NoHist o := by cases o <;> simp_all [Quiet, NoHist]

/-- `log'` extends `log` by calls of guards and effects. -/
def Ext (log log' : List Obs) : Prop := ∃ l, log' = log ++ l ∧ ∀ o ∈ l, Quiet o

theorem Ext.refl (log : List Obs) : Ext log log := ⟨[], by simp, by simp⟩
theorem Ext.trans {a b c : List Obs} (h : Ext a b) (h' : Ext b c) : Ext a c := by
  obtain ⟨l, rfl, hl⟩ := h
  obtain ⟨l', rfl, hl'⟩ := h'
  refine ⟨l ++ l', by simp, fun o ho => ?_⟩
  rcases List.mem_append.1 ho with ho | ho
  · exact hl o ho
  · exact hl' o ho
theorem Ext.acts (log : List Obs) (e : Sig) (l : List Act) : Ext log (log ++ acts e l) :=
  ⟨_, rfl, fun o ho => by obtain ⟨a, _, rfl⟩ := List.mem_map.1 ho; trivial⟩

theorem Spec.GuardTrue.ext {env : Env} {e : Sig} {g : Option Guard} {l l' : List Obs} (h : GuardTrue env e g l l') :
    Ext l l' := by
  cases h with
  | none => exact .refl _
  | els => exact .refl _
  | fn _ => exact ⟨_, rfl, by simp [Quiet]⟩

theorem Spec.GuardsFalse.ext {env : Env} {e : Sig} {g : List (Option Guard)} {l l' : List Obs}
    (h : GuardsFalse env e g l l') : Ext l l' := by
  induction h with
  | nil => exact .refl _
  | cons _ _ ih => exact .trans ⟨_, rfl, by simp [Quiet]⟩ ih

theorem branch_ext {env : Env} {e : Sig} {tbl : List Tr} {t : Tr} {l l' : List Obs} (h : Branch env e tbl l t l') :
    Ext l l' := by
  obtain ⟨_, _, _, _, h1, h2⟩ := h
  exact h1.ext.trans h2.ext

theorem selected_ext {m : Machine} {env : Env} {e : Sig} {p : List Vid} {v : Vid} {t : Tr} {l l' : List Obs}
    (h : Selected m env e p l v t l') : Ext l l' := by
  obtain ⟨_, _, _, _, h1, h2⟩ := h
  exact h1.ext.trans h2.ext

theorem Spec.Follows.ext {m : Machine} {env : Env} {e : Sig} {hist : Vid → Option Vid} {v ts : Vid}
    {pend pend' : List Act} {log log' : List Obs} (h : Follows m env e hist v pend log ts pend' log') : Ext log log' := by
  induction h with
  | state => exact .refl _
  | cond _ hb _ _ _ ih => exact (branch_ext hb).trans ih
  | choice _ hb _ _ ih => exact (Ext.acts _ _ _).trans ((branch_ext hb).trans ih)
  | restore _ _ _ ih => exact ih
  | default _ _ _ hg _ _ ih => exact hg.ext.trans ih
  | owner _ _ _ _ ih => exact ih

theorem Spec.Stuck.ext {m : Machine} {env : Env} {e : Sig} {hist : Vid → Option Vid} {v : Vid} {c : RC}
    {pend : List Act} {log log' : List Obs} (h : Stuck m env e hist v pend log c log') : Ext log log' := by
  induction h with
  | noCond _ hg => exact hg.ext
  | noChoice _ hg => exact (Ext.acts _ _ _).trans hg.ext
  | noDefault _ _ _ hg => exact hg.ext
  | fullCond _ hb _ => exact branch_ext hb
  | fullDefault _ _ _ hg _ => exact hg.ext
  | cond _ hb _ _ _ ih => exact (branch_ext hb).trans ih
  | choice _ hb _ _ ih => exact (Ext.acts _ _ _).trans ((branch_ext hb).trans ih)
  | default _ _ _ hg _ _ ih => exact hg.ext.trans ih

theorem HistInv.ext {m : Machine} {hist : Vid → Option Vid} {log log' : List Obs} (h : HistInv m hist log)
    (he : Ext log log') : HistInv m hist log' := by
  obtain ⟨l, rfl, hl⟩ := he
  exact h.append fun o ho => (hl o ho).noHist

theorem HistInv.entries {m : Machine} {hist : Vid → Option Vid} {log : List Obs} (h : HistInv m hist log)
    (l : List Vid) : HistInv m hist (log ++ l.map .entry) :=
  h.append fun o ho => by obtain ⟨a, _, rfl⟩ := List.mem_map.1 ho; trivial

theorem HistInv.agree {m : Machine} (wf : WellFormed m) {hist : Vid → Option Vid} {log : List Obs}
    (h : HistInv m hist log) : Agree m hist (histOf m log) := by
  intro k d p trn hk
  obtain ⟨c, rfl, _⟩ := wf.hist k d p trn hk
  rw [h k d c trn hk]
  unfold histOf
  rw [hk]
  cases d <;> rfl

theorem inside_histOf {m : Machine} {log : List Obs} : Inside m (histOf m log) := by
  intro h d p trn v hh hv
  unfold histOf at hv
  rw [hh] at hv
  cases d with
  | true => exact lastLeaf_some (by simp) hv
  | false => exact lastChild_some (by simp) hv

/-- Without exits, stable states and clearing in between, histories are the same. -/
theorem histOf_ext {m : Machine} {log log' : List Obs} (he : Ext log log') : histOf m log' = histOf m log := by
  have key : HistInv m (histOf m log) log := by
    intro h d p trn hh
    unfold histOf
    rw [hh]
    cases d <;> rfl
  funext h
  have := key.ext he
  rcases hh : m.vert h with _ | x
  · simp [histOf, hh]
  · cases x with
    | hist d p trn =>
      rcases p with _ | p
      · simp [histOf, hh]
      · have h2 := this h d p trn hh
        rw [h2]
        unfold histOf
        rw [hh]
        cases d <;> rfl
    | _ => simp [histOf, hh]

/-! ### End of a transition -/

theorem deepTargets_path {m : Machine} (wf : WellFormed m) : ∀ {l : List Vid} {stx : Option Vid} {f : Nat} {acc : List Vid},
    (stx = none ∧ l = [] ∨ ∃ x, stx = some x ∧ Path m x l) → (∀ x ∈ l, IsComposite m x) →
    deepTargets m f stx acc = .stop .fuel ∨
    ∃ ks, deepTargets m f stx acc = .ok (acc ++ ks) ∧
      ∀ k, k ∈ ks ↔ ∃ c trn, c ∈ l ∧ m.vert k = some (.hist true (some c) trn) := by
  intro l
  induction l with
  | nil =>
    intro stx f acc h _
    cases f with
    | zero => exact .inl rfl
    | succ f =>
      rcases h with ⟨rfl, _⟩ | ⟨x, _, hx⟩
      · exact .inr ⟨[], by simp [deepTargets], by simp⟩
      · obtain ⟨r, hr⟩ := hx.cons; simp at hr
  | cons y r ih =>
    intro stx f acc h hcomp
    cases f with
    | zero => exact .inl rfl
    | succ f =>
      rcases h with ⟨_, h⟩ | ⟨x, rfl, hx⟩
      · simp at h
      · have hy : x = y := by obtain ⟨r, hr⟩ := hx.cons; simp at hr; exact hr.1.symm
        subst hy
        obtain ⟨p, t, d, i, h, hv⟩ := hcomp x (by simp)
        have hpar := hx.parent_head
        have hp : p = r.head? := by simpa [Machine.parent, hv] using hpar
        have hnext : p = none ∧ r = [] ∨ ∃ x, p = some x ∧ Path m x r := by
          rw [hp]
          cases r with
          | nil => exact .inl ⟨rfl, rfl⟩
          | cons z r => exact .inr ⟨z, rfl, hx.suffix (a := [x]) rfl⟩
        have ih' := fun acc => ih (stx := p) (f := f) (acc := acc) hnext fun z hz => hcomp z (by simp [hz])
        -- deep histories that belong to `x` can only be `h`
        have own : ∀ k trn, m.vert k = some (.hist true (some x) trn) → h = some k := by
          intro k trn hk
          obtain ⟨c, hc, ⟨q, t', d', i', hc'⟩, _⟩ := wf.hist _ _ _ _ hk
          simp only [Option.some.injEq] at hc
          subst hc
          rw [hv] at hc'
          simp only [Option.some.injEq, Vertex.composite.injEq] at hc'
          exact hc'.2.2.2.2
        have skip : (∀ k trn, m.vert k ≠ some (.hist true (some x) trn)) → ∀ k,
            (∃ c trn, c ∈ r ∧ m.vert k = some (.hist true (some c) trn)) ↔
            (∃ c trn, c ∈ x :: r ∧ m.vert k = some (.hist true (some c) trn)) := by
          intro hno k
          constructor
          · rintro ⟨c, trn, hc, hk⟩; exact ⟨c, trn, by simp [hc], hk⟩
          · rintro ⟨c, trn, hc, hk⟩
            rcases List.mem_cons.1 hc with rfl | hc
            · exact absurd hk (hno k trn)
            · exact ⟨c, trn, hc, hk⟩
        unfold deepTargets
        rw [hv]
        simp only
        rcases h with _ | k0
        · simp only
          rcases ih' acc with hf | ⟨ks, hks, hmem⟩
          · exact .inl hf
          · refine .inr ⟨ks, hks, fun k => (hmem k).trans (skip ?_ k)⟩
            intro k trn hk
            have := own k trn hk
            simp at this
        · simp only
          rcases wf.owned x p t d i k0 hv with hu | ⟨kk, trn0, hk0⟩
          · simp only [hu]
            rcases ih' acc with hf | ⟨ks, hks, hmem⟩
            · exact .inl hf
            · refine .inr ⟨ks, hks, fun k => (hmem k).trans (skip ?_ k)⟩
              intro k trn hk
              have := own k trn hk
              simp only [Option.some.injEq] at this
              subst this
              rw [hu] at hk
              simp at hk
          · simp only [hk0]
            cases kk with
            | false =>
              simp only
              rcases ih' acc with hf | ⟨ks, hks, hmem⟩
              · exact .inl hf
              · refine .inr ⟨ks, hks, fun k => (hmem k).trans (skip ?_ k)⟩
                intro k trn hk
                have := own k trn hk
                simp only [Option.some.injEq] at this
                subst this
                rw [hk0] at hk
                simp at hk
            | true =>
              simp only
              rcases ih' (acc ++ [k0]) with hf | ⟨ks, hks, hmem⟩
              · exact .inl hf
              · refine .inr ⟨k0 :: ks, by rw [hks]; simp, fun k => ?_⟩
                rw [List.mem_cons, hmem k]
                constructor
                · rintro (rfl | ⟨c, trn, hc, hk⟩)
                  · exact ⟨x, trn0, by simp, hk0⟩
                  · exact ⟨c, trn, by simp [hc], hk⟩
                · rintro ⟨c, trn, hc, hk⟩
                  rcases List.mem_cons.1 hc with rfl | hc
                  · have := own k trn hk
                    simp only [Option.some.injEq] at this
                    exact .inl this.symm
                  · exact .inr ⟨c, trn, hc, hk⟩

theorem foldl_setHist (v : Option Vid) : ∀ (ks : List Vid) (h : Vid → Option Vid) (k : Vid),
    ks.foldl (fun h k => setHist h k v) h k = if k ∈ ks then v else h k := by
  intro ks
  induction ks with
  | nil => intro h k; simp
  | cons x ks ih =>
    intro h k
    rw [List.foldl_cons, ih]
    by_cases hk : k ∈ ks
    · simp [hk]
    · by_cases hx : k = x
      · simp [hx, setHist]
      · simp [hk, hx, setHist]

theorem finish_wp {m : Machine} (wf : WellFormed m) {f : Nat} {v : Vid} {l : List Vid} (hp : Path m v l) {s : Mem}
    {Q : Unit → Mem → Prop} {R : Stop → Mem → Prop} (hR : ∀ s', R .fuel s') (hi : HistInv m s.hist s.log)
    (hQ : ∀ k, HistInv m k (s.log ++ [.stable v]) → Q () { state := some v, hist := k, log := s.log ++ [.stable v] }) :
    wp (finish m f v) Q R s := by
  obtain ⟨r, rfl⟩ := hp.cons
  unfold finish
  rw [hp.parent_head]
  simp only [wp_bind]
  have hcomp : ∀ (l : List Vid) (v : Vid), Path m v (v :: l) → ∀ x ∈ l, IsComposite m x := by
    intro l
    induction l with
    | nil => intro v _; simp
    | cons y l ih =>
      intro v h x hx
      rcases List.mem_cons.1 hx with rfl | hx
      · exact wf.parent v x (by simpa using h.parent_head)
      · exact ih y (h.suffix (a := [v]) rfl) x hx
  rcases deepTargets_path wf (l := r) (stx := r.head?) (f := f) (acc := []) (by
      cases r with
      | nil => exact .inl ⟨rfl, rfl⟩
      | cons y r => exact .inr ⟨y, rfl, hp.suffix (a := [v]) rfl⟩) (hcomp r v hp) with h | ⟨ks, h, hm⟩
  · rw [h]; exact hR _
  · rw [h]
    simp only [List.nil_append, wp_lift_ok, wp_modify, wp_emit]
    apply hQ
    intro h d p trn hh
    rw [foldl_setHist]
    have hold := hi h d p trn hh
    cases d with
    | false =>
      simp only [Bool.false_eq_true, if_false] at hold ⊢
      rw [lastChild_append]
      simp only [lastChild]
      rw [if_neg, hold]
      rw [hm]
      rintro ⟨c, trn', _, hk⟩
      rw [hh] at hk
      simp at hk
    | true =>
      simp only [if_true] at hold ⊢
      rw [lastLeaf_append]
      simp only [lastLeaf]
      rw [← hold]
      have : h ∈ ks ↔ Below m p v := by
        rw [hm]
        constructor
        · rintro ⟨c, trn', hc, hk⟩
          rw [hh] at hk
          simp only [Option.some.injEq, Vertex.hist.injEq, true_and] at hk
          obtain ⟨rfl, _⟩ := hk
          obtain ⟨a, b, rfl⟩ := List.append_of_mem hc
          have hpp : Path m p (p :: b) := hp.suffix (a := v :: a) rfl
          exact Path.isBelow (c := p) (b := v :: a) (lc := p :: b) hp hpp (by simp)
        · intro hb
          obtain ⟨c, hc, ⟨q, t', d', i', hc'⟩, _⟩ := wf.hist _ _ _ _ hh
          simp only [Option.some.injEq] at hc
          subst hc
          obtain ⟨lp, hlp⟩ := wf.path p ⟨q, by simp [Machine.parent, hc']⟩
          obtain ⟨b, hb0, hbe⟩ := hb.path hp hlp
          refine ⟨p, trn, ?_, hh⟩
          obtain ⟨r', rfl⟩ := hlp.cons
          cases b with
          | nil => exact absurd rfl hb0
          | cons y b =>
            simp only [List.cons_append, List.cons.injEq] at hbe
            rw [hbe.2]
            simp
      by_cases hb : Below m p v
      · rw [if_pos (this.2 hb), if_pos hb]
      · rw [if_neg (fun h => hb (this.1 h)), if_neg hb]

/-! ### Default entry -/

theorem isCompletion_iff {m : Machine} {v : Vid} : isCompletion m v = true ↔ CompletionDue m v := by
  have key : ∀ tbl, findCompletion tbl = true ↔ ∃ t ∈ rows tbl, t.event = sigCompletion := by
    intro tbl
    induction tbl with
    | nil => simp [findCompletion, rows]
    | cons t ts ih =>
      unfold findCompletion
      by_cases ha : t.event = sigAny
      · simp [ha, rows]
      · rw [if_neg ha]
        have hr : rows (t :: ts) = t :: rows ts := by simp [rows, ha]
        rw [hr]
        by_cases hc : t.event = sigCompletion
        · simp [hc]
        · simp [hc, ih]
  unfold isCompletion CompletionDue
  constructor
  · intro h
    split at h
    · rename_i p t hv
      exact .inr ⟨p, t, hv, (key t).1 h⟩
    · rename_i p hv
      exact .inl ⟨p, hv⟩
    · simp at h
  · rintro (⟨p, hv⟩ | ⟨p, tbl, hv, ht⟩)
    · rw [hv]
    · rw [hv]; exact (key tbl).2 ht

theorem Spec.DefaultEntry.facts {m : Machine} {env : Env} {e : Sig} {hist : Vid → Option Vid} {c v : Vid}
    {log log' : List Obs} (h : DefaultEntry m env e hist c log v log') : ∀ {lc : List Vid}, Path m c lc →
    ∃ l lv, log' = log ++ l ∧ (∀ o ∈ l, NoHist o) ∧ IsLeaf m v ∧ Path m v lv ∧ replay m l lc = some lv := by
  induction h with
  | leaf hl => intro lc hp; exact ⟨[], lc, by simp, by simp, hl, hp, rfl⟩
  | @composite c ts s d p tbl ia h b l pend log log1 log' hc hf hpc hpt _ ih =>
    intro lc hp
    have := hpc.unique hp
    subst this
    obtain ⟨l2, lv, rfl, h1, h2, h3, h4⟩ := ih hpt
    obtain ⟨q, hq, hqq⟩ := hf.ext.trans (Ext.acts log1 e pend)
    refine ⟨q ++ b.reverse.map .entry ++ l2, lv, by rw [hq]; simp, ?_, h2, h3, ?_⟩
    · intro o ho
      rcases List.mem_append.1 ho with ho | ho
      · rcases List.mem_append.1 ho with ho | ho
        · exact (hqq o ho).noHist
        · obtain ⟨a, _, rfl⟩ := List.mem_map.1 ho; trivial
      · exact h1 o ho
    · rw [replay_append, replay_append, replay_silent fun o ho => (hqq o ho).silent]
      simp only [Option.bind_some]
      rw [replay_entries b hpt]
      exact h4

theorem Spec.DefaultStuck.facts {m : Machine} {env : Env} {e : Sig} {hist : Vid → Option Vid} {c : Vid} {r : RC}
    {log log' : List Obs} (h : DefaultStuck m env e hist c log r log') :
    ∃ l, log' = log ++ l ∧ (∀ o ∈ l, NoHist o) := by
  induction h with
  | path _ hs => obtain ⟨l, rfl, hl⟩ := hs.ext; exact ⟨l, rfl, fun o ho => (hl o ho).noHist⟩
  | @later c ts d p tbl ia h b l pend log log1 log' r hc hf hpc hpt _ ih =>
    obtain ⟨l2, rfl, h1⟩ := ih
    obtain ⟨q, hq, hqq⟩ := hf.ext.trans (Ext.acts log1 e pend)
    refine ⟨q ++ b.reverse.map .entry ++ l2, by rw [hq]; simp, ?_⟩
    intro o ho
    rcases List.mem_append.1 ho with ho | ho
    · rcases List.mem_append.1 ho with ho | ho
      · exact (hqq o ho).noHist
      · obtain ⟨a, _, rfl⟩ := List.mem_map.1 ho; trivial
    · exact h1 o ho

theorem comp_of_composite {m : Machine} {v d : Vid} {p : Option Vid} {t : List Tr} {i : Option Act} {h : Option Vid}
    (hv : m.vert v = some (.composite p t d i h)) : m.comp v = some (d, i) := by simp [Machine.comp, hv]

theorem comp_of_leaf {m : Machine} {v : Vid} (hv : IsLeaf m v) : m.comp v = none := by
  rcases hv with ⟨p, t, hv⟩ | ⟨p, hv⟩ <;> simp [Machine.comp, hv]

theorem lastFlag_of_path {m : Machine} {v : Vid} {b : List Vid} (hb : ∃ r, b = v :: r) {c : Bool} :
    lastFlag m b.reverse c = isCompletion m v := by
  obtain ⟨r, rfl⟩ := hb
  simp [lastFlag]

theorem segMicro_wp {m : Machine} (wf : WellFormed m) (lim : Limits m) {env : Env} {e : Sig} {creation : Bool} {cs : Vid}
    {hist : Vid → Option Vid} (hin : Inside m hist) {Q : Vid × Bool → Mem → Prop}
    {R : Stop → Mem → Prop} (hR : ∀ s', R .fuel s') : ∀ {f : Nat} {c d : Vid} {p : Option Vid} {t : List Tr}
    {ia : Option Act} {h : Option Vid} {s : Mem} {compl : Bool}, m.vert c = some (.composite p t d ia h) →
    Agree m s.hist hist →
    (∀ v log', DefaultEntry m env e hist c s.log v log' → Q (v, isCompletion m v) { s with log := log' }) →
    (∀ r log', DefaultStuck m env e hist c s.log r log' → R (shown m r) { s with log := log' }) →
    wp (segLoop m env e creation cs f true c d ia compl) Q R s := by
  intro f
  induction f with
  | zero => intro c d p t ia h s compl _ _ _ _; exact hR _
  | succ f ih =>
    intro c d p t ia h s compl hc hag hQ hS
    have hcs : IsState m c := ⟨p, by simp [Machine.parent, hc]⟩
    obtain ⟨lc, hlc⟩ := wf.path c hcs
    obtain ⟨hdt, hdg⟩ := wf.default c p t d ia h hc
    unfold segLoop
    rw [wp_bind, pushAct_wp, if_pos (by simpa using lim.segs)]
    rw [wp_bind]
    refine resolve_wp wf lim hin hR hag hdt (fun _ => ⟨hcs, .inr (.inr hdg)⟩) (fun st ts pend log1 hfo hts hmi => ?_)
      (fun r log' hst => hS r log' (.path hc (by simpa using hst)))
    obtain ⟨rfl, hbel⟩ := hmi rfl
    obtain ⟨lt, hlt⟩ := wf.path ts hts
    obtain ⟨b, rfl⟩ : ∃ b, lt = b ++ lc := by
      rcases hbel with rfl | hbel
      · exact ⟨[], by simpa using hlt.unique hlc⟩
      · obtain ⟨b, _, rfl⟩ := hbel.path hlt hlc; exact ⟨b, rfl⟩
    have hfo' : Follows m env e hist d ia.toList s.log ts pend log1 := by simpa using hfo
    simp only [wp_bind, stage4]
    have hcmp : some st = lc.head? := by obtain ⟨r, rfl⟩ := hlc.cons; rfl
    rw [hcmp]
    rcases addTarget_path (f := f) hlt (lim.depth _ _ hlt) with hb | hb <;> rw [hb]
    · exact hR _
    · rw [wp_lift_ok, exec_wp, enter_wp]
      rcases hts.cases with hl | hl
      · rw [comp_of_leaf hl]
        simp only
        have hbne : ∃ r, b = ts :: r := by
          obtain ⟨r, hr⟩ := hlt.cons
          cases b with
          | nil =>
            simp only [List.nil_append] at hr
            obtain ⟨r', hr'⟩ := hlc.cons
            rw [hr'] at hr
            simp only [List.cons.injEq] at hr
            rw [← hr.1] at hl
            exact absurd ⟨p, t, d, ia, h, hc⟩ hl.not_composite
          | cons x b => simp only [List.cons_append, List.cons.injEq] at hr; exact ⟨b, by rw [hr.1]⟩
        rw [lastFlag_of_path hbne]
        obtain ⟨r, rfl⟩ := hbne
        simp only [wp_pure]
        exact hQ ts _ (.composite hc hfo' hlc hlt (.leaf hl))
      · obtain ⟨p', t', d', ia', h', hts'⟩ := hl
        rw [comp_of_composite hts']
        simp only
        refine ih hts' hag (fun v log' hde => ?_) (fun r log' hds => ?_)
        · exact hQ v log' (.composite hc hfo' hlc hlt hde)
        · exact hS r log' (.later hc hfo' hlc hlt hds)

/-! ### One compound transition -/

theorem filter_split {l lt a b c : List Vid} (hl : l = a ++ c) (hlt : lt = b ++ c) (ha : ∀ x ∈ a, x ∉ lt) :
    l.filter (fun v => decide (v ∉ lt)) = a := by
  subst hl
  rw [List.filter_append]
  have h1 : a.filter (fun v => decide (v ∉ lt)) = a := by
    rw [List.filter_eq_self]; intro x hx; simpa using ha x hx
  have h2 : c.filter (fun v => decide (v ∉ lt)) = [] := by
    rw [List.filter_eq_nil_iff]; intro x hx; simp [hlt, hx]
  rw [h1, h2, List.append_nil]

theorem exits_sets {m : Machine} (wf : WellFormed m) (lim : Limits m) {cs ts : Vid} {l lt : List Vid}
    (hcs : IsLeaf m cs) (hl : Path m cs l) (hlt : Path m ts lt) {f : Nat} {s : Mem} {Q : List Vid → Mem → Prop}
    {R : Stop → Mem → Prop} (hR : ∀ s', R .fuel s') (hi : HistInv m s.hist s.log)
    (hQ : ∀ k, HistInv m k (s.log ++ (exited l lt).map .exit) → Q (entered l lt)
      { s with log := s.log ++ (exited l lt).map .exit, hist := k }) :
    wp (exits m ts f 0 (some cs) []) Q R s := by
  by_cases he : cs = ts
  · subst he
    have := hl.unique hlt
    subst this
    obtain ⟨r, rfl⟩ := hl.cons
    refine exits_self_wp wf hl (lim.depth _ _ hl) hi hR fun k hk => ?_
    have := hQ k (by simpa [exited] using hk)
    simpa [exited, entered] using this
  · have hne : ¬ l = lt := by
      rintro rfl
      obtain ⟨r, rfl⟩ := hl.cons
      obtain ⟨r', hr⟩ := hlt.cons
      simp only [List.cons.injEq] at hr
      exact he hr.1
    obtain ⟨a, b, c, h1, h2, ha, hb⟩ := hl.split hlt
    have hx : exited l lt = a := by
      unfold exited; rw [if_neg hne]; exact filter_split h1 h2 ha
    have hy : entered l lt = b := by
      unfold entered; rw [if_neg hne]; exact filter_split h2 h1 hb
    rw [hx, hy] at hQ
    refine exits_wp wf hlt (lim.depth _ _ hlt) h2 ha (.inr ⟨cs, rfl, h1 ▸ hl⟩) (fun _ ha0 => ?_) hi hR hQ
    subst ha0
    -- then `cs` would be an ancestor of the target, but it is a leaf
    obtain ⟨r, rfl⟩ := hl.cons
    simp only [List.nil_append] at h1
    subst h1
    rw [h2] at hlt
    cases b with
    | nil => exact hne h2.symm
    | cons y b =>
      have hbel := hlt.isBelow hl (by simp)
      have : ∀ {v : Vid}, Below m cs v → IsComposite m cs := by
        intro v h
        induction h with
        | child hp => exact wf.parent _ _ hp
        | trans _ _ ih => exact ih
      exact hcs.not_composite (this hbel)

theorem entered_cons {m : Machine} {cs ts : Vid} {l lt : List Vid} (hl : Path m cs l) (hlt : Path m ts lt)
    (hcs : IsLeaf m cs) (hts : IsLeaf m ts) (wf : WellFormed m) : ∃ r, entered l lt = ts :: r := by
  unfold entered
  obtain ⟨rt, rfl⟩ := hlt.cons
  split
  · exact ⟨[], rfl⟩
  · rename_i hne
    have : ts ∉ l := by
      intro hm
      obtain ⟨a, b, rfl⟩ := List.append_of_mem hm
      cases a with
      | nil =>
        have h1 := hl.cons
        obtain ⟨r, hr⟩ := h1
        simp only [List.nil_append, List.cons.injEq] at hr
        obtain ⟨rfl, _⟩ := hr
        exact hne (hl.unique hlt)
      | cons y a =>
        have hp : Path m ts (ts :: b) := hl.suffix (a := y :: a) rfl
        have hbel := hl.isBelow hp (b := y :: a) (by simp)
        have : ∀ {v : Vid}, Below m ts v → IsComposite m ts := by
          intro v h
          induction h with
          | child hp => exact wf.parent _ _ hp
          | trans _ _ ih => exact ih
        exact hts.not_composite (this hbel)
    refine ⟨rt.filter fun v => decide (v ∉ l), ?_⟩
    rw [List.filter_cons_of_pos (by simpa using this)]

theorem exited_cons {m : Machine} {cs ts : Vid} {l lt : List Vid} (hl : Path m cs l) (hlt : Path m ts lt)
    (hcs : IsLeaf m cs) (wf : WellFormed m) : ∃ r, exited l lt = cs :: r := by
  unfold exited
  obtain ⟨rl, rfl⟩ := hl.cons
  split
  · exact ⟨[], rfl⟩
  · rename_i hne
    have : cs ∉ lt := by
      intro hm
      obtain ⟨a, b, rfl⟩ := List.append_of_mem hm
      cases a with
      | nil =>
        obtain ⟨r, hr⟩ := hlt.cons
        simp only [List.nil_append, List.cons.injEq] at hr
        obtain ⟨rfl, _⟩ := hr
        exact hne (hl.unique hlt)
      | cons y a =>
        have hp : Path m cs (cs :: b) := hlt.suffix (a := y :: a) rfl
        have hbel := hlt.isBelow hp (b := y :: a) (by simp)
        have : ∀ {v : Vid}, Below m cs v → IsComposite m cs := by
          intro v h
          induction h with
          | child hp => exact wf.parent _ _ hp
          | trans _ _ ih => exact ih
        exact hcs.not_composite (this hbel)
    refine ⟨rl.filter fun v => decide (v ∉ lt), ?_⟩
    rw [List.filter_cons_of_pos (by simpa using this)]

theorem segExternal_wp {m : Machine} (wf : WellFormed m) (lim : Limits m) {env : Env} {e : Sig} {cs stn v : Vid}
    {l : List Vid} (hcs : IsLeaf m cs) (hl : Path m cs l) (hv : IsTarget m v) {Q : Vid × Bool → Mem → Prop}
    {R : Stop → Mem → Prop} (hR : ∀ s', R .fuel s') {f : Nat} {ta : Option Act} {s : Mem}
    (hi : HistInv m s.hist s.log)
    (hQ : ∀ ts pend log1 w lv log' k, Follows m env e (histOf m s.log) v ta.toList s.log ts pend log1 →
      Goes m env e cs ts pend log1 (.ok w) (log' ++ [.stable w]) → IsLeaf m w → Path m w lv → HistInv m k log' →
      Q (w, isCompletion m w) { s with log := log', hist := k })
    (hS : ∀ r log', Stuck m env e (histOf m s.log) v ta.toList s.log r log' → R (shown m r) { s with log := log' })
    (hD : ∀ ts pend log1 r log' k, Follows m env e (histOf m s.log) v ta.toList s.log ts pend log1 →
      Goes m env e cs ts pend log1 (.failed r) log' → HistInv m k log' →
      R (shown m r) { s with log := log', hist := k }) :
    wp (segLoop m env e false cs f false stn v ta false) Q R s := by
  cases f with
  | zero => exact hR _
  | succ f =>
    unfold segLoop
    rw [wp_bind, pushAct_wp, if_pos (by simpa using lim.segs)]
    rw [wp_bind]
    refine resolve_wp wf lim inside_histOf hR (hi.agree wf) hv (by simp) (fun st ts pend log1 hfo hts _ => ?_)
      (fun r log' hst => hS r log' (by simpa using hst))
    have hfo' : Follows m env e (histOf m s.log) v ta.toList s.log ts pend log1 := by simpa using hfo
    obtain ⟨lt, hlt⟩ := wf.path ts hts
    simp only [wp_bind, stage4]
    refine exits_sets wf lim hcs hl hlt hR (hi.ext hfo.ext) fun k hk => ?_
    rw [exec_wp, enter_wp]
    have hk3 : HistInv m k (log1 ++ (exited l lt).map .exit ++ acts e pend ++ (entered l lt).reverse.map .entry) :=
      (hk.ext (Ext.acts _ _ _)).entries _
    rcases hts.cases with hleaf | hcomp
    · rw [comp_of_leaf hleaf]
      simp only
      obtain ⟨r, hr⟩ := entered_cons hl hlt hcs hleaf wf
      have := hQ ts pend log1 ts lt _ k hfo' ⟨l, lt, hl, hlt, .ok (.leaf hleaf)⟩ hleaf hlt hk3
      rw [lastFlag_of_path ⟨r, hr⟩]
      rw [hr] at this ⊢
      exact this
    · obtain ⟨p', t', d', ia', h', hts'⟩ := hcomp
      rw [comp_of_composite hts']
      simp only
      refine segMicro_wp wf lim inside_histOf hR hts' (hk.agree wf) (fun w log' hde => ?_) (fun r log' hds => ?_)
      · obtain ⟨l', lv, rfl, h1, h2, h3, _⟩ := hde.facts hlt
        exact hQ ts pend log1 w lv _ k hfo' ⟨l, lt, hl, hlt, .ok hde⟩ h2 h3 (hk3.append h1)
      · obtain ⟨l', rfl, h1⟩ := hds.facts
        exact hD ts pend log1 r _ k hfo' ⟨l, lt, hl, hlt, .failed hds⟩ (hk3.append h1)

theorem segCreation_wp {m : Machine} (wf : WellFormed m) (lim : Limits m) {env : Env} {l : List Vid}
    (hl : Path m m.istate l) {Q : Vid × Bool → Mem → Prop} {R : Stop → Mem → Prop} (hR : ∀ s', R .fuel s') {f : Nat}
    {s : Mem} (hi : HistInv m s.hist s.log)
    (hQ : ∀ w log', DefaultEntry m env sigCreation (histOf m s.log) m.istate
        (s.log ++ acts sigCreation m.iaction.toList ++ l.reverse.map .entry) w log' → HistInv m s.hist log' →
      Q (w, isCompletion m w) { s with log := log' })
    (hD : ∀ r log', DefaultStuck m env sigCreation (histOf m s.log) m.istate
        (s.log ++ acts sigCreation m.iaction.toList ++ l.reverse.map .entry) r log' → HistInv m s.hist log' →
      R (shown m r) { s with log := log' }) :
    wp (segLoop m env sigCreation true m.istate f false m.istate m.istate m.iaction false) Q R s := by
  cases f with
  | zero => exact hR _
  | succ f =>
    unfold segLoop
    rw [wp_bind, pushAct_wp, if_pos (by simpa using lim.segs)]
    rw [wp_bind]
    have his := wf.initial
    have hres : ∀ {Q' : Vid × Vid × List Act → Mem → Prop},
        Q' (m.istate, m.istate, m.iaction.toList) s →
        wp (resolve m env sigCreation false f m.istate m.istate ([] ++ m.iaction.toList)) Q' R s := by
      intro Q' h
      cases f with
      | zero => exact hR _
      | succ f =>
        unfold resolve
        rcases his.cases with (⟨_, _, hv⟩ | ⟨_, hv⟩) | ⟨_, _, _, _, _, hv⟩ <;> rw [hv] <;> simpa using h
    apply hres
    simp only [wp_bind, stage4]
    have hl' : Path m m.istate (l ++ []) := by simpa using hl
    have hcmp : (none : Option Vid) = ([] : List Vid).head? := rfl
    rw [hcmp]
    rcases addTarget_path (f := f) hl' (lim.depth _ _ hl') with hb | hb <;> rw [hb]
    · exact hR _
    · rw [wp_lift_ok, exec_wp, enter_wp]
      have hk3 : HistInv m s.hist (s.log ++ acts sigCreation m.iaction.toList ++ l.reverse.map .entry) :=
        (hi.ext (Ext.acts _ _ _)).entries _
      rcases his.cases with hleaf | hcomp
      · rw [comp_of_leaf hleaf]
        simp only
        obtain ⟨r, hr⟩ := hl.cons
        have := hQ m.istate _ (.leaf hleaf) hk3
        rw [lastFlag_of_path ⟨r, hr⟩]
        rw [hr] at this ⊢
        exact this
      · obtain ⟨p', t', d', ia', h', hts'⟩ := hcomp
        rw [comp_of_composite hts']
        simp only
        refine segMicro_wp wf lim inside_histOf hR hts' (hi.agree wf) (fun w log' hde => ?_) (fun r log' hds => ?_)
        · obtain ⟨l', lv, rfl, h1, _⟩ := hde.facts hl
          exact hQ w _ hde (hk3.append h1)
        · obtain ⟨l', rfl, h1⟩ := hds.facts
          exact hD r _ hds (hk3.append h1)

/-- The engine's memory represents the current state `cs` and the log. -/
structure Rep (m : Machine) (s : Mem) (cs : Vid) : Prop where
  state : s.state = some cs
  leaf : IsLeaf m cs
  hist : HistInv m s.hist s.log

theorem Spec.WellFormed.selTarget {m : Machine} (wf : WellFormed m) {env : Env} {e : Sig} {l : List Vid}
    {log log' : List Obs} {v w : Vid} {t : Tr} (h : Selected m env e l log v t log') (ht : t.target = some w) :
    IsTarget m w := by
  obtain ⟨pre, post, _, he, _⟩ := h
  have hm : (v, t) ∈ candidates m e l := by rw [he]; simp
  unfold candidates at hm
  obtain ⟨x, _, hx⟩ := List.mem_flatMap.1 hm
  obtain ⟨t', ht', heq⟩ := List.mem_map.1 hx
  simp only [Prod.mk.injEq] at heq
  obtain ⟨rfl, rfl⟩ := heq
  have hr := (List.mem_filter.1 ht').1
  rcases hx' : m.trtbl x with _ | tbl
  · rw [hx'] at hr; simp [rows] at hr
  · rw [hx'] at hr
    exact wf.target x tbl t' w hx' hr ht

theorem compound_turn {m : Machine} (wf : WellFormed m) (lim : Limits m) {env : Env} {e : Sig} {cs : Vid} {f : Nat}
    {s : Mem} (hs : Rep m s cs) {Q : Bool → Mem → Prop} {R : Stop → Mem → Prop} (hR : ∀ s', R .fuel s')
    (hint : ∀ log', Turn m env e cs s.log .internal log' → HistInv m s.hist log' → Q false { s with log := log' })
    (hok : ∀ s' w, Turn m env e cs s.log (.ok w) s'.log → Rep m s' w → ¬ Ext s.log s'.log → Q (isCompletion m w) s')
    (hfail : ∀ s' c, Turn m env e cs s.log (.failed c) s'.log → Rep m s' cs →
      (Ext s.log s'.log → s'.hist = s.hist) → R (shown m c) s') :
    wp (compound m env f e false) Q R s := by
  obtain ⟨l, hl⟩ := wf.path cs hs.leaf.isState
  unfold compound
  simp only [wp_bind, wp_get]
  rw [hs.state]
  simp only [wp_bind]
  refine searchUp_wp hl (fun v t log1 hsel => ?_) (fun log' hn => ?_) (fun _ => hR _)
  · simp only
    rcases ht : t.target with _ | w
    · simp only [wp_bind]
      rw [pushAct_wp, if_pos (by simpa using lim.segs), exec_wp, wp_pure]
      refine hint _ (by simpa using Turn.taken hl hsel (.internal ht)) ?_
      exact hs.hist.ext ((selected_ext hsel).trans (by simpa using Ext.acts log1 e t.action.toList))
    · simp only [wp_bind]
      have hi1 : HistInv m s.hist log1 := hs.hist.ext (selected_ext hsel)
      refine segExternal_wp wf lim hs.leaf hl (wf.selTarget hsel ht) hR hi1
        (fun ts pend log2 x lv log' k hfo hg hleaf hlv hk => ?_)
        (fun r log' hst => ?_) (fun ts pend log2 r log' k hfo hg hk => ?_)
      · refine finish_wp wf hlv hR hk fun k' hk' => ?_
        refine hok _ x (.taken hl hsel (.external ht (.moves hfo hg))) ⟨rfl, hleaf, hk'⟩ fun hext => ?_
        obtain ⟨l', lt, hl', hlt, hc⟩ := hg
        obtain ⟨a, ha⟩ : ∃ a, log' = log2 ++ a := by
          have hc' : ∃ a, log' ++ [Obs.stable x] = log2 ++ a ++ [Obs.stable x] := by
            generalize hL : log' ++ [Obs.stable x] = L at hc
            cases hc with
            | ok hde =>
              obtain ⟨q, _, rfl, _⟩ := hde.facts hlt
              exact ⟨(exited l' lt).map .exit ++ (acts e pend ++ ((entered l' lt).reverse.map .entry ++ q)), by simp⟩
          obtain ⟨a, ha⟩ := hc'
          exact ⟨a, by rwa [List.append_cancel_right_eq] at ha⟩
        obtain ⟨q1, hq1, _⟩ := (selected_ext hsel).trans hfo.ext
        obtain ⟨q2, hq2, hqq⟩ := hext
        simp only at hq2
        rw [ha, hq1] at hq2
        simp only [List.append_assoc, List.append_cancel_left_eq] at hq2
        exact hqq (.stable x) (by rw [← hq2]; simp)
      · exact hfail _ r (.taken hl hsel (.external ht (.stuck hst))) ⟨hs.state, hs.leaf, hi1.ext hst.ext⟩ (fun _ => rfl)
      · refine hfail _ r (.taken hl hsel (.external ht (.moves hfo hg))) ⟨hs.state, hs.leaf, hk⟩ (fun hext => ?_)
        exfalso
        obtain ⟨l', lt, hl', hlt, hc⟩ := hg
        have := hl'.unique hl
        subst this
        rcases hc with _ | hds
        obtain ⟨q, hq, _⟩ := hds.facts
        obtain ⟨q1, hq1, _⟩ := (selected_ext hsel).trans hfo.ext
        obtain ⟨q2, hq2, hqq⟩ := hext
        simp only at hq2
        obtain ⟨r0, hr0⟩ : ∃ r0, exited l' lt = cs :: r0 := exited_cons hl' hlt hs.leaf wf
        rw [hq, hq1, hr0] at hq2
        simp only [List.append_assoc, List.append_cancel_left_eq] at hq2
        exact hqq (.exit cs) (by rw [← hq2]; simp)
  · simp only [wp_stop]
    exact hfail _ .evtNFound (.none hl hn) ⟨hs.state, hs.leaf, hs.hist.ext hn.ext⟩ (fun _ => rfl)

theorem compound_create {m : Machine} (wf : WellFormed m) (lim : Limits m) {env : Env} {f : Nat} {s : Mem}
    (hi : HistInv m s.hist s.log) {Q : Bool → Mem → Prop} {R : Stop → Mem → Prop} (hR : ∀ s', R .fuel s')
    (hok : ∀ s' w, Creates m env s.log (.ok w) s'.log → Rep m s' w → Q (isCompletion m w) s')
    (hfail : ∀ s' c, Creates m env s.log (.failed c) s'.log → s'.state = s.state → R (shown m c) s') :
    wp (compound m env f sigCreation true) Q R s := by
  obtain ⟨l, hl⟩ := wf.path m.istate wf.initial
  unfold compound
  simp only [wp_bind]
  refine segCreation_wp wf lim hl hR hi (fun w log' hde hk => ?_) (fun r log' hds hk => ?_)
  · obtain ⟨_, lv, _, _, hleaf, hlv, _⟩ := hde.facts hl
    refine finish_wp wf hlv hR hk fun k' hk' => ?_
    exact hok _ w ⟨l, hl, .ok hde⟩ ⟨rfl, hleaf, hk'⟩
  · exact hfail _ r ⟨l, hl, .failed hds⟩ rfl

/-! ### Dispatch -/

/-- Logs only grow. -/
theorem turn_prefix {m : Machine} {env : Env} {e : Sig} {cs : Vid} {log log' : List Obs} {o : Outcome}
    (h : Turn m env e cs log o log') : ∃ q, log' = log ++ q := by
  cases h with
  | none _ hn => obtain ⟨q, h, _⟩ := hn.ext; exact ⟨q, h⟩
  | taken _ hs ht =>
    obtain ⟨q1, rfl, _⟩ := selected_ext hs
    cases ht with
    | internal => exact ⟨_, by rw [List.append_assoc]⟩
    | external _ hc =>
      cases hc with
      | stuck hst => obtain ⟨q, rfl, _⟩ := hst.ext; exact ⟨q1 ++ q, by simp⟩
      | moves hf hg =>
        obtain ⟨q2, rfl, _⟩ := hf.ext
        obtain ⟨l, lt, _, hlt, hc⟩ := hg
        cases hc with
        | ok hde => obtain ⟨q, _, rfl, _⟩ := hde.facts hlt; exact ⟨_, by simp only [List.append_assoc]; rfl⟩
        | failed hds => obtain ⟨q, rfl, _⟩ := hds.facts; exact ⟨_, by simp only [List.append_assoc]; rfl⟩

theorem dispatches_prefix {m : Machine} {env : Env} {e : Sig} {cs cs' : Vid} {log log' : List Obs} {r : Ans Unit}
    (h : Dispatches m env e cs log cs' log' r) : ∃ q, log' = log ++ q := by
  induction h with
  | internal ht => exact turn_prefix ht
  | ok ht _ => exact turn_prefix ht
  | failed ht => exact turn_prefix ht
  | completion ht _ _ ih =>
    obtain ⟨q, rfl⟩ := turn_prefix ht
    obtain ⟨q', rfl⟩ := ih
    exact ⟨q ++ q', by simp⟩

theorem no_ext {m : Machine} {env : Env} {e e' : Sig} {cs cs' w : Vid} {log log1 log' : List Obs} {r : Ans Unit}
    {o : Outcome} (ht : Turn m env e cs log o log1) (hn : ¬ Ext log log1) (h : Dispatches m env e' w log1 cs' log' r) :
    ¬ Ext log log' := by
  rintro ⟨l, hl, hq⟩
  obtain ⟨q, rfl⟩ := dispatches_prefix h
  obtain ⟨q1, rfl⟩ := turn_prefix ht
  rw [List.append_assoc, List.append_cancel_left_eq] at hl
  subst hl
  exact hn ⟨q1, rfl, fun o ho => hq o (by simp [ho])⟩

theorem passes_refines {m : Machine} (wf : WellFormed m) (lim : Limits m) {env : Env} : ∀ {f : Nat} {e : Sig} {cs : Vid}
    {s : Mem}, Rep m s cs → ∀ {s' : Mem} {r : Ans Unit}, passes m env f e false s = (s', r) → r ≠ .stop .fuel →
    ∃ cs', Dispatches m env e cs s.log cs' s'.log r ∧ Rep m s' cs' ∧ (Ext s.log s'.log → s'.hist = s.hist) := by
  intro f
  induction f with
  | zero =>
    intro e cs s _ s' r h hr
    simp only [passes, Eng.stop, Prod.mk.injEq] at h
    exact absurd h.2.symm hr
  | succ f ih =>
    intro e cs s hs
    suffices h : wp (passes m env (f + 1) e false)
        (fun a s' => ∃ cs', Dispatches m env e cs s.log cs' s'.log (.ok a) ∧ Rep m s' cs' ∧
          (Ext s.log s'.log → s'.hist = s.hist))
        (fun c s' => c ≠ .fuel → ∃ cs', Dispatches m env e cs s.log cs' s'.log (.stop c) ∧ Rep m s' cs' ∧
          (Ext s.log s'.log → s'.hist = s.hist)) s by
      intro s' r hp hr
      rcases r with _ | c
      · exact wp_ok h hp
      · exact wp_stopped h hp fun hc => hr (by rw [hc])
    unfold passes
    rw [wp_bind]
    refine compound_turn wf lim hs (fun s' h => absurd rfl h) (fun log' ht hk => ?_) (fun s1 w ht hrep hnx => ?_)
      (fun s1 c ht hrep hx _ => ⟨cs, .failed ht, hrep, hx⟩)
    · exact ⟨cs, .internal ht, ⟨hs.state, hs.leaf, hk⟩, fun _ => rfl⟩
    · cases hc : isCompletion m w with
      | false =>
        refine ⟨w, .ok ht ?_, hrep, fun hx => absurd hx hnx⟩
        intro hd
        rw [isCompletion_iff.2 hd] at hc
        simp at hc
      | true =>
        simp only
        unfold wp
        rcases hp : passes m env f sigCompletion false s1 with ⟨s2, _ | c⟩
        · obtain ⟨cs', h1, h2, _⟩ := ih hrep hp (by simp)
          exact ⟨cs', .completion ht (isCompletion_iff.1 hc) h1, h2, fun hx => absurd hx (no_ext ht hnx h1)⟩
        · intro hne
          obtain ⟨cs', h1, h2, _⟩ := ih hrep hp (by simpa using hne)
          exact ⟨cs', .completion ht (isCompletion_iff.1 hc) h1, h2, fun hx => absurd hx (no_ext ht hnx h1)⟩

theorem create_refines {m : Machine} (wf : WellFormed m) (lim : Limits m) {env : Env} {f : Nat} {s : Mem}
    (hi : HistInv m s.hist s.log) (hst : s.state = some m.istate) {s' : Mem} {r : Ans Unit}
    (h : init m env f s = (s', r)) (hr : r ≠ .stop .fuel) :
    ∃ cs', Inits m env s.log cs' s'.log r ∧ s'.state = some cs' ∧
      (Rep m s' cs' ∨ ∃ c, Creates m env s.log (.failed c) s'.log ∧ r = .stop (shown m c)) := by
  have h : passes m env f sigCreation true s = (s', r) := h
  cases f with
  | zero =>
    simp only [passes, Eng.stop, Prod.mk.injEq] at h
    exact absurd h.2.symm hr
  | succ f =>
    suffices hw : wp (passes m env (f + 1) sigCreation true)
        (fun a s' => ∃ cs', Inits m env s.log cs' s'.log (.ok a) ∧ s'.state = some cs' ∧
          (Rep m s' cs' ∨ ∃ c, Creates m env s.log (.failed c) s'.log ∧ (.ok a : Ans Unit) = .stop (shown m c)))
        (fun c s' => c ≠ .fuel → ∃ cs', Inits m env s.log cs' s'.log (.stop c) ∧ s'.state = some cs' ∧
          (Rep m s' cs' ∨ ∃ c', Creates m env s.log (.failed c') s'.log ∧ (.stop c : Ans Unit) = .stop (shown m c'))) s by
      rcases r with _ | c
      · exact wp_ok hw h
      · exact wp_stopped hw h fun hc => hr (by rw [hc])
    unfold passes
    rw [wp_bind]
    refine compound_create wf lim hi (fun s' h => absurd rfl h) (fun s1 w ht hrep => ?_) (fun s1 c ht hs1 _ => ?_)
    · cases hc : isCompletion m w with
      | false =>
        refine ⟨w, .ok ht ?_, hrep.state, .inl hrep⟩
        intro hd
        rw [isCompletion_iff.2 hd] at hc
        simp at hc
      | true =>
        simp only
        unfold wp
        rcases hp : passes m env f sigCompletion false s1 with ⟨s2, _ | c⟩
        · obtain ⟨cs', h1, h2, _⟩ := passes_refines wf lim hrep hp (by simp)
          exact ⟨cs', .completion ht (isCompletion_iff.1 hc) h1, h2.state, .inl h2⟩
        · intro hne
          obtain ⟨cs', h1, h2, _⟩ := passes_refines wf lim hrep hp (by simpa using hne)
          exact ⟨cs', .completion ht (isCompletion_iff.1 hc) h1, h2.state, .inl h2⟩
    · exact ⟨m.istate, .failed ht, by rw [hs1, hst], .inr ⟨c, ht, rfl⟩⟩

end Verif.SM
