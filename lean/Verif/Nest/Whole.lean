import Verif.Nest.Lemmas
import Verif.SM.Robust
/-
Helper lemmas: whole dispatches, and dispatches inside dispatches.
-/
namespace Verif.Nest
open Verif.SM Low Verif.Nest.Spec

theorem Sim.bind' {i : Nat} {T : World → World → Prop} {D : World → World → Stop → Prop} {α β α' β' : Type} (hT : Keeps i T D) {x : Low β} {y : Eng α}
    {g : β → Low β'} {k : α → Eng α'} {R : α → β → Vars → Prop} {R' : α' → β' → Vars → Prop} {s : World × Vars}
    (h : Sim i T D x y R s)
    (hk : ∀ a b s', R a b s'.2 → y (s.1.mem i) = (s'.1.mem i, .ok a) → Sim i T D (g b) (k a) R' s') :
    Sim i T D (x >>= g) (y >>= k) R' s := by
  intro hG s' b hx m' a hy
  change Low.bind x g s = _ at hx
  change Eng.bind y k _ = _ at hy
  unfold Low.bind at hx
  unfold Eng.bind at hy
  cases hx1 : x s with
  | mk s1 b1 =>
    cases hy1 : y (s.1.mem i) with
    | mk m1 a1 =>
      rw [hx1] at hx
      rw [hy1] at hy
      rcases h hG s1 b1 hx1 m1 a1 hy1 with h | ⟨c, h, hc⟩ | ⟨h1, h2, ⟨a', b', ha, hb, hR⟩ | ⟨c, ha, hb⟩⟩
      · subst h; simp only [Prod.mk.injEq] at hy; exact .inl hy.2.symm
      · subst h; simp only [Prod.mk.injEq] at hx; exact .inr (.inl ⟨c, hx.2.symm, hx.1 ▸ hc⟩)
      · subst ha hb
        simp only at hx hy
        rw [← h1] at hy
        rcases hk a' b' s1 hR (by rw [hy1, h1]) (hT.right h2) s' b hx m' a hy with h | ⟨c, h, hc⟩ | ⟨g1, g2, g3⟩
        · exact .inl h
        · exact .inr (.inl ⟨c, h, hT.dead h2 hc⟩)
        · exact .inr (.inr ⟨g1, hT.trans h2 g2, g3⟩)
      · subst ha hb
        simp only [Prod.mk.injEq] at hx hy
        refine .inr (.inr ⟨?_, ?_, .inr ⟨c, hy.2.symm, hx.2.symm⟩⟩)
        · rw [← hx.1, ← hy.1]; exact h1
        · rw [← hx.1]; exact h2

section
variable {p : Prog} {d : Disp} {i : Nat} {T : World → World → Prop} {D : World → World → Stop → Prop}

theorem passes_sim (hT : Keeps i T D) (hc : CallOK p d i T D) (fit : Fits (p.mach i)) (wf : SM.Spec.WellFormed (p.mach i))
    (lim : SM.Spec.Limits (p.mach i)) : ∀ (f : Nat) (e : Sig) (creation : Bool) (s : World × Vars),
    (creation = true → e = sigCreation) → Sound (p.mach i) (s.1.mem i) →
    Sim i T D (passes p d i f e creation) (SM.passes (p.mach i) (p.env i) f e creation) (fun _ _ _ => True) s := by
  intro f
  induction f with
  | zero => intro e c s _ _; exact Sim.stop
  | succ f ih =>
    intro e c s he hs
    unfold passes SM.passes
    refine Sim.bind' hT (compound_sim hT hc fit wf.initial f e c s ?_) ?_
    · intro _ cs hcs
      obtain ⟨cs', h1, h2⟩ := hs.state
      rw [hcs] at h1
      cases h1
      exact h2
    · rintro a _ s' rfl hy
      cases a with
      | false => exact Sim.pure trivial
      | true =>
        refine ih sigCompletion false s' (by simp) ?_
        cases c with
        | true =>
          have := he rfl
          subst this
          have hw : wp (SM.compound (p.mach i) (p.env i) f sigCreation true) (fun _ s => Sound (p.mach i) s)
              (fun _ _ => True) (s.1.mem i) :=
            create_safe wf lim hs (fun _ => trivial) (fun _ _ h _ => h.1) (fun _ _ _ _ => trivial)
          have := wp_ok hw hy
          exact this
        | false =>
          have hw : wp (SM.compound (p.mach i) (p.env i) f e false) (fun _ s => Sound (p.mach i) s)
              (fun _ _ => True) (s.1.mem i) :=
            compound_safe wf lim hs (fun _ => trivial) (fun _ _ h => h.1) (fun _ _ _ _ => trivial)
          have := wp_ok hw hy
          exact this

end

theorem put_self {μ : Nat → Mem} {i : Nat} : put μ i (μ i) = μ := by
  funext j; unfold put; split <;> simp_all

theorem put_put {μ : Nat → Mem} {i : Nat} {a b : Mem} : put (put μ i a) i b = put μ i b := by
  funext j; unfold put; split <;> simp_all

theorem put_comm {μ : Nat → Mem} {i j : Nat} {a b : Mem} (h : i ≠ j) : put (put μ i a) j b = put (put μ j b) i a := by
  funext k; unfold put; split <;> split <;> simp_all

theorem put_same {μ : Nat → Mem} {i : Nat} {a : Mem} : put μ i a i = a := by simp [put]

theorem put_ne {μ : Nat → Mem} {i j : Nat} {a : Mem} (h : j ≠ i) : put μ i a j = μ j := by simp [put, h]

theorem asked_append {p : Prog} {i : Nat} {q1 q2 : List Obs} : ∀ {log : List Obs},
    asked p i log (q1 ++ q2) = asked p i log q1 ++ asked p i (log ++ q1) q2 := by
  induction q1 with
  | nil => intro log; simp [asked]
  | cons o q ih => intro log; simp [asked, ih]

theorem asked_quiet {p : Prog} {i : Nat} : ∀ {q log : List Obs}, (∀ o ∈ q, quiet o = true) → asked p i log q = [] := by
  intro q
  induction q with
  | nil => intro log _; rfl
  | cons o q ih =>
    intro log h
    simp only [asked, h o (by simp), if_true, List.nil_append]
    exact ih fun x hx => h x (by simp [hx])

theorem asked_rank {p : Prog} {rank : Nat → Nat} (hr : Ranked p rank) {i : Nat} : ∀ {q log : List Obs},
    ∀ x ∈ asked p i log q, rank x.1 < rank i := by
  intro q
  induction q with
  | nil => intro log x hx; simp [asked] at hx
  | cons o q ih =>
    intro log x hx
    simp only [asked, List.mem_append] at hx
    rcases hx with hx | hx
    · split at hx
      · simp at hx
      · exact hr _ _ _ hx
    · exact ih x hx

section
variable {p : Prog} {f : Nat}

theorem does_append {μ μ1 μ2 : Nat → Mem} {l1 l2 : List (Nat × Sig)} {d1 d2 : List (Nat × Sig × Ans Unit)}
    (h1 : Does p f μ l1 d1 μ1) (h2 : Does p f μ1 l2 d2 μ2) : Does p f μ (l1 ++ l2) (d1 ++ d2) μ2 := by
  induction h1 with
  | nil => exact h2
  | cons a b c d e _ _ ih =>
    simp only [List.append_assoc, List.cons_append]
    exact .cons a b c d e (ih h2)

/-- A machine that is not dispatched to stays as it is, and its data do not matter. -/
theorem does_frame {rank : Nat → Nat} (hr : Ranked p rank) {i : Nat} {μ μ' : Nat → Mem} {l : List (Nat × Sig)}
    {d : List (Nat × Sig × Ans Unit)} (h : Does p f μ l d μ') : (∀ x ∈ l, rank x.1 < rank i) →
    μ' i = μ i ∧ ∀ x, Does p f (put μ i x) l d (put μ' i x) := by
  induction h with
  | nil => intro _; exact ⟨rfl, fun x => .nil⟩
  | @cons μ μ1 μ2 j e l m' a q d1 d2 h1 h2 h3 h4 h5 h6 ih1 ih2 =>
    intro hl
    have hj : rank j < rank i := hl (j, e) (by simp)
    have hne : j ≠ i := by rintro rfl; omega
    obtain ⟨g1, g2⟩ := ih1 fun x hx => Nat.lt_trans (asked_rank hr x hx) hj
    obtain ⟨g3, g4⟩ := ih2 fun x hx => hl x (by simp [hx])
    refine ⟨?_, fun x => ?_⟩
    · rw [g3, put_ne (Ne.symm hne), g1]
    · refine .cons (m' := m') (a := a) (q := q) ?_ h2 ?_ ?_ ?_ ?_ (μ1 := put μ1 i x)
      · rw [put_ne hne]; exact h1
      · rw [put_ne hne]; exact h3
      · rw [put_ne hne]; exact g2 x
      · rw [put_ne hne, put_ne hne]; exact h5
      · rw [put_comm (Ne.symm hne)]; exact g4 x

theorem does_sound (hp : Apt p) {μ μ' : Nat → Mem} {l : List (Nat × Sig)} {d : List (Nat × Sig × Ans Unit)}
    (h : Does p f μ l d μ') {k : Nat} : Sound (p.mach k) (μ k) → Sound (p.mach k) (μ' k) := by
  induction h with
  | nil => exact id
  | @cons μ μ1 μ2 j e l m' a q d1 d2 h1 h2 h3 h4 h5 h6 ih1 ih2 =>
    intro hs
    apply ih2
    by_cases hk : k = j
    · subst hk
      rw [put_same]
      have hd := dispatch_safe (hp.wf k) (hp.lim k) (env := p.env k) (f := f) (e := e) hs
      rcases h2 with rfl | ⟨c, rfl⟩
      · exact (wp_ok hd h1).1.1
      · rcases wp_stopped hd h1 with h | ⟨_, h⟩
        · simp at h
        · exact h.1
    · rw [put_ne hk]; exact ih1 hs

end

theorem of_append {j : Nat} {a b : List (Nat × Sig × Ans Unit)} : of j (a ++ b) = of j a ++ of j b := by
  simp [of]

section
variable {p : Prog} {f : Nat}

theorem alone_nil {j : Nat} {m : Mem} : Alone p f j [] m m := ⟨by simp, rfl⟩

theorem alone_cons {j : Nat} {m m1 m2 : Mem} {e : Sig} {a : Ans Unit} {l : List (Sig × Ans Unit)}
    (h : SM.dispatch (p.mach j) (p.env j) f e m = (m1, a)) (ha : SM.Spec.Returns a) (h2 : Alone p f j l m1 m2) :
    Alone p f j ((e, a) :: l) m m2 := by
  obtain ⟨g1, g2⟩ := h2
  refine ⟨by simpa using ⟨ha, fun x y => g1 (x, y)⟩, ?_⟩
  simp only [List.map_cons, SM.calls, SM.op, h]
  rcases ha with rfl | ⟨c, rfl⟩ <;> simp only [g2]

theorem alone_append {j : Nat} {l1 l2 : List (Sig × Ans Unit)} : ∀ {m m1 m2 : Mem}, Alone p f j l1 m m1 →
    Alone p f j l2 m1 m2 → Alone p f j (l1 ++ l2) m m2 := by
  induction l1 with
  | nil =>
    rintro m m1 m2 ⟨_, h1⟩ h2
    simp only [List.map_nil, SM.calls, Prod.mk.injEq] at h1
    rw [h1.1]
    exact h2
  | cons x l ih =>
    obtain ⟨e, a⟩ := x
    rintro m m1 m2 ⟨h0, h1⟩ h2
    have ha : SM.Spec.Returns a := h0 (e, a) (by simp)
    simp only [List.map_cons, SM.calls, SM.op] at h1
    rcases hd : SM.dispatch (p.mach j) (p.env j) f e m with ⟨m3, a3⟩
    rw [hd] at h1
    have hr : ∀ y ∈ l, SM.Spec.Returns y.2 := fun y hy => h0 y (by simp [hy])
    have hgo : ∀ a', ((SM.calls (p.mach j) (p.env j) (l.map fun x => (.dispatch x.1, f)) m3).1,
        a' :: (SM.calls (p.mach j) (p.env j) (l.map fun x => (.dispatch x.1, f)) m3).2) = (m1, a :: l.map (·.2)) →
        a' = a ∧ Alone p f j (l ++ l2) m3 m2 := by
      intro a' h
      simp only [Prod.mk.injEq, List.cons.injEq] at h
      exact ⟨h.2.1, ih ⟨hr, Prod.ext h.1 h.2.2⟩ h2⟩
    rcases a3 with u | c
    · obtain ⟨rfl, h⟩ := hgo _ h1
      exact alone_cons hd ha h
    · cases c with
      | rc c =>
        obtain ⟨rfl, h⟩ := hgo _ h1
        exact alone_cons hd ha h
      | _ =>
        simp only [Prod.mk.injEq, List.cons.injEq] at h1
        obtain ⟨_, rfl, _⟩ := h1
        rcases ha with h | ⟨_, h⟩ <;> simp at h

theorem does_alone {μ μ' : Nat → Mem} {l : List (Nat × Sig)} {d : List (Nat × Sig × Ans Unit)} (h : Does p f μ l d μ')
    {k : Nat} : Alone p f k (of k d) (μ k) (μ' k) := by
  induction h with
  | nil => exact alone_nil
  | @cons μ μ1 μ2 j e l m' a q d1 d2 h1 h2 h3 h4 h5 h6 ih1 ih2 =>
    rw [of_append]
    refine alone_append ih1 ?_
    by_cases hk : k = j
    · subst hk
      rw [put_same] at ih2
      simp only [of, List.filterMap_cons, if_true]
      exact alone_cons (by rw [h5]; exact h1) h2 ih2
    · rw [put_ne hk] at ih2
      simp only [of, List.filterMap_cons, if_neg (Ne.symm hk)]
      exact ih2

end

/-- A dead end: it is that of some machine which, alone, would have come to it as well. -/
def Died (p : Prog) (f : Nat) (P : Nat → Prop) (w w' : World) (c : Stop) : Prop :=
  c ≠ .ub ∧ ∃ new, w'.done = w.done ++ new ∧ ∃ j e m m', P j ∧ Alone p f j (of j new) (w.mem j) m ∧
    SM.dispatch (p.mach j) (p.env j) f e m = (m', .stop c)

theorem Died.mono {p : Prog} {f : Nat} {P P' : Nat → Prop} {w w' : World} {c : Stop} (h : Died p f P w w' c)
    (hp : ∀ j, P j → P' j) : Died p f P' w w' c := by
  obtain ⟨h1, new, g1, j, e, m, m', g2, g3, g4⟩ := h
  exact ⟨h1, new, g1, j, e, m, m', hp j g2, g3, g4⟩

theorem Died.after {p : Prog} {f : Nat} {P : Nat → Prop} {w w1 w' : World} {c : Stop} (h : Died p f P w1 w' c)
    {new : List (Nat × Sig × Ans Unit)} (hn : w1.done = w.done ++ new)
    (ha : ∀ j, P j → Alone p f j (of j new) (w.mem j) (w1.mem j)) : Died p f P w w' c := by
  obtain ⟨h1, new', g1, j, e, m, m', g2, g3, g4⟩ := h
  refine ⟨h1, new ++ new', by rw [g1, hn]; simp, j, e, m, m', g2, ?_, g4⟩
  rw [of_append]
  exact alone_append (ha j g2) g3

theorem Spec.Apt.fits {p : Prog} (hp : Apt p) (j : Nat) : Fits (p.mach j) := by
  have hwf := hp.wf j
  have hlim := hp.lim j
  have hd := hp.depth j
  refine ⟨⟨?_, hd⟩, ⟨hlim.segs, hp.segs j⟩, ?_⟩
  · obtain ⟨l, hl⟩ := hwf.path _ hwf.initial
    have := hlim.depth _ _ hl
    obtain ⟨r, rfl⟩ := hl.cons
    simp at this
    omega
  · intro v hv
    obtain ⟨l, hl⟩ := hwf.path v hv
    have := hlim.depth _ _ hl
    exact ⟨l, hl, by omega⟩

/-- What happens while machine `i` processes an event. -/
def Rel (p : Prog) (f : Nat) (rank : Nat → Nat) (i : Nat) (w w' : World) : Prop :=
  (∀ k, rank k < rank i → Sound (p.mach k) (w.mem k)) ∧ ∃ new q, w'.done = w.done ++ new ∧
    (w'.mem i).log = (w.mem i).log ++ q ∧ Does p f w.mem (asked p i (w.mem i).log q) new (put w'.mem i (w.mem i))

theorem rel_keeps {p : Prog} {f : Nat} {rank : Nat → Nat} {i : Nat} (hp : Apt p) (hr : Ranked p rank) :
    Keeps i (Rel p f rank i) (Died p f fun k => rank k < rank i) := by
  refine ⟨?_, ?_, ?_, ?_⟩
  · rintro a b ⟨h1, new, q, h2, h3, h4⟩
    refine ⟨fun k hk => ?_, [], [], by simp, by simp, by rw [put_self]; exact .nil⟩
    have := does_sound hp h4 (h1 k hk)
    rwa [put_ne (by rintro rfl; omega)] at this
  · rintro a b c ⟨h1, n1, q1, h2, h3, h4⟩ ⟨_, n2, q2, g2, g3, g4⟩
    refine ⟨h1, n1 ++ n2, q1 ++ q2, by rw [g2, h2]; simp, by rw [g3, h3]; simp, ?_⟩
    rw [asked_append]
    refine does_append h4 ?_
    rw [← h3]
    have := (does_frame hr g4 fun x hx => asked_rank hr x hx).2 (a.mem i)
    rwa [put_put] at this
  · rintro w g ⟨h1, _⟩ ⟨q, hq, hqq⟩
    refine ⟨h1, [], q, by simp [World.upd], by simp [World.upd, hq], ?_⟩
    rw [asked_quiet hqq]
    have : put (w.upd i g).mem i (w.mem i) = w.mem := by
      funext j; unfold put World.upd; by_cases hj : j = i <;> simp [hj]
    rw [this]
    exact .nil
  · rintro a b c x ⟨_, new, q, h2, _, h4⟩ hd
    refine hd.after h2 fun j hj => ?_
    have := does_alone h4 (k := j)
    rwa [put_ne (by rintro rfl; omega)] at this

/-- What a dispatch does. -/
def DispOK (p : Prog) (f : Nat) (rank : Nat → Nat) (d : Disp) (j : Nat) (e : Sig) (s : World × Vars) : Prop :=
  ∀ s' b, d j e s = (s', b) →
    (∃ c, (b = .dead c ∨ b = .stop c) ∧ b.ans = none ∧ Died p f (fun k => rank k ≤ rank j) s.1 s'.1 c) ∨
    ∃ a new, b.ans = some a ∧ s'.1.done = s.1.done ++ new ∧ Does p f s.1.mem [(j, e)] new s'.1.mem

section
variable {p : Prog} {f : Nat} {rank : Nat → Nat}

theorem nested_does (hp : Apt p) {d : Disp} {P : Nat → Prop} {N : Nat}
    (hd : ∀ j e s, rank j < N → (∀ k, rank k ≤ rank j → Sound (p.mach k) (s.1.mem k)) → DispOK p f rank d j e s) :
    ∀ (l : List (Nat × Sig)) (s s' : World × Vars) (b : Out Unit),
    (∀ x ∈ l, rank x.1 < N ∧ ∀ k, rank k ≤ rank x.1 → P k) → (∀ k, P k → Sound (p.mach k) (s.1.mem k)) → nested p d l s = (s', b) →
    (∃ c, b = .dead c ∧ Died p f P s.1 s'.1 c) ∨
    (b = .ok () ∧ (p.auto = true ∨ l = [] → s'.2 = s.2) ∧ ∃ new, s'.1.done = s.1.done ++ new ∧ Does p f s.1.mem l new s'.1.mem) := by
  intro l
  induction l with
  | nil =>
    intro s s' b _ _ h
    cases h
    exact .inr ⟨rfl, fun _ => rfl, [], by simp, .nil⟩
  | cons x l ih =>
    obtain ⟨j, e⟩ := x
    intro s s' b hl hs h
    unfold nested at h
    have hj := hd j e (s.1, if p.auto then p.junk else s.2) (hl (j, e) (by simp)).1 fun k hk => hs k ((hl (j, e) (by simp)).2 k hk)
    rcases hdj : d j e (s.1, if p.auto then p.junk else s.2) with ⟨s1, b1⟩
    rw [hdj] at h
    have hgo : ∀ new, s1.1.done = s.1.done ++ new → Does p f s.1.mem [(j, e)] new s1.1.mem →
        nested p d l (s1.1, if p.auto then s.2 else s1.2) = (s', b) →
        (∃ c, b = .dead c ∧ Died p f P s.1 s'.1 c) ∨
        (b = .ok () ∧ (p.auto = true ∨ (j, e) :: l = [] → s'.2 = s.2) ∧
          ∃ new, s'.1.done = s.1.done ++ new ∧ Does p f s.1.mem ((j, e) :: l) new s'.1.mem) := by
      intro new h1 h2 h3
      rcases ih (s1.1, if p.auto then s.2 else s1.2) s' b (fun x hx => hl x (by simp [hx])) (fun k hk => does_sound hp h2 (hs k hk)) h3 with
        ⟨c, h, hc⟩ | ⟨g1, g2, new2, g3, g4⟩
      · exact .inl ⟨c, h, hc.after h1 fun j _ => does_alone h2⟩
      · refine .inr ⟨g1, ?_, new ++ new2, by rw [g3, h1]; simp, does_append h2 g4⟩
        rintro (ha | ha)
        · rw [g2 (.inl ha)]; simp [ha]
        · simp at ha
    rcases hj s1 b1 hdj with ⟨c, h1, h2, h3⟩ | ⟨a, new, h1, h2, h3⟩
    · have h3 := h3.mono (hl (j, e) (by simp)).2
      suffices hsb : s1 = s' ∧ b = .dead c from .inl ⟨c, hsb.2, hsb.1 ▸ h3⟩
      rcases h1 with rfl | rfl
      · simp only [Prod.mk.injEq] at h; exact ⟨h.1, h.2.symm⟩
      · cases c <;> first | (simp [Out.ans] at h2; done) | (simp only [Prod.mk.injEq] at h; exact ⟨h.1, h.2.symm⟩)
    · rcases b1 with u | c | c
      · exact hgo new h2 h3 h
      · cases c with
        | rc c => exact hgo new h2 h3 h
        | _ => simp [Out.ans] at h1
      · simp [Out.ans] at h1

theorem callOK (hp : Apt p) (hr : Ranked p rank) (ha : p.auto = true ∨ ∀ i log, p.sends i log = []) {d : Disp} {i : Nat}
    (hd : ∀ j e s, rank j < rank i → (∀ k, rank k ≤ rank j → Sound (p.mach k) (s.1.mem k)) → DispOK p f rank d j e s) :
    CallOK p d i (Rel p f rank i) (Died p f fun k => rank k < rank i) := by
  intro o s s' b ho hG h
  have hx : nested p d (p.sends i ((s.1.mem i).log ++ [o])) (s.1.upd i fun m => { m with log := m.log ++ [o] }, s.2) = (s', b) := by
    rw [← h]
    unfold Nest.call
    change _ = Low.bind _ _ s
    simp [Low.bind, updMem, Bind.bind, Low.mem, World.upd]
  have hne : ∀ k, k ≠ i → (s.1.upd i fun m => { m with log := m.log ++ [o] }).mem k = s.1.mem k := by
    intro k hk; simp [World.upd, hk]
  have hi : (s.1.upd i fun m => { m with log := m.log ++ [o] }).mem i = { s.1.mem i with log := (s.1.mem i).log ++ [o] } := by
    simp [World.upd]
  have hrk : ∀ x ∈ p.sends i ((s.1.mem i).log ++ [o]), rank x.1 < rank i := fun x hx => hr _ _ x hx
  rcases nested_does hp (P := fun k => rank k < rank i) hd _ _ s' b (fun x hx => ⟨hrk x hx, fun k hk => Nat.lt_of_le_of_lt hk (hrk x hx)⟩)
    (fun k hk => by simp only; rw [hne k (by rintro rfl; omega)]; exact hG.1 k hk) hx with
    ⟨c, h, hc⟩ | ⟨h1, h2, new, h3, h4⟩
  · refine .inl ⟨c, h, ?_⟩
    refine hc.after (new := []) (by simp [World.upd]) fun j hj => ?_
    rw [hne j (by rintro rfl; omega)]
    exact alone_nil
  · obtain ⟨f1, f2⟩ := does_frame hr h4 hrk
    refine .inr ⟨h1, ?_, ?_, hG.1, new, [o], ?_, ?_, ?_⟩
    · exact h2 (ha.imp id fun h => h _ _)
    · rw [f1]; exact hi
    · exact h3
    · rw [f1]; simp only [hi]
    · have := f2 (s.1.mem i)
      have he : put (s.1.upd i fun m => { m with log := m.log ++ [o] }).mem i (s.1.mem i) = s.1.mem := by
        funext k; by_cases hk : k = i
        · simp [put, hk]
        · simp only [put, if_neg hk]; exact hne k hk
      simp only [he] at this
      simpa [asked, ho] using this

theorem dispatch_does (hp : Apt p) (hr : Ranked p rank) (ha : p.auto = true ∨ ∀ i log, p.sends i log = []) :
    ∀ (n j : Nat) (e : Sig) (s : World × Vars), rank j < n → (∀ k, rank k ≤ rank j → Sound (p.mach k) (s.1.mem k)) →
    DispOK p f rank (dispatch p f n) j e s := by
  intro n
  induction n with
  | zero =>
    intro j e s hj
    omega
  | succ n ih =>
    intro j e s hj hs s' b h
    unfold dispatch at h
    rcases hps : passes p (dispatch p f n) j f e (e == sigCreation) s with ⟨s1, r⟩
    rw [hps] at h
    simp only at h
    rcases hm : SM.dispatch (p.mach j) (p.env j) f e (s.1.mem j) with ⟨m', a⟩
    have hsj := hs j (Nat.le_refl _)
    have hk := rel_keeps (i := j) (f := f) hp hr
    have hG : Rel p f rank j s.1 s.1 :=
      ⟨fun k hk => hs k (Nat.le_of_lt hk), [], [], by simp, by simp, by rw [put_self]; exact .nil⟩
    have hsim := passes_sim hk (callOK hp hr ha fun k e s hk => ih k e s (by omega)) (hp.fits j) (hp.wf j) (hp.lim j) f e (e == sigCreation) s
      (by simp) hsj hG s1 r hps m' a hm
    have hsafe := dispatch_safe (hp.wf j) (hp.lim j) (env := p.env j) (f := f) (e := e) hsj
    have hnub : a ≠ .stop .ub := by
      rintro rfl
      rcases wp_stopped hsafe hm with h | ⟨⟨c, hc, h⟩, _⟩
      · simp at h
      · rcases hc with rfl | rfl | rfl | rfl <;> simp only [SM.Spec.shown] at h <;> first | (simp at h; done) | (split at h <;> simp at h)
    have hans : ∀ a', r.ans = some a' → SM.Spec.Returns a' → s1.1.mem j = m' → Rel p f rank j s.1 s1.1 → a = a' → 
        ∃ a new, b.ans = some a ∧ s'.1.done = s.1.done ++ new ∧ Does p f s.1.mem [(j, e)] new s'.1.mem := by
      rintro a' h1 h2 h3 ⟨_, new, q, h4, h5, h6⟩ rfl
      rw [h1] at h
      simp only [Prod.mk.injEq] at h
      obtain ⟨rfl, rfl⟩ := h
      refine ⟨a, new ++ [(j, e, a)], h1, by simp [h4], ?_⟩
      have := Does.cons hm h2 (by rw [← h3]; exact h5) h6 put_same (.nil (μ := put (put s1.1.mem j (s.1.mem j)) j m'))
      rw [put_put, ← h3, put_self] at this
      exact this
    have hnone : ∀ c, (r = .dead c ∨ r = .stop c) → r.ans = none → Died p f (fun k => rank k ≤ rank j) s.1 s1.1 c →
        ∃ c, (b = .dead c ∨ b = .stop c) ∧ b.ans = none ∧ Died p f (fun k => rank k ≤ rank j) s.1 s'.1 c := by
      intro c h1 h2 h3
      rw [h2] at h
      simp only [Prod.mk.injEq] at h
      rw [← h.2, ← h.1]
      exact ⟨c, h1, h2, h3⟩
    rcases hsim with h1 | ⟨c, h1, h2⟩ | ⟨h1, h2, ⟨a', b', h3, h4, _⟩ | ⟨c, h3, h4⟩⟩
    · exact absurd h1 hnub
    · exact .inl (hnone c (.inl h1) (by rw [h1]; rfl) (h2.mono fun _ h => Nat.le_of_lt h))
    · exact .inr (hans (.ok ()) (by rw [h4]; rfl) (.inl rfl) h1 h2 h3)
    · cases c with
      | rc c => exact .inr (hans (.stop (.rc c)) (by rw [h4]; rfl) (.inr ⟨c, rfl⟩) h1 h2 h3)
      | ub => exact absurd h3 hnub
      | _ =>
        refine .inl (hnone _ (.inr h4) (by rw [h4]; rfl) ⟨by simp, ?_⟩)
        obtain ⟨_, new, q, g1, _, g2⟩ := h2
        refine ⟨new, g1, j, e, s.1.mem j, m', Nat.le_refl _, ?_, by rw [hm, h3]⟩
        have := does_alone g2 (k := j)
        rwa [put_same] at this

theorem runs_does (hp : Apt p) (hr : Ranked p rank) (ha : p.auto = true ∨ ∀ i log, p.sends i log = []) {n : Nat}
    {l : List (Nat × Sig)} {s s' : World × Vars} {b : Out Unit} (hn : ∀ x ∈ l, rank x.1 < n) (hs : ∀ k, Sound (p.mach k) (s.1.mem k))
    (h : runs p f n l s = (s', b)) : (∃ c, b = .dead c ∧ Died p f (fun _ => True) s.1 s'.1 c) ∨
      (b = .ok () ∧ ∃ new, s'.1.done = s.1.done ++ new ∧ Does p f s.1.mem l new s'.1.mem) := by
  rcases nested_does hp (P := fun _ => True) (dispatch_does hp hr ha n) l s s' b (fun x hx => ⟨hn x hx, fun _ _ => trivial⟩)
    (fun k _ => hs k) h with
    h | ⟨h1, _, h2⟩
  · exact .inl h
  · exact .inr ⟨h1, h2⟩

end

end Verif.Nest
