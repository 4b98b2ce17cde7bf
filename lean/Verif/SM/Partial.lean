import Verif.SM.Findings
/-
C44 for events whose transitions do not lead through a choice pseudostate.
-/
namespace Verif.SM
open Eng Spec

/-- The log grows, by entries that satisfy `P` only. -/
def Grows (P : Obs → Prop) (a b : List Obs) : Prop := ∃ q, b = a ++ q ∧ ∀ o ∈ q, P o

theorem Grows.refl {P : Obs → Prop} {a : List Obs} : Grows P a a := ⟨[], by simp, by simp⟩

theorem Grows.trans {P : Obs → Prop} {a b c : List Obs} (h1 : Grows P a b) (h2 : Grows P b c) : Grows P a c := by
  obtain ⟨q, rfl, hq⟩ := h1
  obtain ⟨q', rfl, hq'⟩ := h2
  refine ⟨q ++ q', by simp, fun o ho => ?_⟩
  rcases List.mem_append.1 ho with ho | ho
  · exact hq o ho
  · exact hq' o ho

theorem Grows.mono {P Q : Obs → Prop} {a b : List Obs} (h : Grows P a b) (hpq : ∀ o, P o → Q o) : Grows Q a b := by
  obtain ⟨q, rfl, hq⟩ := h
  exact ⟨q, rfl, fun o ho => hpq o (hq o ho)⟩

theorem Grows.app {P : Obs → Prop} {a q : List Obs} (h : ∀ o ∈ q, P o) : Grows P a (a ++ q) := ⟨q, rfl, h⟩

/-- A guard call. -/
def IsGuard (o : Obs) : Prop := ∃ g e b, o = .guard g e b

/-- Not an exit. -/
def NoExit (o : Obs) : Prop := ∀ v, o ≠ .exit v

variable {m : Machine} {env : Env} {e : Sig}

theorem adds_true {g : Option Guard} {a b : List Obs} (h : GuardTrue env e g a b) : Grows IsGuard a b := by
  cases h with
  | none => exact .refl
  | els => exact .refl
  | @fn g _ _ => exact .app fun o ho => by simp only [List.mem_singleton] at ho; exact ⟨g, e, true, ho⟩

theorem adds_false {g : List (Option Guard)} {a b : List Obs} (h : GuardsFalse env e g a b) : Grows IsGuard a b := by
  induction h with
  | nil => exact .refl
  | @cons g gs l l' _ _ ih =>
    exact .trans (.app fun o ho => by simp only [List.mem_singleton] at ho; exact ⟨g, e, false, ho⟩) ih

theorem adds_branch {tbl : List Tr} {t : Tr} {a b : List Obs} (h : Branch env e tbl a t b) : Grows IsGuard a b := by
  obtain ⟨_, _, _, _, h1, h2⟩ := h
  exact .trans (adds_false h1) (adds_true h2)

theorem adds_selected {l : List Vid} {v : Vid} {t : Tr} {a b : List Obs} (h : Selected m env e l a v t b) :
    Grows IsGuard a b := by
  obtain ⟨_, _, _, _, h1, h2⟩ := h
  exact .trans (adds_false h1) (adds_true h2)

theorem adds_acts {a : List Obs} {l : List Act} : Grows NoExit a (a ++ acts e l) := .app fun o ho v => by
  unfold acts at ho
  obtain ⟨x, _, rfl⟩ := List.mem_map.1 ho
  simp

theorem IsGuard.noExit {o : Obs} (h : IsGuard o) : NoExit o := by
  obtain ⟨_, _, _, rfl⟩ := h
  intro v
  simp

theorem adds_entries {a : List Obs} {l : List Vid} : Grows NoExit a (a ++ l.map .entry) := .app fun o ho v => by
  obtain ⟨x, _, rfl⟩ := List.mem_map.1 ho
  simp

theorem adds_follows {hist : Vid → Option Vid} {v ts : Vid} {pend pend' : List Act} {log log' : List Obs}
    (h : Follows m env e hist v pend log ts pend' log') : Grows NoExit log log' := by
  induction h with
  | state => exact .refl
  | cond _ hb _ _ _ ih => exact .trans ((adds_branch hb).mono fun _ => IsGuard.noExit) ih
  | choice _ hb _ _ ih => exact .trans adds_acts (.trans ((adds_branch hb).mono fun _ => IsGuard.noExit) ih)
  | restore _ _ _ ih => exact ih
  | default _ _ _ hg _ _ ih => exact .trans ((adds_true hg).mono fun _ => IsGuard.noExit) ih
  | owner _ _ _ _ ih => exact ih

theorem adds_stuck {hist : Vid → Option Vid} {v : Vid} {pend : List Act} {log log' : List Obs} {c : RC}
    (h : Stuck m env e hist v pend log c log') : Grows NoExit log log' := by
  induction h with
  | noCond _ h => exact (adds_false h).mono fun _ => IsGuard.noExit
  | noChoice _ h => exact .trans adds_acts ((adds_false h).mono fun _ => IsGuard.noExit)
  | noDefault _ _ _ h => exact (adds_false h).mono fun _ => IsGuard.noExit
  | fullCond _ h => exact (adds_branch h).mono fun _ => IsGuard.noExit
  | fullDefault _ _ _ h => exact (adds_true h).mono fun _ => IsGuard.noExit
  | cond _ h _ _ _ ih => exact .trans ((adds_branch h).mono fun _ => IsGuard.noExit) ih
  | choice _ h _ _ ih => exact .trans adds_acts (.trans ((adds_branch h).mono fun _ => IsGuard.noExit) ih)
  | default _ _ _ h _ _ ih => exact .trans ((adds_true h).mono fun _ => IsGuard.noExit) ih

theorem adds_defaultEntry {hist : Vid → Option Vid} {c s : Vid} {log log' : List Obs}
    (h : DefaultEntry m env e hist c log s log') : Grows NoExit log log' := by
  induction h with
  | leaf => exact .refl
  | composite _ hf _ _ _ ih => exact .trans (adds_follows hf) (.trans adds_acts (.trans adds_entries ih))

theorem adds_defaultStuck {hist : Vid → Option Vid} {c : Vid} {r : RC} {log log' : List Obs}
    (h : DefaultStuck m env e hist c log r log') : Grows NoExit log log' := by
  induction h with
  | path _ hs => exact adds_stuck hs
  | later _ hf _ _ _ ih => exact .trans (adds_follows hf) (.trans adds_acts (.trans adds_entries ih))

theorem selected_row {l : List Vid} {v : Vid} {t : Tr} {a b : List Obs} (h : Selected m env e l a v t b) :
    ∃ tbl, m.trtbl v = some tbl ∧ t ∈ rows tbl ∧ t.event = e := by
  obtain ⟨pre, post, _, h, _⟩ := h
  have : (v, t) ∈ candidates m e l := by rw [h]; simp
  unfold candidates at this
  obtain ⟨u, _, hu⟩ := List.mem_flatMap.1 this
  obtain ⟨t', ht', hh⟩ := List.mem_map.1 hu
  cases hh
  obtain ⟨h1, h2⟩ := List.mem_filter.1 ht'
  cases hv : m.trtbl v with
  | none => rw [hv] at h1; simp [rows] at h1
  | some tbl => rw [hv] at h1; exact ⟨tbl, rfl, h1, by simpa using h2⟩

/-- Three parts: no effects of `e` in the first, no exits in the second; the third is empty or the second ends the turn. -/
theorem order_of_parts {p q r a b : List Obs} {x : Vid} {y : Act} (hp : ∀ y, .act y e ∉ p) (hq : ∀ o ∈ q, NoExit o)
    (hr : r = [] ∨ ∃ v, .stable v ∈ q) (h : p ++ (q ++ r) = a ++ .exit x :: b) (ha : ∀ v, .stable v ∉ a) : .act y e ∉ a := by
  rcases List.append_eq_append_iff.1 h with ⟨c, rfl, h2⟩ | ⟨c, rfl, h2⟩
  · -- p is a prefix of a
    exfalso
    rcases List.append_eq_append_iff.1 h2 with ⟨d, rfl, h3⟩ | ⟨d, rfl, h3⟩
    · rcases hr with rfl | ⟨v, hv⟩
      · have := congrArg List.length h3
        simp at this
      · exact ha v (by simp [hv])
    · cases d with
      | nil =>
        rw [List.append_nil] at hr hq
        rcases hr with rfl | ⟨v, hv⟩
        · simp at h3
        · exact ha v (by simp [hv])
      | cons o d =>
        simp only [List.cons_append, List.cons.injEq] at h3
        exact hq o (by simp) x h3.1.symm
  · intro hy
    exact hp y (by simp [hy])

/-- **C44** (partial: events whose transitions do not lead through a choice pseudostate; see `documented_order_fails` for the
others). No effect of the event is executed before a state is left by its transition. Entries after `.stable` belong to
completion events. -/
theorem documented_order_partial {f : Nat} {s s' : Mem} {r : Ans Unit} (wf : WellFormed m) (lim : Limits m)
    (hs : Reached m env s) (he : e ≠ sigCreation) (h : dispatch m env f e s = (s', r)) (hr : r ≠ .stop .fuel)
    (hno : ∀ v tbl t w x tb, m.trtbl v = some tbl → t ∈ rows tbl → t.event = e → t.target = some w → Reach m w x →
      m.vert x ≠ some (.choice tb)) :
    ∀ new, s'.log = s.log ++ new → ∀ a b x y, new = a ++ .exit x :: b → (∀ v, .stable v ∉ a) → .act y e ∉ a := by
  intro new hnew a b x y hab hst
  obtain ⟨cs, cs', hcs, _, hd⟩ := dispatch_refines wf lim hs he h hr
  have turn : ∀ {o : Outcome} {log' : List Obs}, Turn m env e cs s.log o log' → ∃ p q, log' = s.log ++ (p ++ q) ∧
      (∀ y, .act y e ∉ p) ∧ (∀ z ∈ q, NoExit z) ∧ ∀ w, o = .ok w → .stable w ∈ q := by
    intro o log' ht
    have guards : ∀ {u v : List Obs}, Grows IsGuard u v → ∃ q, v = u ++ q ∧ ∀ y, .act y e ∉ q := by
      rintro u v ⟨q, rfl, hq⟩
      refine ⟨q, rfl, fun y hy => ?_⟩
      obtain ⟨_, _, _, h⟩ := hq _ hy
      cases h
    cases ht with
    | none _ hn =>
      obtain ⟨q, rfl, hq⟩ := guards (adds_false hn)
      exact ⟨q, [], by simp, hq, by simp, by simp⟩
    | @taken l v t log1 _ _ hl hsel htk =>
      obtain ⟨p, rfl, hp⟩ := guards (adds_selected hsel)
      cases htk with
      | internal _ =>
        obtain ⟨q, hq, hq'⟩ := adds_acts (e := e) (a := s.log ++ p) (l := t.action.toList)
        exact ⟨p, q, by rw [hq]; simp, hp, hq', by simp⟩
      | @external w _ _ htw hc =>
        cases hc with
        | stuck hk =>
          obtain ⟨q, rfl, hq⟩ := adds_stuck hk
          exact ⟨p, q, by simp, hp, hq, by simp⟩
        | @moves _ pd _ _ _ hf hg =>
          obtain ⟨tbl, hv, htr, hte⟩ := selected_row hsel
          obtain ⟨p2, rfl, hp2⟩ := follows_noChoice wf inside_histOf hf (fun x tb hx => hno v tbl t w x tb hv htr hte htw hx)
          obtain ⟨l1, lt, _, _, hcm⟩ := hg
          have hP : ∀ y, .act y e ∉ p ++ p2 ++ (exited l1 lt).map Obs.exit := by
            intro y hy
            simp only [List.mem_append, List.mem_map] at hy
            rcases hy with (hy | hy) | ⟨_, _, hy⟩
            · exact hp y hy
            · obtain ⟨_, _, h⟩ := hp2 _ hy
              cases h
            · cases hy
          have step := Grows.trans (adds_acts (e := e) (l := pd) (a := s.log ++ p ++ p2 ++ (exited l1 lt).map Obs.exit))
            (adds_entries (l := (entered l1 lt).reverse))
          cases hcm with
          | @ok w' log2 hde =>
            obtain ⟨q, hq, hq'⟩ := step.trans (adds_defaultEntry hde)
            refine ⟨_, q ++ [.stable w'], ?_, hP, ?_, ?_⟩
            · rw [hq]; simp
            · intro z hz
              rcases List.mem_append.1 hz with hz | hz
              · exact hq' z hz
              · simp only [List.mem_singleton] at hz
                subst hz
                intro v
                simp
            · intro u hu
              cases hu
              simp
          | failed hds =>
            obtain ⟨q, hq, hq'⟩ := step.trans (adds_defaultStuck hds)
            exact ⟨_, q, by rw [hq]; simp, hP, hq', by simp⟩
  have fin : ∀ {o : Outcome} {log1 : List Obs}, Turn m env e cs s.log o log1 → ∀ rest, s'.log = log1 ++ rest →
      (rest = [] ∨ ∃ w, o = .ok w) → .act y e ∉ a := by
    intro o log1 ht rest hrest hor
    obtain ⟨p, q, rfl, hp, hq, hw⟩ := turn ht
    rw [hnew, List.append_assoc, List.append_cancel_left_eq, List.append_assoc] at hrest
    refine order_of_parts hp hq ?_ (hrest.symm.trans hab) hst
    rcases hor with h | ⟨w, h⟩
    · exact .inl h
    · exact .inr ⟨w, hw w h⟩
  cases hd with
  | internal ht => exact fin ht [] (by simp) (.inl rfl)
  | ok ht _ => exact fin ht [] (by simp) (.inl rfl)
  | failed ht => exact fin ht [] (by simp) (.inl rfl)
  | completion ht _ hd' =>
    obtain ⟨q, hq⟩ := dispatches_prefix hd'
    exact fin ht q hq (.inr ⟨_, rfl⟩)

/-- Transitions for event 6 of the demo machine lead through a conditional, not through a choice, and leave A1. -/
example : ∀ v tbl t w x tb, Demo.m.trtbl v = some tbl → t ∈ rows tbl → t.event = 6 → t.target = some w → Reach Demo.m w x →
    Demo.m.vert x ≠ some (.choice tb) := by
  intro v tbl t w x tb hv ht he hw hx
  have hw : w = 10 := by
    have key : ∀ v, v < 12 → ∀ t ∈ rows ((Demo.m.trtbl v).getD []), t.event = 6 → t.target = some 10 := by decide +kernel
    have hlt : v < 12 := by
      rcases Nat.lt_or_ge v 12 with h | h
      · exact h
      · exfalso
        have : Demo.m.vert v = none := List.getElem?_eq_none (by simpa [Demo.vertices] using h)
        simp [Machine.trtbl, this] at hv
    have := key v hlt t (by rw [hv]; exact ht) he
    rw [hw] at this
    exact Option.some.inj this
  subst hw
  have leaf : ∀ u, (u = 5 ∨ u = 0) → Reach Demo.m u x → x = u := by
    rintro u (rfl | rfl) h <;> cases h with
    | refl => rfl
    | cond h => cases h
    | choice h => cases h
    | default h => cases h
  cases hx with
  | refl => intro h; cases h
  | @cond _ _ u tbl t hv ht hu hr =>
    cases hv
    have : ∀ t ∈ branches [Demo.tr 0 (some (.fn 3)) (some 22) (some 5), Demo.tr 0 (some (.fn 4)) (some 23) (some 0)],
        t.target = some 5 ∨ t.target = some 0 := by decide +kernel
    have h2 : u = 5 ∨ u = 0 := by
      rcases this t ht with h | h <;> rw [hu] at h
      · exact .inl (Option.some.inj h)
      · exact .inr (Option.some.inj h)
    have := leaf u h2 hr
    subst this
    rcases h2 with rfl | rfl <;> intro h <;> cases h
  | choice h => cases h
  | default h => cases h

end Verif.SM
