import Verif.SM.Robust
import Verif.SM.Demo
/-
Property theorem: whatever calls are made on a state machine object, in whatever order.
-/
namespace Verif.SM
open Eng Spec

/-- The calls may come in any order: dispatches before the first initialisation, initialisations again, dispatches after a
call that failed half-way, histories cleared at any time. As long as no call runs forever, every result is "processed" or
one of the four codes of a well-formed machine (never undefined behaviour), some state of the machine is current, each
history holds what its definition says, and once an initialisation has succeeded the current state is always a leaf. -/
theorem any_calls_in_any_order {m : Machine} (wf : WellFormed m) (lim : Limits m) {env : Env} {os : List (Op × Nat)}
    {s' : Mem} {rs : List (Ans Unit)} (h : calls m env os (mem0 m) = (s', rs)) (hf : Ans.stop .fuel ∉ rs) :
    (∀ r ∈ rs, r = .ok () ∨ ∃ c, r = .stop (shown m c) ∧
      (c = .evtNFound ∨ c = .cndNFound ∨ c = .grdFalse ∨ c = .exTseg)) ∧
    (∃ cs, s'.state = some cs ∧ IsState m cs ∧
      ∀ k f : Nat, os[k]? = some (Op.dispatch sigCreation, f) → rs[k]? = some (Ans.ok ()) → IsLeaf m cs) ∧
    ∀ h d p trn, m.vert h = some (.hist d p trn) → s'.hist h = histOf m s'.log h := by
  suffices hw : ∀ (os : List (Op × Nat)) (s : Mem) {s' : Mem} {rs : List (Ans Unit)}, Sound m s →
      calls m env os s = (s', rs) → Ans.stop .fuel ∉ rs →
      (∀ r ∈ rs, r = .ok () ∨ ∃ c, r = .stop (shown m c) ∧ Known c) ∧ Left m s s' ∧
      ∀ k f : Nat, os[k]? = some (Op.dispatch sigCreation, f) → rs[k]? = some (Ans.ok ()) → AtLeaf m s' by
    obtain ⟨h1, ⟨h2, _⟩, h3⟩ := hw os (mem0 m) (sound_mem0 wf) h hf
    refine ⟨h1, ?_, fun k d p trn hk => h2.hist.agree wf k d p trn hk⟩
    obtain ⟨cs, hcs, hst⟩ := h2.state
    refine ⟨cs, hcs, hst, fun k f ho hr => ?_⟩
    obtain ⟨cs', hcs', hl⟩ := h3 k f ho hr
    rw [hcs] at hcs'
    cases hcs'
    exact hl
  clear h hf s' rs os
  intro os
  induction os with
  | nil =>
    intro s s' rs hs h _
    cases h
    exact ⟨by simp, ⟨hs, fun h => h⟩, by simp⟩
  | cons o os ih =>
    obtain ⟨o, f⟩ := o
    intro s s' rs hs h hf
    have hop : ∀ s1 r, op m env f o s = (s1, r) → r ≠ .stop .fuel →
        (r = .ok () ∨ ∃ c, r = .stop (shown m c) ∧ Known c) ∧ Left m s s1 ∧
        (o = .dispatch sigCreation → r = .ok () → AtLeaf m s1) := by
      intro s1 r hr hne
      cases o with
      | dispatch e =>
        have hd := dispatch_safe wf lim (env := env) (f := f) (e := e) hs
        simp only [op] at hr
        rcases r with _ | c
        · obtain ⟨h1, h2⟩ := wp_ok hd hr
          exact ⟨.inl rfl, h1, fun ho _ => h2 (by cases ho; rfl)⟩
        · rcases wp_stopped hd hr with h1 | ⟨⟨c', hk, h1⟩, h2⟩
          · exact absurd (by rw [h1]) hne
          · exact ⟨.inr ⟨c', by rw [h1], hk⟩, h2, fun _ h => by simp at h⟩
      | clearHistory k =>
        obtain ⟨h1, h2⟩ := clear_safe hs hr
        exact ⟨.inl h1, h2, fun ho => by simp at ho⟩
    unfold calls at h
    rcases hr : op m env f o s with ⟨s1, r⟩
    rw [hr] at h
    have hcont : ∀ r, (r = .ok () ∨ ∃ c, r = .stop (shown m c) ∧ Known c) → Left m s s1 →
        (o = .dispatch sigCreation → r = .ok () → AtLeaf m s1) →
        ((calls m env os s1).1, r :: (calls m env os s1).2) = (s', rs) →
        (∀ r ∈ rs, r = .ok () ∨ ∃ c, r = .stop (shown m c) ∧ Known c) ∧ Left m s s' ∧
        ∀ k f' : Nat, ((o, f) :: os)[k]? = some (Op.dispatch sigCreation, f') → rs[k]? = some (Ans.ok ()) → AtLeaf m s' := by
      intro r h1 h2 h3 heq
      simp only [Prod.mk.injEq] at heq
      obtain ⟨hs', rfl⟩ := heq
      obtain ⟨h4, h5, h6⟩ := ih s1 (s' := s') (rs := (calls m env os s1).2) h2.1
        (Prod.ext hs' rfl) (by simp at hf; exact hf.2)
      refine ⟨?_, h2.trans h5, ?_⟩
      · intro x hx
        rcases List.mem_cons.1 hx with rfl | hx
        · exact h1
        · exact h4 x hx
      · intro k f' ho hk
        cases k with
        | zero => simp at ho hk; exact h5.2 (h3 ho.1 hk)
        | succ k => exact h6 k f' (by simpa using ho) (by simpa using hk)
    have hstop : ∀ c, r = .stop c → c ≠ .fuel → (s1, [Ans.stop c]) = (s', rs) →
        (∀ r ∈ rs, r = .ok () ∨ ∃ c, r = .stop (shown m c) ∧ Known c) ∧ Left m s s' ∧
        ∀ k f' : Nat, ((o, f) :: os)[k]? = some (Op.dispatch sigCreation, f') → rs[k]? = some (Ans.ok ()) → AtLeaf m s' := by
      intro c h1 h2 heq
      simp only [Prod.mk.injEq] at heq
      obtain ⟨rfl, rfl⟩ := heq
      subst h1
      obtain ⟨h3, h4, h5⟩ := hop s1 _ hr (by simpa using h2)
      refine ⟨by simpa using h3, h4, ?_⟩
      intro k f' ho hk
      cases k <;> simp at hk
    rcases r with _ | c
    · obtain ⟨h1, h2, h3⟩ := hop s1 _ hr (by simp)
      exact hcont _ h1 h2 h3 h
    · cases c with
      | rc c =>
        obtain ⟨h1, h2, h3⟩ := hop s1 _ hr (by simp)
        exact hcont _ h1 h2 h3 h
      | fuel =>
        simp only [Prod.mk.injEq] at h
        rw [← h.2] at hf
        simp at hf
      | _ => exact hstop _ rfl (by simp) h

namespace Demo

/-- Events before the first initialisation, a transition that fails after states have been left and entered, the
initialisation again, a history cleared. -/
def wild : List (Op × Nat) :=
  [(.dispatch 1, 50), (.dispatch 9, 50), (.dispatch sigCreation, 50), (.dispatch 1, 50), (.dispatch 5, 50),
   (.dispatch sigCreation, 50), (.clearHistory 8, 50), (.dispatch 6, 50), (.dispatch sigCompletion, 50), (.dispatch 3, 50)]

example : Ans.stop .fuel ∉ (calls m env wild (mem0 m)).2 := by decide +kernel
example : (calls m env wild (mem0 m)).2.length = 10 ∧ Ans.stop (.rc .evtNFound) ∈ (calls m env wild (mem0 m)).2 := by
  decide +kernel
-- before the first initialisation the composite initial state is current, and an event is handled in it
example : (calls m env [(.dispatch 1, 50)] (mem0 m)).2 = [.ok ()] ∧ (mem0 m).state = some 0 := by decide +kernel

end Demo

end Verif.SM
