import Verif.SM.Again
/-
What a user can rely on when a state machine is initialised again (C97, C98).
-/
namespace Verif.SM
open Eng Spec

variable {m : Machine} {env : Env}

/-- **C98** A machine that was used, in whatever state it was left, even by a failed or interrupted transition, and that is
initialised again behaves from then on as a new machine would whose histories were already set: nothing but the histories
survives. -/
theorem initialised_again_keeps_only_histories {s : Mem} {f : Nat} {os : List (Op × Nat)}
    (hok : (init m (since env s.log) f { mem0 m with hist := s.hist }).2 = .ok ()) :
    RestartsAs m env s { mem0 m with hist := s.hist } f os := by
  have hl : Later s.log false s { mem0 m with hist := s.hist } := ⟨by simp [mem0], rfl, by simp⟩
  have h := creation_later (p := s.log) (m := m) (env := env) (e := sigCreation) (f := f) hl
  have h3 := h.2.2 hok
  have hd : ∀ env', op m env' f (.dispatch sigCreation) = passes m env' f sigCreation true := fun _ => rfl
  have hok' : (passes m (since env s.log) f sigCreation true { mem0 m with hist := s.hist }).2 = .ok () := hok
  unfold RestartsAs calls
  rw [hd, hd]
  rcases hx : passes m env f sigCreation true s with ⟨s1, a⟩
  rcases hy : passes m (since env s.log) f sigCreation true { mem0 m with hist := s.hist } with ⟨t1, a'⟩
  rw [hx, hy] at h h3
  rw [hy] at hok'
  dsimp only at hok' h
  subst hok'
  rw [h.2.1]
  have h4 := shifts_calls (m := m) (env := env) os s1 t1 h3
  exact ⟨by simp [h4.2], h4.1.log, h4.1.state rfl, h4.1.hist⟩

/-- **C97** (partial: the histories must have been cleared). A machine that was used, in whatever state it was left, and
that is initialised again behaves from then on as a new machine, if none of its histories is set and the initialisation
succeeds. -/
theorem initialised_again_is_new_partial {s : Mem} {f : Nat} {os : List (Op × Nat)} (hm : NoMemory s)
    (hok : (init m (since env s.log) f (mem0 m)).2 = .ok ()) : RestartsAs m env s (mem0 m) f os := by
  have he : ({ mem0 m with hist := s.hist } : Mem) = mem0 m := by simp [mem0, funext hm]
  have := initialised_again_keeps_only_histories (m := m) (env := env) (s := s) (f := f) (os := os) (by rw [he]; exact hok)
  rwa [he] at this

/-- **C98** Initialisation itself: what it does, what it returns and the histories afterwards do not depend on the state
the machine was left in, even if it fails. -/
theorem initialisation_ignores_state (s : Mem) (f : Nat) :
    (init m env f s).2 = (init m (since env s.log) f { mem0 m with hist := s.hist }).2 ∧
    (init m env f s).1.log = s.log ++ (init m (since env s.log) f { mem0 m with hist := s.hist }).1.log ∧
    (init m env f s).1.hist = (init m (since env s.log) f { mem0 m with hist := s.hist }).1.hist := by
  have hl : Later s.log false s { mem0 m with hist := s.hist } := ⟨by simp [mem0], rfl, by simp⟩
  have h := creation_later (p := s.log) (m := m) (env := env) (e := sigCreation) (f := f) hl
  exact ⟨h.2.1, h.1.log, h.1.hist⟩

/-- **C97** fails in general: a machine initialised again does not behave as a new one. The machine left its composite
state C while D was active in it; after the initialisation a transition to C's history leads to D, in a new machine to
C's default. -/
theorem initialised_again_remembers : ∃ s : Mem, Reached Demo.m Demo.env s ∧ Demo.m.istate = 0 ∧
    (∃ f, (init Demo.m (since Demo.env s.log) f (mem0 Demo.m)).2 = .ok ()) ∧
    ¬ ∀ f os, RestartsAs Demo.m Demo.env s (mem0 Demo.m) f os := by
  refine ⟨Demo.at' Demo.env [4, 7, 3], Demo.back, rfl, ⟨50, by decide +kernel⟩, fun h => ?_⟩
  have := (h 50 [(.dispatch 4, 50)]).2.2.1
  revert this
  decide +kernel

/-! Situations that meet the hypotheses: A1 was left and entered again; C was visited and the histories were cleared. -/

example : RestartsAs Demo.m Demo.env (Demo.at' Demo.env [9]) (mem0 Demo.m) 50 [(.dispatch 2, 50), (.clearHistory 7, 1), (.dispatch 4, 50)] :=
  initialised_again_is_new_partial (fun _ => rfl) (by decide +kernel)

def cleared : Mem := (calls Demo.m Demo.env [(.clearHistory 7, 1), (.clearHistory 8, 1)] (Demo.at' Demo.env [4, 7])).1

example : cleared.state = some 6 ∧ RestartsAs Demo.m Demo.env cleared (mem0 Demo.m) 50 [(.dispatch 4, 50)] := by
  refine ⟨by decide +kernel, initialised_again_is_new_partial (fun h => ?_) (by decide +kernel)⟩
  have hh : cleared.hist = setHist (setHist (setHist (setHist (fun _ => none) 7 (some 4)) 8 (some 6)) 7 none) 8 none := rfl
  rw [hh]
  simp only [setHist]
  by_cases h8 : h = 8 <;> by_cases h7 : h = 7 <;> simp [h8, h7]

example : RestartsAs Demo.m Demo.env (Demo.at' Demo.env [4, 7, 3])
    { mem0 Demo.m with hist := (Demo.at' Demo.env [4, 7, 3]).hist } 50 [(.dispatch 4, 50)] :=
  initialised_again_keeps_only_histories (by decide +kernel)

end Verif.SM
