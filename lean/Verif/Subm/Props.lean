import Verif.Subm.Lemmas6
import Verif.Subm.Demo
/-
Submachines (rkhsm.h:2288-2549): a submachine state stands for the insertion of the submachine.
-/
namespace Verif.Subm
open Spec
open SM (Vid Sig Act Guard Tr Obs Env RC Stop Ans sigAny sigCompletion sigCreation)

/-- The run of the machine with submachines. -/
abbrev run (m : Machine) (env : Env) (os : List (Sig × Nat)) : Mem × List (Ans Unit) := calls m env os (mem0 m)
/-- The run of a machine without submachines. -/
abbrev runOf (U : SM.Machine) (env : Env) (os : List (Sig × Nat)) : SM.Mem × List (Ans Unit) := SM.calls U env (events os) (SM.mem0 U)

/-- The same calls return, with the same results; the same happens, in the same order; and the machines end in the same state. -/
structure SameRun (m : Machine) (N : Nat) (U : SM.Machine) (env : Env) (os : List (Sig × Nat)) : Prop where
  answers : (run m env os).2 = (runOf U (seenBy N env) os).2
  log : (run m env os).1.log = (runOf U (seenBy N env) os).1.log.map (seen N)
  state : (run m env os).1.state = (runOf U (seenBy N env) os).1.state.map (vtx N)

/-- **C152.** Let the machine be drawn as the manual says (`Proper`), and let the run of the machine in which every submachine is inserted
be one in which every call returns. If the machine never goes straight from the inside of a submachine state to the inside of another
submachine state of the same submachine, then the machine with submachines does exactly what the machine with inserted submachines does.

Missing from the full property (`not_an_insertion`): the case in which the machine does go from one to the other; default states that are
submachine states; and the initial action of a submachine, which the code executes as the effect of another segment of the transition,
before the entry action of the submachine state, where the initial action of a composite state is executed after it. -/
theorem submachine_is_insertion_partial {m : Machine} {N : Nat} {home : Vid → Option Vid} {rank : Option Vid → Nat} (P : Proper m N home rank) (hA : m.assertEn = true)
    (env : Env) (os : List (Sig × Nat)) (hret : ∀ a ∈ (runOf (inserted m N) (seenBy N env) os).2, Returned a)
    (hone : OneAtATime m N (stables (runOf (inserted m N) (seenBy N env) os).1.log)) : SameRun m N (inserted m N) env os := by
  obtain ⟨h1, h2, cs, h3, h4, _⟩ := Agree.calls P hA env os (Agree.start P) hret hone
  exact ⟨h1, h2, by rw [h3, h4]; rfl⟩

/-- **C152**, a condition on the drawing: if no two submachine states refer to the same submachine, submachines are insertions. -/
theorem single_use_is_insertion_partial {m : Machine} {N : Nat} {home : Vid → Option Vid} {rank : Option Vid → Nat} (P : Proper m N home rank) (hA : m.assertEn = true)
    (hs : ∀ v w M, sbm m v = some M → sbm m w = some M → v = w) (env : Env) (os : List (Sig × Nat))
    (hret : ∀ a ∈ (runOf (inserted m N) (seenBy N env) os).2, Returned a) : SameRun m N (inserted m N) env os :=
  submachine_is_insertion_partial P hA env os hret fun _ _ _ _ _ _ _ M _ _ h1 h2 => hs _ _ M h1 h2

/-! ## The property fails -/

namespace Bad

/-- The vertices of a machine. -/
def mk (l : List Vertex) (i : Vid) : Machine := { vert := fun v => l[v]?, istate := i, iaction := none, maxDepth := 4, maxSegs := 4, assertEn := true }

def env : Env := fun _ _ _ => true
def rank : Option Vid → Nat := fun h => if h = none then 0 else 1

/-- Two submachine states A (0) and B (1) of the submachine M (2), whose only state is X (3). The initial state I (4) leads to A (event 2),
A leads to B (event 1). -/
def twins : Machine := mk [.subm none [⟨1, none, none, some 1⟩] [] 2, .subm none [] [] 2, .ref 3 none, .basic (some 2) [], .basic none [⟨2, none, none, some 0⟩]] 4
def twinsHome : Vid → Option Vid := fun v => if v = 3 then some 2 else none

/-- A submachine state A (0) of the submachine M (1) with an initial action and the state X (2). I (3) leads to A. -/
def first : Machine := mk [.subm none [] [] 1, .ref 2 (some 7), .basic (some 1) [], .basic none [⟨2, none, none, some 0⟩]] 3
def firstHome : Vid → Option Vid := fun v => if v = 2 then some 1 else none

/-- A composite state C (0) whose default state is the submachine state A (1) of M (2) with the state X (3). I (4) leads to C. -/
def inside : Machine := mk [.composite none [] 1 none, .subm (some 0) [] [] 2, .ref 3 none, .basic (some 2) [], .basic none [⟨2, none, none, some 0⟩]] 4
def insideHome : Vid → Option Vid := fun v => if v = 3 then some 2 else none

theorem mk_proper {l : List Vertex} {i : Vid} {home : Vid → Option Vid} (h : (List.range l.length).all (fun v => match l[v]? with | some x => okVertex (mk l i) home rank v x | none => false) = true)
    (hi : isState (mk l i) i = true ∧ home i = none) : Proper (mk l i) l.length home rank := by
  have hlt : ∀ v x, (mk l i).vert v = some x → v < l.length := fun v x hv => (List.getElem?_eq_some_iff.mp (show l[v]? = some x from hv)).1
  refine ⟨hlt, fun v x hv => ?_, hi⟩
  have := List.all_eq_true.1 h v (List.mem_range.2 (hlt v x hv))
  rw [show l[v]? = some x from hv] at this
  exact this

theorem twins_proper : Proper twins 5 twinsHome rank := mk_proper (by decide +kernel) (by decide +kernel)
theorem first_proper : Proper first 4 firstHome rank := mk_proper (by decide +kernel) (by decide +kernel)

def twinsRun : Mem × List (Ans Unit) := run twins env [(sigCreation, 20), (2, 20), (1, 20)]
def twinsMeant : SM.Mem × List (Ans Unit) := runOf (inserted twins 5) (seenBy 5 env) [(sigCreation, 20), (2, 20), (1, 20)]
def firstRun : Mem × List (Ans Unit) := run first env [(sigCreation, 20), (2, 20)]
def firstMeant : SM.Mem × List (Ans Unit) := runOf (composed first 4) (seenBy 4 env) [(sigCreation, 20), (2, 20)]
def insideRun : Mem × List (Ans Unit) := run inside env [(sigCreation, 20), (2, 20)]
def insideMeant : SM.Mem × List (Ans Unit) := runOf (composed inside 5) (seenBy 5 env) [(sigCreation, 20), (2, 20)]

end Bad
open Bad

/-- On the way from A to B neither is A left nor is B entered: the engine finds that X is both the state to leave and the state to enter. -/
theorem twins_skipped : twinsRun.2 = twinsMeant.2 ∧ twinsRun.1.log.drop 6 = [.exit 3, .entry 3, .stable 3] ∧ (∀ a ∈ twinsMeant.2, a = .ok ()) ∧
    (twinsMeant.1.log.map (seen 5)).drop 6 = [.exit 3, .exit 0, .entry 1, .entry 3, .stable 3] := by decide +kernel

/-- The initial action of the submachine comes before the entry of the submachine state. -/
theorem initial_action_first : firstRun.2 = [.ok (), .ok ()] ∧ firstMeant.2 = [.ok (), .ok ()] ∧
    firstRun.1.log = [.entry 3, .stable 3, .exit 3, .act 7 2, .entry 0, .entry 2, .stable 2] ∧
    firstMeant.1.log.map (seen 4) = [.entry 3, .stable 3, .exit 3, .entry 0, .act 7 2, .entry 2, .stable 2] := by decide +kernel

/-- A default state that is a submachine state: `addTargetSt` follows the member `parent` of a submachine, which has none (rkhsm.c:361-369). -/
theorem default_submachine_undefined : insideRun.2 = [.ok (), .stop .ub] ∧ insideMeant.2 = [.ok (), .ok ()] ∧
    insideMeant.1.log.map (seen 5) = [.entry 4, .stable 4, .exit 4, .entry 0, .entry 1, .entry 3, .stable 3] := by decide +kernel

/-- The full property **C152** does not hold of the code, even for machines that `Proper` allows and runs in which every call returns, and
whichever way the initial action of the submachine is read. -/
theorem not_an_insertion :
    (¬ ∀ (m : Machine) (N : Nat) (home : Vid → Option Vid) (rank : Option Vid → Nat) (env : Env) (os : List (Sig × Nat)), Proper m N home rank → m.assertEn = true →
      (∀ a ∈ (runOf (inserted m N) (seenBy N env) os).2, Returned a) → SameRun m N (inserted m N) env os) ∧
    (¬ ∀ (m : Machine) (N : Nat) (home : Vid → Option Vid) (rank : Option Vid → Nat) (env : Env) (os : List (Sig × Nat)), Proper m N home rank → m.assertEn = true →
      (∀ v w M, sbm m v = some M → sbm m w = some M → v = w) → (∀ a ∈ (runOf (composed m N) (seenBy N env) os).2, Returned a) → SameRun m N (composed m N) env os) := by
  constructor
  · intro h
    have h1 := (h twins 5 twinsHome rank env _ twins_proper rfl (fun a ha => .inl (twins_skipped.2.2.1 a ha))).log
    have h2 : twinsRun.1.log = twinsMeant.1.log.map (seen 5) := h1
    have h3 := twins_skipped.2.1
    rw [h2, twins_skipped.2.2.2] at h3
    exact absurd h3 (by decide)
  · intro h
    have h1 := (h first 4 firstHome rank env [(sigCreation, 20), (2, 20)] first_proper rfl ?_ ?_).log
    · have h2 : firstRun.1.log = firstMeant.1.log.map (seen 4) := h1
      rw [initial_action_first.2.2.1, initial_action_first.2.2.2] at h2
      exact absurd h2 (by decide)
    · have key : ∀ v M, sbm first v = some M → v = 0 := by
        intro v M hv
        have hlt : v < 4 := by
          rcases Nat.lt_or_ge v 4 with h | h
          · exact h
          · have : first.vert v = none := List.getElem?_eq_none h
            simp [sbm, this] at hv
        have : ∀ v : Nat, v < 4 → (sbm first v).isSome = true → v = 0 := by decide +kernel
        exact this v hlt (by rw [hv]; rfl)
      intro v w M h1 h2
      rw [key v M h1, key w M h2]
    · intro a ha
      have h2 : a ∈ firstMeant.2 := ha
      rw [initial_action_first.2.1] at h2
      simp at h2
      exact .inl h2

end Verif.Subm
