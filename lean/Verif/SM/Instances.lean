import Verif.SM.Memory
/-
C151: several state machine objects of the same type. Their states and histories are described by the same constant tables, to which the
variables of the histories belong.
-/
namespace Verif.SM.Instances
open Verif.SM

/-- What each object has of its own: the current state, and what happened to it. -/
structure Obj where
  state : Option Vid
  log : List Obs

/-- The objects (numbered), and the variables of the histories (`RKH_CREATE_HISTORY_STORAGE`, rkhsm.h:972-973), which are `static`
variables the constant history objects point to, one for each history, not for each object. -/
structure Objs where
  obj : Nat → Obj
  hist : Vid → Option Vid

/-- The objects before they are initialised (see `mem0`). -/
def objs0 (m : Machine) : Objs := ⟨fun _ => ⟨some m.istate, []⟩, fun _ => none⟩

/-- A call for object `i`. The guards look at the variables of this object. -/
def step (m : Machine) (env : Nat → Env) (i : Nat) (o : Op) (f : Nat) (x : Objs) : Objs × Ans Unit :=
  let r := op m (env i) f o ⟨(x.obj i).state, x.hist, (x.obj i).log⟩
  (⟨fun j => if j = i then ⟨r.1.state, r.1.log⟩ else x.obj j, r.1.hist⟩, r.2)

/-- A call that returns. -/
def returns : Ans Unit → Bool
  | .ok _ => true
  | .stop (.rc _) => true
  | .stop _ => false

/-- Calls for the objects in any order; `none` if one of them does not return (an assertion, undefined behaviour, no end). -/
def run (m : Machine) (env : Nat → Env) : List (Nat × Op × Nat) → Objs → Option (Objs × List (Nat × Ans Unit))
  | [], x => some (x, [])
  | (i, o, f) :: os, x =>
    let r := step m env i o f x
    if returns r.2 then (run m env os r.1).map fun q => (q.1, (i, r.2) :: q.2) else none

namespace Spec

/-- Calls for a single object that has the tables for itself. -/
def alone (m : Machine) (env : Env) : List (Op × Nat) → Mem → Option (Mem × List (Ans Unit))
  | [], s => some (s, [])
  | (o, f) :: os, s =>
    let r := op m env f o s
    if returns r.2 then (alone m env os r.1).map fun q => (q.1, r.2 :: q.2) else none

/-- The calls for object `i`. -/
def callsOf (i : Nat) (os : List (Nat × Op × Nat)) : List (Op × Nat) := os.filterMap fun x => if x.1 = i then some x.2 else none
/-- The results of the calls for object `i`. -/
def resultsOf (i : Nat) (rs : List (Nat × Ans Unit)) : List (Ans Unit) := rs.filterMap fun x => if x.1 = i then some x.2 else none

/-- The machine has no histories. -/
def NoHistory (m : Machine) : Prop := ∀ h d p t, m.vert h ≠ some (.hist d p t)

end Spec
open Spec

theorem same {m : Machine} (hno : NoHistory m) (env : Env) {s t : Mem} (h1 : s.state = t.state) (h2 : s.log = t.log) :
    SM.Spec.SameSituation m env s t :=
  ⟨h1, fun h d p trn hv => absurd hv (hno h d p trn), fun g e d => by rw [h2]⟩

theorem op_same {m : Machine} (hno : NoHistory m) (env : Env) (f : Nat) (o : Op) {s t : Mem} (h1 : s.state = t.state) (h2 : s.log = t.log) :
    (op m env f o s).2 = (op m env f o t).2 ∧ (op m env f o s).1.state = (op m env f o t).1.state ∧
      (op m env f o s).1.log = (op m env f o t).1.log := by
  obtain ⟨a, b, d, c1, c2⟩ := Unif.op (m := m) (env := env) f o s t (same hno env h1 h2)
  exact ⟨a, b.state, by rw [c1, c2, h2]⟩

theorem both {m : Machine} (hno : NoHistory m) (env : Nat → Env) : ∀ (os : List (Nat × Op × Nat)) (x : Objs) (a : Nat → Mem),
    (∀ i, (a i).state = (x.obj i).state ∧ (a i).log = (x.obj i).log) →
    (∀ y rs, run m env os x = some (y, rs) → ∀ i, ∃ s, alone m (env i) (callsOf i os) (a i) = some (s, resultsOf i rs) ∧
      s.state = (y.obj i).state ∧ s.log = (y.obj i).log) ∧
    (run m env os x = none → ∃ i, alone m (env i) (callsOf i os) (a i) = none) := by
  intro os
  induction os with
  | nil =>
    intro x a ha
    constructor
    · intro y rs h i
      cases h
      exact ⟨a i, rfl, (ha i).1, (ha i).2⟩
    · intro h; cases h
  | cons c os ih =>
    intro x a ha
    obtain ⟨i, o, f⟩ := c
    obtain ⟨e1, e2, e3⟩ := op_same hno (env i) f o (s := a i) (t := ⟨(x.obj i).state, x.hist, (x.obj i).log⟩) (ha i).1 (ha i).2
    have hres : (step m env i o f x).2 = (op m (env i) f o (a i)).2 := e1.symm
    have hal : alone m (env i) (callsOf i ((i, o, f) :: os)) (a i) =
        if returns (op m (env i) f o (a i)).2 then
          (alone m (env i) (callsOf i os) (op m (env i) f o (a i)).1).map fun q => (q.1, (op m (env i) f o (a i)).2 :: q.2) else none := by
      simp [callsOf, alone]
    have hoth : ∀ j, j ≠ i → callsOf j ((i, o, f) :: os) = callsOf j os := by
      intro j hj
      simp [callsOf, show i ≠ j from fun h => hj h.symm]
    cases hret : returns (op m (env i) f o (a i)).2 with
    | false =>
      have hrun : run m env ((i, o, f) :: os) x = none := by simp [run, hres, hret]
      rw [hrun]
      exact ⟨fun _ _ h => (by cases h), fun _ => ⟨i, (by rw [hal, hret]; simp)⟩⟩
    | true =>
      have hrun : run m env ((i, o, f) :: os) x =
          (run m env os (step m env i o f x).1).map fun q => (q.1, (i, (op m (env i) f o (a i)).2) :: q.2) := by
        simp [run, hres, hret]
      have hstep := ih (step m env i o f x).1 (fun j => if j = i then (op m (env i) f o (a i)).1 else a j) (by
        intro j
        by_cases hj : j = i
        · subst hj; simp [step, e2, e3]
        · simp [step, hj, ha j])
      rw [hrun]
      constructor
      · intro y rs h j
        rw [Option.map_eq_some_iff] at h
        obtain ⟨⟨y', rs'⟩, h1, h2⟩ := h
        cases h2
        obtain ⟨s, k1, k2, k3⟩ := hstep.1 _ _ h1 j
        by_cases hj : j = i
        · subst hj
          simp only [if_true] at k1
          refine ⟨s, ?_, k2, k3⟩
          rw [hal, hret]
          simp [k1, resultsOf]
        · simp only [if_neg hj] at k1
          refine ⟨s, ?_, k2, k3⟩
          rw [hoth j hj, k1]
          simp [resultsOf, show i ≠ j from fun h => hj h.symm]
      · intro h
        rw [Option.map_eq_none_iff] at h
        obtain ⟨j, hj⟩ := hstep.2 h
        by_cases hji : j = i
        · subst hji
          simp only [if_true] at hj
          exact ⟨j, by rw [hal, hret]; simp [hj]⟩
        · simp only [if_neg hji] at hj
          exact ⟨j, by rw [hoth j hji]; exact hj⟩

/-- **C151** (part) Any number of state machine objects of the same type, without history pseudostates: however the calls for them are
interleaved, each object does exactly what it would do if it were alone (same results, same actions and guards called with the same
events, same states), and the calls all return exactly if they would for each object alone. Missing: machines with histories, for which
this is false (`objects_share_histories`). -/
theorem objects_are_independent_partial {m : Machine} (hno : NoHistory m) (env : Nat → Env) (os : List (Nat × Op × Nat)) :
    (∀ y rs, run m env os (objs0 m) = some (y, rs) → ∀ i, ∃ s, alone m (env i) (callsOf i os) (mem0 m) = some (s, resultsOf i rs) ∧
      s.state = (y.obj i).state ∧ s.log = (y.obj i).log) ∧
    (run m env os (objs0 m) = none ↔ ∃ i, alone m (env i) (callsOf i os) (mem0 m) = none) := by
  obtain ⟨h1, h2⟩ := both hno env os (objs0 m) (fun _ => mem0 m) (fun _ => ⟨rfl, rfl⟩)
  refine ⟨h1, h2, ?_⟩
  rintro ⟨i, hi⟩
  cases hr : run m env os (objs0 m) with
  | none => rfl
  | some q =>
    obtain ⟨s, k, _⟩ := h1 q.1 q.2 hr i
    rw [hi] at k; cases k

/-! ## With histories -/

/-- A composite state 0 with substates 1 (the default) and 2 and a shallow history 3, and a state 4 outside. Event 1 leads from 1 to 2,
event 2 from 0 to 4, event 3 from 4 to the history. -/
def withHist : Machine where
  vert := fun v => match v with
    | 0 => some (.composite none [⟨2, none, none, some 4⟩] 1 none (some 3))
    | 1 => some (.basic (some 0) [⟨1, none, none, some 2⟩])
    | 2 => some (.basic (some 0) [])
    | 3 => some (.hist false (some 0) ⟨0, none, none, none⟩)
    | 4 => some (.basic none [⟨3, none, none, some 3⟩])
    | _ => none
  istate := 4
  iaction := none
  maxDepth := 4
  maxSegs := 4
  assertEn := true

/-- Object 0 visits state 2 and leaves; object 1 is in its initial state; then object 1 enters through the history for the first time. -/
def sharing : List (Nat × Op × Nat) :=
  [(0, .dispatch sigCreation, 20), (1, .dispatch sigCreation, 20), (0, .dispatch 3, 20), (0, .dispatch 1, 20), (0, .dispatch 2, 20), (1, .dispatch 3, 20)]

/-- The state of object 1 after `sharing`, and if it is alone. -/
def ends : Option (Option Vid) × Option (Option Vid) :=
  ((run withHist (fun _ _ _ _ => true) sharing (objs0 withHist)).map fun q => (q.1.obj 1).state,
   (alone withHist (fun _ _ _ => true) (callsOf 1 sharing) (mem0 withHist)).map fun q => q.1.state)

/-- **C151** fails: entering through the history, an object that has never been inside restores the state in which another object left. -/
theorem objects_share_histories : ends = (some (some 2), some (some 1)) := by decide +kernel

/-- The hypotheses of `objects_are_independent_partial` are met: the same machine with the history removed, two objects that go different ways. -/
def noHist : Machine := { withHist with
  vert := fun v => match v with
    | 0 => some (.composite none [⟨2, none, none, some 4⟩] 1 none none)
    | 1 => some (.basic (some 0) [⟨1, some (.fn 0), none, some 2⟩])
    | 2 => some (.basic (some 0) [])
    | 4 => some (.basic none [⟨3, none, none, some 0⟩])
    | _ => none }

example : NoHistory noHist := by
  intro h d p t
  simp only [noHist]
  split <;> simp

def noHistEnds : Option (Option Vid × Option Vid × List (Nat × Ans Unit)) :=
  (run noHist (fun i _ _ _ => i == 0) ([(0, .dispatch sigCreation, 20), (1, .dispatch sigCreation, 20), (0, .dispatch 3, 20), (1, .dispatch 3, 20),
    (0, .dispatch 1, 20), (1, .dispatch 1, 20)]) (objs0 noHist)).map fun q => ((q.1.obj 0).state, (q.1.obj 1).state, q.2)

example : noHistEnds = some (some 2, some 1, [(0, .ok ()), (1, .ok ()), (0, .ok ()), (1, .ok ()), (0, .ok ()), (1, .stop (.rc .evtNFound))]) := by
  decide +kernel

end Verif.SM.Instances
