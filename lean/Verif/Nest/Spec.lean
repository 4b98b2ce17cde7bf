import Verif.Nest.Model
import Verif.SM.Runs
/-
Specification: what dispatching to several state machines in one thread should do, in terms of what each machine does
alone (SM/Model.lean).
-/
namespace Verif.Nest
open Verif.SM Verif.SM.Spec

/-- Observations that are not calls of the application's functions. -/
def quiet : Obs → Bool
  | .stable _ => true
  | .clear _ => true
  | _ => false

namespace Spec

/-- The dispatches asked for by the functions of machine `i` that are called while its log grows from `log` by the given
observations. -/
def asked (p : Prog) (i : Nat) : List Obs → List Obs → List (Nat × Sig)
  | _, [] => []
  | log, o :: q => (if quiet o then [] else p.sends i (log ++ [o])) ++ asked p i (log ++ [o]) q

/-- The data of all machines, with that of machine `i` replaced. -/
def put (μ : Nat → Mem) (i : Nat) (m : Mem) : Nat → Mem := fun j => if j = i then m else μ j

/-- What a list of dispatches should do to the data of the machines, and the dispatches that return meanwhile, with their
results. For each dispatch, its machine does what it would do alone; the dispatches asked for by its functions are made
one after the other while it is processed, and none of them involves the machine itself. -/
inductive Does (p : Prog) (f : Nat) :
    (Nat → Mem) → List (Nat × Sig) → List (Nat × Sig × Ans Unit) → (Nat → Mem) → Prop where
  | nil {μ : Nat → Mem} : Does p f μ [] [] μ
  | cons {μ μ1 μ2 : Nat → Mem} {j : Nat} {e : Sig} {l : List (Nat × Sig)} {m' : Mem} {a : Ans Unit} {q : List Obs}
      {d1 d2 : List (Nat × Sig × Ans Unit)} :
      SM.dispatch (p.mach j) (p.env j) f e (μ j) = (m', a) → Returns a → m'.log = (μ j).log ++ q →
      Does p f μ (asked p j (μ j).log q) d1 μ1 → μ1 j = μ j → Does p f (put μ1 j m') l d2 μ2 →
      Does p f μ ((j, e) :: l) (d1 ++ (j, e, a) :: d2) μ2

/-- The state machines are well formed and within the limits, and the configuration is admitted by rkhitl.h:571-591. -/
structure Apt (p : Prog) : Prop where
  wf : ∀ j, WellFormed (p.mach j)
  lim : ∀ j, Limits (p.mach j)
  depth : ∀ j, (p.mach j).maxDepth ≤ 8
  segs : ∀ j, (p.mach j).maxSegs ≤ 8

/-- The functions of a machine dispatch only to machines of lower rank; in particular no machine is dispatched to while
it is processing an event. -/
def Ranked (p : Prog) (rank : Nat → Nat) : Prop := ∀ i log x, x ∈ p.sends i log → rank x.1 < rank i

/-- The dispatches to machine `j` with their results. -/
def of (j : Nat) (d : List (Nat × Sig × Ans Unit)) : List (Sig × Ans Unit) :=
  d.filterMap fun x => if x.1 = j then some x.2 else none

/-- Machine `j` alone, given these events one after the other, answers with these results and ends up with data `m'`. -/
def Alone (p : Prog) (f j : Nat) (l : List (Sig × Ans Unit)) (m m' : Mem) : Prop :=
  (∀ x ∈ l, Returns x.2) ∧
  SM.calls (p.mach j) (p.env j) (l.map fun x => (.dispatch x.1, f)) m = (m', l.map (·.2))

end Spec

end Verif.Nest
