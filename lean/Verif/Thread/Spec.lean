import Verif.Thread.Model
/-
Specification vocabulary for systems of threads: which framework calls a history consists of, and the contract of clients.
-/
namespace Verif.Thread.Spec
open Verif

/-- The framework operations of a history, in the order of their critical sections. -/
def calls (outs : List Out) : List Fwk.Op := outs.filterMap (Option.map (·.1))

/-- What they returned. -/
def results (outs : List Out) : List Fwk.Out := outs.filterMap (Option.map (·.2))

/-- Events given to the state machine of `ao`, in order. -/
def dispatched (ao : Nat) (outs : List Out) : List Nat := Fwk.Obs.dispatched ao (results outs)

/-- The clients' contract: that of the framework (`Fwk.Spec.Legal`) for every call, except that nothing is asked of the threads' own
`rkh_sma_get`. (So a thread is asked to end only when its queue is empty, and nobody posts to an object whose thread has ended.) -/
def CallsLegal (c : Fwk.Cfg) : Fwk.Spec.Abs → List Fwk.Op → Prop
  | _, [] => True
  | a, op :: ops => ((∃ ao, op = .take ao) ∨ Fwk.Spec.Legal c a op) ∧
      ∀ a' o, Fwk.Spec.step c a op = .ok (a', o) → CallsLegal c a' ops

end Verif.Thread.Spec

namespace Verif.Thread
open Verif

/-- A history `ops` whose clients respect the contract, started on the initialised framework, led to `s`. -/
structure Run (c : Cfg) (slots : List MemPool.Pool) (hdr : Nat → Fwk.Evt) (ops : List Op) (outs : List Out) (s : St) : Prop where
  env : Fwk.Env c.fw slots hdr
  legal : Spec.CallsLegal c.fw (Fwk.Spec.init fun e => (hdr e).sig) (Spec.calls outs)
  run : runOps (step c) (init c slots hdr) ops = (outs, .ok s)

/-- Is this a step of the thread of `ao`? -/
def isThread (ao : Nat) : Op → Bool
  | .thread i => i == ao
  | _ => false

/-- How many steps of its own a thread needs at most to begin an event that is waiting. -/
def need : Pc → Nat
  | .top => 1
  | .woke => 1
  | .wait => 2
  | .test => 2
  | .run => 3
  | .none => 0
  | .dead => 0

/-- The thread exists and goes on: its handle is stored, or it is before the event. -/
def Goes (t : Thr) : Prop := (t.pc ≠ .none ∧ t.pc ≠ .dead) ∧ (t.handle = true ∨ t.pc = .top ∨ t.pc = .woke ∨ t.pc = .wait)

/-- The active object `ao` is registered: the framework's table maps its priority to it. -/
def Listed (s : St) (ao : Nat) : Prop := ∃ x, s.w.aos[ao]? = some x ∧ s.w.sptbl[x.prio]? = some (some ao)

/-- The thread exists and has not ended. -/
def Alive (t : Thr) : Prop := t.pc ≠ .none ∧ t.pc ≠ .dead

end Verif.Thread
