import Verif.Timer.Spec
/-
Ticks whose time-out hooks call timer functions (source/tmr/src/rkhtmr.c:66-77, 158-160): operations and specification.
-/
namespace Verif.Timer
open Verif

/-- Calls on the module; `tick hook`: a tick in which the hook of timer `t`, if `t` expires, makes the calls `hook t`. -/
inductive OpH where
  | op (o : Op)
  | tick (hook : Nat → List Call)

/-- One call. -/
def stepH (c : Cfg) (s : St) : OpH → Res (St × Out)
  | .op o => step c s o
  | .tick hook => (tick c hook s).map' fun r => (r.1, .posts r.2)

namespace Spec

/-- During a tick: the timers, and those stopped by a hook in this tick. -/
structure Mid where
  a : S
  gone : List Nat

/-- A call of a hook. -/
def call (x : Mid) : Call → Mid
  | .start t sma i p => { x with a := (step x.a (.start t sma i p)).1 }
  | .stop t => { a := (step x.a (.stop t)).1, gone := t :: x.gone }

/-- A timer with schedule `v` expires: it stops, or starts over with its period. -/
def expire (a : S) (t : Nat) (v : Sched) : S :=
  if v.per = 0 then { tm := set a t { a.tm t with sched := none }, order := a.order.erase t }
  else { a with tm := set a t { a.tm t with sched := some { v with left := v.per } } }

/-- The turn of one timer in a tick. A timer that a hook stopped earlier in the same tick has no turn. A timer that expires runs its hook,
then posts its event to its receiver (the new one if the hook restarted the timer). -/
def turn (hook : Nat → List Call) (x : Mid) (t : Nat) : Mid × List Post :=
  if t ∈ x.gone then (x, [])
  else match (x.a.tm t).sched with
    | none => (x, [])
    | some v =>
      if v.left = 1 then
        let y := (hook t).foldl call { x with a := expire x.a t v }
        (y, [⟨t, ((y.a.tm t).sched.map (·.sma)).getD v.sma, (x.a.tm t).evt⟩])
      else ({ x with a := { x.a with tm := set x.a t { x.a.tm t with sched := some { v with left := v.left - 1 } } } }, [])

/-- The turns of several timers. -/
def turns (hook : Nat → List Call) : Mid → List Nat → Mid × List Post
  | x, [] => (x, [])
  | x, t :: ts => ((turns hook (turn hook x t).1 ts).1, (turn hook x t).2 ++ (turns hook (turn hook x t).1 ts).2)

/-- One call. In a tick every timer that runs at its beginning has its turn, most recently activated first. -/
def stepH (a : S) : OpH → S × Out
  | .op o => step a o
  | .tick hook => ((turns hook ⟨a, []⟩ a.order).1.a, .posts (turns hook ⟨a, []⟩ a.order).2)

/-- Outputs and final state of a history. -/
def runH : S → List OpH → List Out × S
  | a, [] => ([], a)
  | a, op :: ops => ((stepH a op).2 :: (runH (stepH a op).1 ops).1, (runH (stepH a op).1 ops).2)

/-- The calls a hook may make without damage. The hook of a periodic timer may start any timer (also its own) and stop any other timer.
The hook of a one-shot timer may only restart timers that are running. -/
def safeCall (W : Nat) (t per : Nat) (a : S) : Call → Prop
  | .start u sma i p => legalOp W a (.start u sma i p) ∧ (per = 0 → running a u = true)
  | .stop u => legalOp W a (.stop u) ∧ (if per = 0 then running a u = false else u ≠ t)

/-- All calls of one hook. -/
def SafeCalls (W : Nat) (t per : Nat) : Mid → List Call → Prop
  | _, [] => True
  | x, k :: l => safeCall W t per x.a k ∧ SafeCalls W t per (call x k) l

/-- All hooks of one tick. -/
def SafeTurns (W : Nat) (hook : Nat → List Call) : Mid → List Nat → Prop
  | _, [] => True
  | x, t :: ts =>
    (t ∉ x.gone → ∀ v, (x.a.tm t).sched = some v → v.left = 1 → SafeCalls W t v.per { x with a := expire x.a t v } (hook t)) ∧
    SafeTurns W hook (turn hook x t).1 ts

/-- The contract: calls respect their preconditions and hooks make safe calls only. -/
def legalH (W : Nat) (a : S) : OpH → Prop
  | .op o => legalOp W a o
  | .tick hook => SafeTurns W hook ⟨a, []⟩ a.order

/-- Every call of the history respects the contract. -/
def LegalH (W : Nat) : S → List OpH → Prop
  | _, [] => True
  | a, op :: ops => legalH W a op ∧ LegalH W (stepH a op).1 ops

/-- The addresses of the timers of a history are below `n`. -/
def below (n : Nat) : OpH → Prop
  | .op (.init t _) => t < n
  | _ => True

/-- The call is about timer `t`. -/
def aboutH (t : Nat) : Call → Bool
  | .start u _ _ _ => u == t
  | .stop u => u == t

end Spec
end Verif.Timer
