import Verif.Timer.Model
/-
Specification of software timers: no list, no counters shared between timers; each timer has a schedule of its own.
-/
namespace Verif.Timer.Spec
open Verif.Timer

/-- Schedule of a running timer: receiver, ticks left until it expires, and period (0 = one-shot). -/
structure Sched where
  sma : Nat
  left : Nat
  per : Nat
  deriving DecidableEq, Repr

/-- A timer: has it been initialised, its event, and its schedule if it is running. -/
structure T where
  ready : Bool
  evt : Nat
  sched : Option Sched
  deriving DecidableEq, Repr

/-- All timers, and the running ones in order of activation, most recent first. -/
structure S where
  tm : Nat → T
  order : List Nat

/-- Nothing initialised, nothing running. -/
def start0 : S := { tm := fun _ => { ready := false, evt := 0, sched := none }, order := [] }

def set (a : S) (t : Nat) (v : T) : Nat → T := fun x => if x = t then v else a.tm x

/-- One tick of one schedule: expire when one tick is left; then stop if one-shot, or start over with the period. -/
def tickSched (s : Sched) : Option Sched :=
  if s.left = 1 then (if s.per = 0 then none else some { s with left := s.per })
  else some { s with left := s.left - 1 }

/-- What a timer posts at a tick: its event to its receiver if one tick was left. -/
def fire (a : S) (t : Nat) : Option Post :=
  match (a.tm t).sched with
  | some s => if s.left = 1 then some ⟨t, s.sma, (a.tm t).evt⟩ else none
  | none => none

def running (a : S) (t : Nat) : Bool := (a.tm t).sched.isSome

/-- One tick of a timer. -/
def tickT (v : T) : T := { v with sched := v.sched.bind tickSched }

/-- One call. -/
def step (a : S) : Op → S × Out
  | .init t e => ({ tm := set a t { ready := true, evt := e, sched := none }, order := a.order.erase t }, .unit)
  | .start t sma i p =>
    ({ tm := set a t { a.tm t with sched := some ⟨sma, i, p⟩ },
       order := if running a t then a.order else t :: a.order }, .unit)
  | .stop t => ({ tm := set a t { a.tm t with sched := none }, order := a.order.erase t }, .bool (running a t))
  | .tick =>
    ({ tm := fun t => tickT (a.tm t),
       order := a.order.filter fun t => (tickT (a.tm t)).sched.isSome }, .posts (a.order.filterMap (fire a)))

/-- A call respects the documented preconditions. `W` is the modulus of `RKH_TNT_T`. -/
def legalOp (W : Nat) (a : S) : Op → Prop
  | .init t e => t ≠ 0 ∧ e ≠ 0
  | .start t sma i p => (a.tm t).ready = true ∧ sma ≠ 0 ∧ 0 < i ∧ i < W ∧ p < W
  | .stop t => (a.tm t).ready = true
  | .tick => True

/-- Every call of the history respects the preconditions. -/
def Legal (W : Nat) : S → List Op → Prop
  | _, [] => True
  | a, op :: ops => legalOp W a op ∧ Legal W (step a op).1 ops

/-- Outputs and final state of a history. -/
def run : S → List Op → List Out × S
  | a, [] => ([], a)
  | a, op :: ops => ((step a op).2 :: (run (step a op).1 ops).1, (run (step a op).1 ops).2)

/-! ### Reading a history -/

/-- The posts of each tick of a run, in order. -/
def ticks : List Out → List (List Post)
  | [] => []
  | .posts l :: os => l :: ticks os
  | _ :: os => ticks os

/-- The call is about timer `t`. -/
def concerns (t : Nat) : Op → Bool
  | .init u _ => u == t
  | .start u _ _ _ => u == t
  | .stop u => u == t
  | .tick => false

/-- The call initialises `t`. -/
def isInit (t : Nat) : Op → Bool
  | .init v _ => v == t
  | _ => false

/-- The event of the last initialisation of `t` (0 if there was none). -/
def lastEvt (t : Nat) : List Op → Nat
  | [] => 0
  | .init u e :: h => if h.any (isInit t) then lastEvt t h else if u = t then e else lastEvt t h
  | _ :: h => lastEvt t h

/-- The ticks (counted from 1 after the start) at which a timer started with `itick = n` and period `p` expires. -/
def Fires (n p k : Nat) : Prop := k = n ∨ (0 < p ∧ n < k ∧ p ∣ (k - n))

instance (n p k : Nat) : Decidable (Fires n p k) := by unfold Fires; infer_instance

end Verif.Timer.Spec

namespace Verif.Timer

/-- The list starting at `p` visits exactly `L`. -/
def Chain (h : Nat → Tmr) : Nat → List Nat → Prop
  | p, [] => p = 0
  | p, x :: L => p = x ∧ x ≠ 0 ∧ Chain h (h x).tnext L

end Verif.Timer
