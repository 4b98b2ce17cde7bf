import Verif.Sys.Props
import Verif.SM.Check
/-
C145, C146: the example application demo/80x86/blinky on the whole model: its state machine run by the engine, its timer by the timer
module, its events by the framework; the hardware timer interrupts it at any moment. Not modelled: the key that ends the example.
-/
namespace Verif.App.Blinky
open Verif

/-- Paths are relative to /repo/demo/80x86/blinky/src. Configuration of RKH, `LedOnTime` and `LedOffTime` in ticks (blinky.c:22-23) and the number of elements of `qsto` (main.c:19, 25). -/
structure Cfg where
  sys : Sys.Cfg
  on : Nat
  off : Nat
  qsize : Nat

/-- Addresses of `me->timer.tmr` and of the event part of `me->timer` (blinky.c:52-59). -/
def TMR : Nat := 1
@[inherit_doc TMR] def EV : Nat := 2
/-- `evTout` (blinky.h of the example). -/
def evTout : Nat := 0
/-- The states `ledOn` and `ledOff` (blinky.c:41, 46). -/
abbrev ledOn : SM.Vid := 0
@[inherit_doc ledOn] abbrev ledOff : SM.Vid := 1

/-- `RKH_SMA_CREATE(Blinky, blinky, BlinkyPrio, HCAL, &ledOn, init, NULL)` (blinky.c:61) with the states of blinky.c:41-49; two levels,
two segments (rkhcfg.h of the example). `init` is action 0. -/
def m : SM.Machine := SM.ofList [
  .basic none [⟨evTout, none, none, some ledOff⟩],
  .basic none [⟨evTout, none, none, some ledOn⟩]] ledOn (some 0) 2 2 true

/-- There are no guards. -/
def env : SM.Env := fun _ _ _ => false

/-- Calls made by the actions. -/
inductive Call where
  | tmr (op : Timer.Op)
  | led (b : Bool)
  deriving DecidableEq, Repr

/-- The bodies of the actions: `init` (blinky.c:71-84), `nLedOn` (blinky.c:87-93), `nLedOff` (blinky.c:95-100). Simplifications: the trace
calls are left out, the member `cnt` too (nobody reads it), and the event of the timer has its signal (`RKH_SET_STATIC_EVENT`) from the
beginning. -/
def callsOf (p : Cfg) : SM.Obs → List Call
  | .act 0 _ => [.tmr (.init TMR EV)]
  | .entry 0 => [.tmr (.start TMR 1 p.on 0), .led true]
  | .entry 1 => [.tmr (.start TMR 1 p.off 0), .led false]
  | _ => []

/-- The running program: the system, the calls the actions of the present run-to-completion step still have to make, the number of ticks so
far, and the calls of `bsp_ledOn` (true) and `bsp_ledOff` (false) with the number of ticks before them. -/
structure App where
  s : Sys.Sys
  todo : List Call
  ticks : Nat
  led : List (Nat × Bool)

/-- What the state machine of blinky has done. -/
def logOf (s : Sys.Sys) : List SM.Obs :=
  match s.objs[0]? with
  | some x => x.mem.log
  | none => []

/-- `RKH_SMA_ACTIVATE(blinky, qsto, QSTO_SIZE, 0, 0)` (main.c:35), up to the bodies of the actions. `qsto` and the timer have arbitrary
contents. The hardware timer runs from `rkh_fwk_enter` on; the model lets it interrupt the actions of the activation too. -/
def boot (p : Cfg) (slots : List MemPool.Pool) (hdr : Nat → Fwk.Evt) (heap : Nat → Timer.Tmr) (qsto : List Nat) : Res App :=
  (Sys.step p.sys (Sys.init p.sys slots hdr heap) (.activate 0 qsto p.qsize m env 20)).map' fun r =>
    ⟨r.1, (logOf r.1).flatMap (callsOf p), 0, []⟩

/-- The processor executes the next piece of the program: a call of an action; else the next piece of RKH_FWK_GC; else, in the loop of
`rkh_fwk_enter` (rkhfwk_sched.c:103-133), the selection, the dispatch, the end of a dispatch. -/
def cpu (p : Cfg) (x : App) : Res App :=
  match x.todo with
  | .led b :: l => .ok { x with todo := l, led := x.led ++ [(x.ticks, b)] }
  | .tmr op :: l => (Sys.step p.sys x.s (.tmr op)).map' fun r => { x with s := r.1, todo := l }
  | [] =>
    match x.s.w.conts with
    | _ :: _ => (Sys.step p.sys x.s (.call (.resume 0))).map' fun r => { x with s := r.1 }
    | [] =>
      match x.s.w.ph with
      | .none => (Sys.step p.sys x.s (.call .select)).map' fun r => { x with s := r.1 }
      | .fetch _ => (Sys.step p.sys x.s (.fetch 20)).map' fun r =>
          { x with s := r.1, todo := ((logOf r.1).drop (logOf x.s).length).flatMap (callsOf p) }
      | .run _ _ => (Sys.step p.sys x.s (.call .done)).map' fun r => { x with s := r.1 }

/-- The hardware timer calls `rkh_tmr_tick`. -/
def tick (p : Cfg) (x : App) : Res App :=
  (Sys.step p.sys x.s .tick).map' fun r => { x with s := r.1, ticks := x.ticks + 1 }

/-- What happens next: the processor goes on, or the hardware timer interrupts. -/
inductive Act where
  | cpu
  | tick
  deriving DecidableEq, Repr

/-- One step. -/
def step (p : Cfg) (x : App) : Act → Res App
  | .cpu => cpu p x
  | .tick => tick p x

/-- A history. -/
def run (p : Cfg) : App → List Act → Res App
  | x, [] => .ok x
  | x, a :: l => (step p x a).bind fun x => run p x l

end Verif.App.Blinky

namespace Verif.App.Blinky.Spec
open Verif

/-- The configuration is admissible: assertions compiled in, priority 0 configured, the queue has room for one event and its size fits its
type, the times are positive and fit the tick counters, the event of the timer is static with signal `evTout`. -/
structure Good (p : Cfg) (slots : List MemPool.Pool) (hdr : Nat → Fwk.Evt) (qsto : List Nat) : Prop where
  env : Fwk.Env p.sys.fw slots hdr
  prio : 0 < p.sys.fw.maxSma
  qpos : 0 < p.qsize
  qlen : p.qsize ≤ qsto.length
  qfit : p.qsize < p.sys.fw.qW
  on : 0 < p.on ∧ p.on < p.sys.tm.W
  off : 0 < p.off ∧ p.off < p.sys.tm.W
  fuel : 1 < p.sys.tm.fuel
  ev : p.sys.fw.static EV = true
  sig : (hdr EV).sig = evTout

/-- Duration of phase `k`: the LED is on in the phases 0, 2, 4, … -/
def dur (p : Cfg) (k : Nat) : Nat := if k % 2 = 0 then p.on else p.off

/-- The tick at which phase `k` is due: the sum of the durations before. -/
def due (p : Cfg) : Nat → Nat
  | 0 => 0
  | k + 1 => due p k + dur p k

/-- The LED as it should be after `n` ticks. -/
def wave (p : Cfg) (n : Nat) : Bool := decide (n % (p.on + p.off) < p.on)

/-- Each tick is followed by some steps of the processor, before the first tick there are `k0` of them. -/
def paced (k0 : Nat) (ks : List Nat) : List Act := List.replicate k0 .cpu ++ ks.flatMap fun k => .tick :: List.replicate k .cpu

/-- State of the LED after calls of the LED functions: off at power-on. -/
def lit (l : List (Nat × Bool)) : Bool := match l.getLast? with | some (_, b) => b | none => false

end Verif.App.Blinky.Spec
