import Verif.Fwk.Model
/-
Polymorphic active objects (RKH_CFG_SMA_VFUNCT_EN): the framework posts through the virtual table of the target.

An application that calls RKH_SMA_POST_FIFO or RKH_SMA_POST_LIFO on an object with an overriding function makes, in effect, the calls that
function makes; those are operations of `Op` like any other. Modelled here are the calls the framework itself makes through the table: for
each subscriber of a publication (rkhfwk_pubsub.c:171), for each expired timer (rkhtmr.c:82-86), and in a recall (rkhsma.c:260). The
first two are made inside a critical section, so that nothing runs between the calls of the overriding function.
The virtual `task` of the native scheduler (RKH_SMA_DISPATCH, rkhfwk_sched.c:126) is whatever happens between `fetch` and `done`; the ports with threads
call `rkh_sm_dispatch` directly (80x86/win32_mt/vc/rkhport.c:107, ucos/v3.03.01/rkhport.c:80, arm-cortex/ksdk_os/ucosiii/kds/rkhport.c:98 under source/portable)
and ignore the table.

Simplification: an overriding function does not change the channel being traversed (`VirtualLive` does without it).
-/
namespace Verif.Fwk
open Verif

/-- An overriding post function: the framework calls it makes, chosen from the state and the event. -/
abbrev Override := World → Nat → List Op

/-- The tables of all objects, as `rkh_sma_ctor` links them (rkhsma.c:124-135): the function given, or the inherited one for NULL. -/
abbrev Vtbls := Nat → Option Override

/-- RKH_SMA_POST_FIFO with virtual functions (rkhsma.h:440-447): the calls made. The default table names `rkh_sma_post_fifo`
(rkhsma.c:76-82). -/
def fifoCalls (vt : Vtbls) (w : World) (ao e : Nat) : List Op :=
  match vt ao with
  | none => [.postFifo ao e]
  | some f => f w e

/-- RKH_SMA_POST_FIFO with virtual functions (rkhsma.h:440-447). -/
def vpost (c : Cfg) (vt : Vtbls) (w : World) (ao e : Nat) : Res World := (runOps (step c) w (fifoCalls vt w ao e)).2

/-- The callback `publish` (rkhfwk_pubsub.c:163-175). -/
def vpublishCb (c : Cfg) (vt : Vtbls) (e : Nat) (sender : Option Nat) (w : World) (prio : Nat) : Res World :=
  match w.sptbl[prio]? with
  | none => .ub
  | some r =>
    (assertIf c.assertEn r.isSome).bind fun _ =>
    match r with
    | none => .ub
    | some ao => if some ao ≠ sender then vpost c vt w ao e else .ok w

/-- `rkh_pubsub_publish` (rkhfwk_pubsub.c:177-194), up to the pending `RKH_FWK_GC(event)`. -/
def vpublish (c : Cfg) (vt : Vtbls) (w : World) (ch e : Nat) (sender : Option Nat) : Res (World × Nat) :=
  match w.chans[ch]? with
  | none => .ub
  | some g =>
    (RdyGrp.traverse g (vpublishCb c vt e sender) (incRef w e)).map' fun r => ({ r.1 with conts := .gc1 e :: r.1.conts }, r.2)

/-- The posts of one `rkh_tmr_tick` (RKH_TICK_POST, rkhtmr.c:80-87, 161): target and event of each expired timer, in order. -/
def vtimeouts (c : Cfg) (vt : Vtbls) : World → List (Nat × Nat) → Res World
  | w, [] => .ok w
  | w, p :: ps => (vpost c vt w p.1 p.2).bind fun w => vtimeouts c vt w ps

/-- The end of `rkh_sma_recall` (rkhsma.c:260-282) when the overriding LIFO function of the target has returned: what it called are operations
executed while the recall, the `k`-th pending function, was about to post (`rc2`). -/
def vrecallEnd (c : Cfg) (w : World) (k : Nat) : Res World :=
  match w.conts[k]? with
  | some (.rc2 _ e) => recall3 c { w with conts := w.conts.eraseIdx k } e
  | _ => .ub

end Verif.Fwk
