import Verif.Fwk.Model
import Verif.SM.Model
import Verif.Timer.Model
/-
The whole system: the framework layer (`Fwk`), one state machine per active object (`SM`) and the
software timers (`Timer`), composed as in source/fwk/src/rkhfwk_sched.c, source/sma/src/rkhsma.c and source/tmr/src/rkhtmr.c
or, in ports where every active object has a thread, as in the thread functions of those ports (`take`).
The components are the models of the other modules, not abstractions of them.

Simplifications: the guards of an active object depend on its own past only (active objects share no data). The effect of a
run-to-completion step on the object's own data is recorded when the step begins; the calls made by its actions
(posting, deferring, starting timers and so on) are operations of the history between `fetch` and `done`, or between `take` and
the RKH_FWK_GC of the thread. Timer hooks make no timer calls. The ports with threads enable
RKH_CFGPORT_REENTRANT_EN (rkhport.h:126 of win32_mt/vc), so that dispatches of different objects have no variables in common.
A dispatch that does not return within the step budget `f` of the model ends the history.
-/
namespace Verif.Sys
open Verif

/-- Configuration of the framework layer and of the timers. -/
structure Cfg where
  fw : Fwk.Cfg
  tm : Timer.Cfg

/-- The private part of an active object: its state machine, guard functions, and data. -/
structure Obj where
  m : SM.Machine
  env : SM.Env
  mem : SM.Mem

/-- The system. `objs[i]` belongs to the active object `w.aos[i]`. A timer refers to the active object `i` as `i + 1`,
since 0 is NULL. -/
structure Sys where
  w : Fwk.World
  objs : List Obj
  tm : Timer.St

/-- After `rkh_fwk_init`: no active objects, no timers running (rkhtmr.c:244-248), arbitrary contents of the timer structures. -/
def init (c : Cfg) (slots : List MemPool.Pool) (hdr : Nat → Fwk.Evt) (heap : Nat → Timer.Tmr) : Sys :=
  { w := Fwk.initW c.fw slots hdr, objs := [], tm := Timer.moduleInit heap }

/-- Operations. `activate` is `rkh_sma_activate`; `fetch` is `rkh_sma_get` followed by RKH_SMA_DISPATCH; `take` the same in the
thread of `ao` (80x86/win32_mt/vc/rkhport.c:106-108, ucos/v3.03.01/rkhport.c:79-81 under source/portable); `tick` is
`rkh_tmr_tick`; `tmr` any other timer call; `call` any other framework call or scheduler step. -/
inductive Op where
  | activate (prio : Nat) (mem : List Nat) (qsize : Nat) (m : SM.Machine) (env : SM.Env) (f : Nat)
  | fetch (f : Nat)
  | take (ao f : Nat)
  | tick
  | tmr (op : Timer.Op)
  | call (op : Fwk.Op)

/-- What an operation returns or shows. `handled ao e sig r`: the event `e` was dispatched to `ao` with signal `sig`,
and `rkh_sm_dispatch` returned `r`. -/
inductive Out where
  | activated (ao : Nat)
  | handled (ao e sig : Nat) (r : SM.Ans Unit)
  | posts (l : List Timer.Post)
  | tmr (o : Timer.Out)
  | call (o : Fwk.Out)

/-- How a dispatch ends: the scheduler ignores the result code (rkhfwk_sched.c:126). -/
def ended (s : SM.Mem) : SM.Ans Unit → Res SM.Mem
  | .ok () => .ok s
  | .stop (.rc _) => .ok s
  | .stop .assert => .assert
  | .stop .ub => .ub
  | .stop .fuel => .ub

/-- The posts of one tick (RKH_TICK_POST, rkhtmr.c:161), in order, inside the critical section of `rkh_tmr_tick`. -/
def postAll (c : Fwk.Cfg) : Fwk.World → List Timer.Post → Res Fwk.World
  | w, [] => .ok w
  | w, p :: ps => (Fwk.postFifo c w (p.sma - 1) p.evt).bind fun w => postAll c w ps

/-- One operation. -/
def step (c : Cfg) (s : Sys) : Op → Res (Sys × Out)
  | .activate p mem n m env f =>
    -- rkh_sma_activate (rkhsma.c:147-161): queue, registration, rkh_sm_init
    (Fwk.activate c.fw s.w p mem n).bind fun r =>
    (ended (SM.init m env f (SM.mem0 m)).1 (SM.init m env f (SM.mem0 m)).2).bind fun x =>
    .ok ({ s with w := r.1, objs := s.objs ++ [⟨m, env, x⟩] }, .activated r.2)
  | .fetch f =>
    -- rkhfwk_sched.c:124-126
    match s.w.ph with
    | .fetch ao =>
      (Fwk.smaGet c.fw s.w ao).bind fun r =>
      match s.objs[ao]? with
      | none => .ub
      | some x =>
        let d := SM.dispatch x.m x.env f (r.1.hdr r.2).sig x.mem
        (ended d.1 d.2).bind fun mem =>
        .ok ({ s with w := { r.1 with ph := .run ao r.2 }, objs := s.objs.set ao { x with mem := mem } },
             .handled ao r.2 (r.1.hdr r.2).sig d.2)
    | _ => .ub
  | .take ao f =>
    (Fwk.smaGet c.fw s.w ao).bind fun r =>
    match s.objs[ao]? with
    | none => .ub
    | some x =>
      let d := SM.dispatch x.m x.env f (r.1.hdr r.2).sig x.mem
      (ended d.1 d.2).bind fun mem =>
      .ok ({ s with w := { r.1 with conts := .thr ao r.2 :: r.1.conts }, objs := s.objs.set ao { x with mem := mem } },
           .handled ao r.2 (r.1.hdr r.2).sig d.2)
  | .tick =>
    -- rkhtmr.c:127-170
    (Timer.tick c.tm (fun _ => []) s.tm).bind fun r =>
    (postAll c.fw s.w r.2).bind fun w => .ok ({ s with w := w, tm := r.1 }, .posts r.2)
  | .tmr op =>
    match op with
    | .tick => .ub
    | op => (Timer.step c.tm s.tm op).map' fun r => ({ s with tm := r.1 }, .tmr r.2)
  | .call op =>
    match op with
    | .activate _ _ _ => .ub
    | .fetch => .ub
    | .take _ => .ub
    | op => (Fwk.step c.fw s.w op).map' fun r => ({ s with w := r.1 }, .call r.2)

end Verif.Sys
