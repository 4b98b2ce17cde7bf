import Verif.Fwk.Props2
/-
Model of the ports that run every active object in a thread of its own: source/portable/80x86/win32_mt/vc/rkhport.c
(`thread_function` 97-117, `rkh_sma_block` 163-172, `rkh_sma_setReady` 174-178, `rkh_sma_activate` 242-286,
`rkh_sma_terminate` 288-292) and, with `Cfg.testFirst`, the thread function of source/portable/ucos/v3.03.01/rkhport.c:71-88,
arm-cortex/ksdk_os/ucosiii/kds/rkhport.c:88-108, on top of the model of the framework (`Fwk`).

A history is an arbitrary list of operations, each a critical section, a call of the operating system, or a test of a variable; the
threads, interrupts and the creators of threads interleave freely.

Simplifications: the operating system's event object is a flag (`sig`) that SetEvent sets and a successful wait clears (auto-reset,
CreateEvent with bManualReset = FALSE); SetEvent before CreateEvent has no effect. The critical sections of RKH_FWK_GC after the
first are operations of `Fwk` that may come later than the loop test. Thread priorities are left out: any thread may run at any time.
In the uC/OS ports the wait is inside the operating system's queue; there the flag stands for that.
-/
namespace Verif.Thread
open Verif

/-- Configuration. `testFirst`: the thread tests the flag also before its first event (`while`, uC/OS), not only after each event (`do … while`). -/
structure Cfg where
  fw : Fwk.Cfg
  testFirst : Bool

/-- Where a thread is. `none`: not created; `top`: before `rkh_sma_get`; `wait`: in WaitForSingleObject (rkhport.c:169); `woke`: the wait
is over, before entering the critical section again (rkhport.c:170); `run`: in `rkh_sm_dispatch`; `test`: before the test of
`sma->thread` (or `running`); `dead`: ended. -/
inductive Pc where
  | none
  | top
  | wait
  | woke
  | run
  | test
  | dead
  deriving DecidableEq, Repr

/-- What belongs to one active object. `cr`: how far `rkh_sma_activate` has come: 0 registered, 1 the event object exists
(rkhport.c:256), 2 the thread exists (CreateThread, rkhport.c:258), 3 its handle is stored in `sma->thread` (or `running` set,
ucos/v3.03.01/rkhport.c:210). `handle`: `sma->thread != 0` (or `running`). -/
structure Thr where
  pc : Pc
  cr : Nat
  sig : Bool
  handle : Bool
  deriving DecidableEq, Repr

/-- The framework and the threads. -/
structure St where
  w : Fwk.World
  thr : Nat → Thr

/-- Before `rkh_sma_activate`: the variable is zero-initialised. -/
def thr0 : Thr := ⟨.none, 0, false, false⟩

/-- Initially there are no threads. -/
def init (c : Cfg) (slots : List MemPool.Pool) (hdr : Nat → Fwk.Evt) : St := ⟨Fwk.initW c.fw slots hdr, fun _ => thr0⟩

/-- Operations. `activate` is `rkh_sma_activate` up to the registration, `create` its next step; `terminate` is `rkh_sma_terminate`;
`thread` is the next step of the thread of `ao`; `call` any other framework call, by a thread, an interrupt or any other
task. -/
inductive Op where
  | activate (prio : Nat) (mem : List Nat) (qsize : Nat)
  | create (ao : Nat)
  | terminate (ao : Nat)
  | thread (ao : Nat)
  | call (op : Fwk.Op)

/-- The framework operation that a step consists of, if any, and its result. -/
abbrev Out := Option (Fwk.Op × Fwk.Out)

/-- Update one thread. -/
def upd (f : Nat → Thr) (ao : Nat) (t : Thr) : Nat → Thr := fun x => if x = ao then t else f x

/-- An element was stored in the queue of `ao`: then `rkh_queue_put_fifo`/`_lifo` has called `rkh_sma_setReady`
(rkhqueue.c:241-244, 286-289). -/
def stored (w w' : Fwk.World) (ao : Nat) : Bool :=
  match w.aos[ao]?, w'.aos[ao]? with
  | some x, some y => decide (x.q.qty < y.q.qty)
  | _, _ => false

/-- The SetEvent calls of a framework operation (rkhport.c:177). -/
def signals (w w' : Fwk.World) (f : Nat → Thr) : Nat → Thr := fun ao =>
  if stored w w' ao = true ∧ 1 ≤ (f ao).cr then { f ao with sig := true } else f ao

/-- A framework operation; `f` are the threads afterwards. -/
def fwk (c : Cfg) (s : St) (f : Nat → Thr) (op : Fwk.Op) : Res (St × Out) :=
  (Fwk.step c.fw s.w op).map' fun r => (⟨r.1, signals s.w r.1 f⟩, some (op, r.2))

/-- Is this the dispatch of the thread of `ao`? -/
def isThr (ao : Nat) : Fwk.Cont → Bool
  | .thr i _ => i == ao
  | _ => false

/-- Is this an unfinished `rkh_sma_recall` of `ao`? -/
def isRecall (ao : Nat) : Fwk.Cont → Bool
  | .rc2 i _ => i == ao
  | .rc3 i _ => i == ao
  | _ => false

/-- The next step of the thread of `ao`. -/
def thread (c : Cfg) (s : St) (ao : Nat) : Res (St × Out) :=
  let t := s.thr ao
  -- rkh_sma_get, rkh_queue_get, rkh_sma_block: in one critical section, unless the queue is empty
  let get : Res (St × Out) :=
    match s.w.aos[ao]? with
    | none => .ub
    | some x =>
      if x.q.qty = 0 then .ok (⟨s.w, upd s.thr ao { t with pc := .wait }⟩, none)
      else fwk c s (upd s.thr ao { t with pc := .run }) (.take ao)
  match t.pc with
  | .top => get
  | .woke => get
  | .wait =>
    -- the thread sleeps as long as the event object is not signalled
    if t.sig then .ok (⟨s.w, upd s.thr ao { t with pc := .woke, sig := false }⟩, none) else .ok (s, none)
  | .run =>
    -- the dispatch is over (so are the recalls its actions made); RKH_FWK_GC
    match s.w.conts.findIdx? (isThr ao) with
    | none => .ub
    | some k =>
      if s.w.conts.any (isRecall ao) then .ub
      else fwk c s (upd s.thr ao { t with pc := .test }) (.resume k)
  | .test =>
    if t.handle then .ok (⟨s.w, upd s.thr ao { t with pc := .top }⟩, none)
    else fwk c s (upd s.thr ao { t with pc := .dead }) (.terminate ao)   -- rkh_sma_unregister
  | .none => .ub
  | .dead => .ub

/-- Calls that are made by no thread, but by the threads' own code (`thread`), or by the scheduler these ports do not have. An object
recalls deferred events in its own actions. -/
def allowed (s : St) : Fwk.Op → Bool
  | .activate _ _ _ => false
  | .terminate _ => false
  | .select => false
  | .fetch => false
  | .done => false
  | .take _ => false
  | .recall ao _ => (s.thr ao).pc == .run
  | .resume k => match s.w.conts[k]? with
    | some (.thr _ _) => false
    | _ => true
  | _ => true

/-- One operation. -/
def step (c : Cfg) (s : St) : Op → Res (St × Out)
  | .activate p mem n => fwk c s s.thr (.activate p mem n)
  | .create ao =>
    let t := s.thr ao
    if s.w.aos.length ≤ ao then .ub
    else match t.cr with
      | 0 => .ok (⟨s.w, upd s.thr ao { t with cr := 1, sig := false }⟩, none)                -- CreateEvent
      | 1 => .ok (⟨s.w, upd s.thr ao { t with cr := 2, pc := if c.testFirst then .test else .top }⟩, none)   -- CreateThread
      | 2 => .ok (⟨s.w, upd s.thr ao { t with cr := 3, handle := true }⟩, none)             -- sma->thread = …
      | _ => .ub
  | .terminate ao => .ok (⟨s.w, upd s.thr ao { s.thr ao with handle := false }⟩, none)       -- rkhport.c:291
  | .thread ao => thread c s ao
  | .call op => if allowed s op then fwk c s s.thr op else .ub

end Verif.Thread
