import Verif.Queue.Model
import Verif.RdyGrp.Lemmas
import Verif.MemPool.Model
/-
Model of the framework layer that ties the components together:
  source/sma/src/rkhsma.c, rkhsma_prio.c, rkhsma_sync.c (registry, posting, deferring, recalling),
  source/fwk/src/rkhfwk_sched.c (cooperative scheduler), rkhfwk_dynevt.c, rkhfwk_evtpool.c (dynamic events),
  rkhfwk_pubsub.c (publish/subscribe), source/fwk/inc/rkhevt.h (event header, RKH_INC_REF).

The queues, the ready group and the memory pools are the models of the other modules, not abstractions of them.

Concurrency. One operation of `Op` is one critical section (code between RKH_ENTER_CRITICAL_ and
RKH_EXIT_CRITICAL_, or a piece that touches only data private to the caller). A function that consists of several critical
sections leaves a continuation in `World.conts` (or in `World.ph` for the scheduler loop); `Op.resume k` executes the next
section of the `k`-th pending continuation. A history is an arbitrary list of such operations, so interrupts may
run between any two critical sections, start functions of their own and be interrupted themselves. This is more
general than stack-like nesting of interrupts.

Simplifications: pointers to active objects and to deferred queues are indices, always valid; an event is identified by
its address and its header (`e`, `nref`, `pool`) is kept in a map `hdr` beside the pool memory (a block's header
lies inside the block; that writing there does not disturb the pool is `MemPool.poke_held`); when a block is given back to
its pool its header is overwritten with an arbitrary value `Cfg.junk`. Critical sections nest. Trace calls and hooks are omitted.
The state machine run by RKH_SMA_DISPATCH is an arbitrary sequence of operations between `fetch` and `done`, or between `take` and the
end of the thread's dispatch.
-/
namespace Verif.Fwk
open Verif

/-- `RKH_EVT_T` (rkhevt.h): signal, reference counter (`rui8_t`) and pool number (`rui8_t`, 0 = static event). -/
structure Evt where
  sig : Nat
  nref : Nat
  pool : Nat
  deriving DecidableEq, Repr

/-- Compile-time configuration (rkhcfg.h): assertions, RKH_CFG_FWK_MAX_SMA, RKH_CFG_FWK_MAX_EVT_POOL,
RKH_CFG_FWK_MAX_SUBS_CHANNELS, modulus of RKH_QUENE_T, memory pool configuration; which addresses hold static events; and
the header contents left behind in a block returned to its pool. -/
structure Cfg where
  assertEn : Bool
  maxSma : Nat
  maxPool : Nat
  maxChan : Nat
  qW : Nat
  mpc : MemPool.Cfg
  static : Nat → Bool
  junk : Nat → Evt

/-- Configuration of the queues. -/
def Cfg.qc (c : Cfg) : Queue.Cfg := ⟨c.assertEn, c.qW⟩

/-- Configuration of the memory pools. -/
def Cfg.mp (c : Cfg) : MemPool.Cfg := { c.mpc with assertEn := c.assertEn }

/-- `RKH_SMA_T`: the priority (RKH_GET_PRIO) and the event queue. -/
structure Ao where
  prio : Nat
  q : Queue.Queue

/-- Where the scheduler loop is (rkhfwk_sched.c:116-140): before the readiness test; between enabling interrupts and
`rkh_sma_get`; inside RKH_SMA_DISPATCH. -/
inductive Phase where
  | none
  | fetch (ao : Nat)
  | run (ao : Nat) (e : Nat)
  deriving DecidableEq, Repr

/-- Rest of a function that is between two critical sections. `gc1`: at the start of `rkh_fwk_gc`; `gc2`: after its
unprotected test; `put i`: before `rkh_evtPool_put` of pool `i` (rkhfwk_dynevt.c:85-114). `rc2`: `rkh_sma_recall`
before RKH_SMA_POST_LIFO to `ao`; `rc3`: before its critical section, the event having been posted to `ao` (rkhsma.c:250-285).
`thr ao e`: the thread of `ao` is executing RKH_SMA_DISPATCH for `e`, to be followed by `RKH_FWK_GC(e)` (see `Op.take`). -/
inductive Cont where
  | gc1 (e : Nat)
  | gc2 (e : Nat)
  | put (i : Nat) (e : Nat)
  | rc2 (ao : Nat) (e : Nat)
  | rc3 (ao : Nat) (e : Nat)
  | thr (ao : Nat) (e : Nat)
  deriving DecidableEq, Repr

/-- The event a pending function is holding. -/
def Cont.evt : Cont → Nat
  | .gc1 e => e
  | .gc2 e => e
  | .put _ e => e
  | .rc2 _ e => e
  | .rc3 _ e => e
  | .thr _ e => e

/-- The framework's state. `sptbl` is `rkh_sptbl` (rkhsma.c:87), `rdy` the ready group of rkhsma_prio.c, `chans` the
channels of rkhfwk_pubsub.c:101, `slots` the array of rkhfwk_evtpool.c:74, `regs` the entries
`evtPools[0 .. nextFreeEvtPool)` of rkhfwk_dynevt.c:73-80 as slot indices. -/
structure World where
  sptbl : List (Option Nat)
  aos : List Ao
  dqs : List Queue.Queue
  rdy : RdyGrp.Grp
  chans : List RdyGrp.Grp
  slots : List MemPool.Pool
  regs : List Nat
  hdr : Nat → Evt
  ph : Phase
  conts : List Cont

/-- State after `rkh_fwk_init`, `rkh_smaPrio_init` (rkhsma_prio.c), `rkh_pubsub_init` (rkhfwk_pubsub.c:106-118),
`rkh_dynEvt_init` (rkhfwk_dynevt.c:171-182) and `rkh_evtPool_init` (rkhfwk_evtpool.c:79-89), which only sets `nblocks`. -/
def initW (c : Cfg) (slots : List MemPool.Pool) (hdr : Nat → Evt) : World :=
  { sptbl := List.replicate c.maxSma none, aos := [], dqs := [], rdy := RdyGrp.init c.maxSma,
    chans := List.replicate c.maxChan (RdyGrp.init c.maxSma),
    slots := slots.map fun p => { p with nblocks := 0 }, regs := [], hdr := hdr, ph := .none, conts := [] }

/-- Store an event header. -/
def setHdr (w : World) (e : Nat) (v : Evt) : World := { w with hdr := fun x => if x = e then v else w.hdr x }

/-- `RKH_INC_REF` (rkhevt.h:81-90): `nref` is a `rui8_t`. -/
def incRef (w : World) (e : Nat) : World :=
  if (w.hdr e).pool ≠ 0 then setHdr w e { w.hdr e with nref := ((w.hdr e).nref + 1) % 256 } else w

/-- `rkh_sma_setReady`, `rkh_sma_setUnready` (rkhsma_sync.c:76-86) through `rkh_smaPrio_setReady`,
`rkh_smaPrio_setUnready` (rkhsma_prio.c:71-107). -/
def applySync (c : Cfg) (rdy : RdyGrp.Grp) (prio : Nat) : Queue.Sync → Res RdyGrp.Grp
  | .none => .ok rdy
  | .ready => RdyGrp.setReady c.assertEn c.maxSma rdy prio
  | .unready => RdyGrp.setUnready c.assertEn c.maxSma rdy prio

/-- Critical section of `rkh_sma_post_fifo` (rkhsma.c:164-185). -/
def postFifo (c : Cfg) (w : World) (ao e : Nat) : Res World :=
  match (incRef w e).aos[ao]? with
  | none => .ub
  | some a =>
    (Queue.putFifo c.qc a.q e).bind fun r =>
    (applySync c w.rdy a.prio r.2).bind fun g =>
    .ok { incRef w e with aos := w.aos.set ao { a with q := r.1 }, rdy := g }

/-- Critical section of `rkh_sma_post_lifo` (rkhsma.c:187-209). -/
def postLifo (c : Cfg) (w : World) (ao e : Nat) : Res World :=
  match (incRef w e).aos[ao]? with
  | none => .ub
  | some a =>
    (Queue.putLifo c.qc a.q e).bind fun r =>
    (applySync c w.rdy a.prio r.2).bind fun g =>
    .ok { incRef w e with aos := w.aos.set ao { a with q := r.1 }, rdy := g }

/-- `rkh_sma_get` (rkhsma.c:211-227): one critical section inside `rkh_queue_get`. -/
def smaGet (c : Cfg) (w : World) (ao : Nat) : Res (World × Nat) :=
  match w.aos[ao]? with
  | none => .ub
  | some a =>
    (Queue.get c.qc a.q).bind fun r =>
    (applySync c w.rdy a.prio r.2.2).bind fun g =>
    (assertIf c.assertEn (r.2.1 != 0)).bind fun _ =>
    .ok ({ w with aos := w.aos.set ao { a with q := r.1 }, rdy := g }, r.2.1)

/-- `rkh_sma_register` (rkhsma.c:93-106). -/
def register (c : Cfg) (w : World) (ao prio : Nat) : Res World :=
  (assertIf c.assertEn (decide (prio < c.maxSma ∧ w.sptbl[prio]? = some none))).bind fun _ =>
  if prio < w.sptbl.length then .ok { w with sptbl := w.sptbl.set prio (some ao) } else .ub

/-- `rkh_sma_unregister` (rkhsma.c:108-121). The check admits `prio == RKH_CFG_FWK_MAX_SMA`, for which
`rkh_sptbl[prio]` is outside the array. -/
def unregister (c : Cfg) (w : World) (ao prio : Nat) : Res World :=
  if c.assertEn = true ∧ prio ≤ c.maxSma ∧ w.sptbl.length ≤ prio then .ub
  else
    (assertIf c.assertEn (decide (prio ≤ c.maxSma ∧ w.sptbl[prio]? = some (some ao)))).bind fun _ =>
    if prio < w.sptbl.length then .ok { w with sptbl := w.sptbl.set prio none } else .ub

/-- `rkh_sma_activate` (rkhsma.c:147-161) of a new active object with priority `prio` and queue storage `mem`;
`rkh_sm_init` only sets the state. -/
def activate (c : Cfg) (w : World) (prio : Nat) (mem : List Nat) (qsize : Nat) : Res (World × Nat) :=
  (assertIf c.assertEn (qsize != 0)).bind fun _ =>
  (register c { w with aos := w.aos ++ [{ prio := prio, q := Queue.init mem qsize true }] } w.aos.length prio).bind fun w =>
  .ok (w, w.aos.length - 1)

/-- `rkh_sma_terminate` (rkhsma.c:138-145). -/
def terminate (c : Cfg) (w : World) (ao : Nat) : Res World :=
  match w.aos[ao]? with
  | none => .ub
  | some a => unregister c w ao a.prio

/-- `rkh_sma_defer` (rkhsma.c:235-248) on the `i`-th deferred queue, created by `rkh_queue_init(q, sto, size, NULL)`. -/
def defer (c : Cfg) (w : World) (i e : Nat) : Res World :=
  match (incRef w e).dqs[i]? with
  | none => .ub
  | some q =>
    (Queue.putFifo c.qc q e).bind fun r => .ok { incRef w e with dqs := w.dqs.set i r.1 }

/-- `rkh_sma_recall`, first critical section (rkhsma.c:256-257): take an event from the deferred queue. -/
def recall1 (c : Cfg) (w : World) (ao i : Nat) : Res (World × Nat) :=
  match w.dqs[i]? with
  | none => .ub
  | some q =>
    (Queue.get c.qc q).bind fun r =>
    .ok ({ w with dqs := w.dqs.set i r.1,
                  conts := if r.2.1 ≠ 0 then .rc2 ao r.2.1 :: w.conts else w.conts }, r.2.1)

/-- `rkh_sma_recall`, last critical section (rkhsma.c:261-282). -/
def recall3 (c : Cfg) (w : World) (e : Nat) : Res World :=
  if (w.hdr e).nref ≠ 0 then
    (assertIf c.assertEn (decide ((w.hdr e).nref > 1))).bind fun _ =>
    .ok (setHdr w e { w.hdr e with nref := (w.hdr e).nref - 1 })
  else .ok w

/-- `rkh_evtPool_getBlockSize` (rkhfwk_evtpool.c:116-122): truncated to `rui8_t`. -/
def blockSize (p : MemPool.Pool) : Nat := p.bsize % 256

/-- `rkh_evtPool_getNumUsed` (rkhfwk_evtpool.c:138-143). -/
def numUsed (p : MemPool.Pool) : Nat := (p.nblocks + 256 * p.nfree - p.nfree) % 256

/-- Loop of `rkh_fwk_ae` (rkhfwk_dynevt.c:135-141): index of the first registered pool with
`esize <= blockSize`, or `nextFreeEvtPool`. -/
def findPool (slots : List MemPool.Pool) (esize : Nat) : Nat → List Nat → Res Nat
  | i, [] => .ok i
  | i, s :: regs =>
    match slots[s]? with
    | none => .ub
    | some p => if esize > blockSize p then findPool slots esize (i + 1) regs else .ok i

/-- `rkh_fwk_ae` (rkhfwk_dynevt.c:126-154). The search only reads data fixed at registration, `rkh_memPool_get` is one
critical section, and the header writes touch a block nobody else knows. -/
def ae (c : Cfg) (w : World) (esize sig : Nat) : Res (World × Nat) :=
  (findPool w.slots esize 0 w.regs).bind fun i =>
  (assertIf c.assertEn (decide (i < w.regs.length))).bind fun _ =>
  match w.regs[i]? with
  | none => .ub
  | some s =>
    match w.slots[s]? with
    | none => .ub
    | some p =>
      (MemPool.get c.mp p).bind fun r =>
      (assertIf c.assertEn (r.2 != 0)).bind fun _ =>
      if r.2 = 0 then .ub
      else .ok (setHdr { w with slots := w.slots.set s r.1 } r.2 ⟨sig, 0, (i + 1) % 256⟩, r.2)

/-- `rkh_evtPool_getPool` (rkhfwk_evtpool.c:91-114): initialise the first unused slot. -/
def getPool (c : Cfg) (m : MemPool.Mem) (sstart ssize esize : Nat) : Nat → List MemPool.Pool → Res (Option (Nat × MemPool.Pool))
  | _, [] => .ok none
  | i, p :: slots =>
    if p.nblocks = 0 then
      (MemPool.init c.mp m sstart ssize (esize % c.mpc.bsW)).bind fun p' => .ok (some (i, p'))
    else getPool c m sstart ssize esize (i + 1) slots

/-- `rkh_fwk_registerEvtPool` (rkhfwk_dynevt.c:156-169). `m` is the storage with arbitrary contents. -/
def registerPool (c : Cfg) (w : World) (m : MemPool.Mem) (sstart ssize esize : Nat) : Res World :=
  (assertIf c.assertEn (decide (w.regs.length + 1 ≤ c.maxPool))).bind fun _ =>
  (getPool c m sstart (ssize % 65536) esize 0 w.slots).bind fun r =>
  (assertIf c.assertEn r.isSome).bind fun _ =>
  match r with
  | none => .ub
  | some (s, p) =>
    if w.regs.length < c.maxPool then .ok { w with slots := w.slots.set s p, regs := w.regs ++ [s] } else .ub

/-- Critical section of `rkh_fwk_gc` (rkhfwk_dynevt.c:93-109): drop a reference, or decide to recycle. -/
def gcSection (c : Cfg) (w : World) (e : Nat) : Res (World × Option Nat) :=
  if (w.hdr e).nref > 1 then .ok (setHdr w e { w.hdr e with nref := (w.hdr e).nref - 1 }, none)
  else
    let idx := ((w.hdr e).pool + 255) % 256
    (assertIf c.assertEn (decide (idx < w.regs.length))).bind fun _ =>
    if idx < w.regs.length then .ok (w, some idx) else .ub

/-- `rkh_evtPool_put` (rkhfwk_evtpool.c:131-136, rkhfwk_dynevt.c:111). The free-list link overwrites the header. -/
def evtPut (c : Cfg) (w : World) (i e : Nat) : Res World :=
  match w.regs[i]? with
  | none => .ub
  | some s =>
    match w.slots[s]? with
    | none => .ub
    | some p => (MemPool.put c.mp p e).bind fun p' => .ok (setHdr { w with slots := w.slots.set s p' } e (c.junk e))

/-- `rkh_pubsub_subscribe`, `rkh_pubsub_unsubscribe` (rkhfwk_pubsub.c:120-142); `ao` is not NULL. -/
def subscribe (c : Cfg) (w : World) (on : Bool) (ch ao : Nat) : Res World :=
  (assertIf c.assertEn (decide (ch < c.maxChan))).bind fun _ =>
  match w.aos[ao]?, w.chans[ch]? with
  | some a, some g =>
    (if on then RdyGrp.setReady c.assertEn c.maxSma g a.prio else RdyGrp.setUnready c.assertEn c.maxSma g a.prio).bind fun g' =>
    .ok { w with chans := w.chans.set ch g' }
  | _, _ => .ub

/-- Loop of `rkh_pubsub_unsubscribeAll` (rkhfwk_pubsub.c:154-159). -/
def unsubLoop (c : Cfg) (prio : Nat) : List RdyGrp.Grp → Res (List RdyGrp.Grp)
  | [] => .ok []
  | g :: chans =>
    (RdyGrp.setUnready c.assertEn c.maxSma g prio).bind fun g' =>
    (unsubLoop c prio chans).bind fun chans' => .ok (g' :: chans')

/-- `rkh_pubsub_unsubscribeAll` (rkhfwk_pubsub.c:144-161). -/
def unsubscribeAll (c : Cfg) (w : World) (ao : Nat) : Res World :=
  match w.aos[ao]? with
  | none => .ub
  | some a => (unsubLoop c a.prio w.chans).bind fun chans => .ok { w with chans := chans }

/-- The callback `publish` (rkhfwk_pubsub.c:163-175). `sender` is the sender's address: an active object, or some other
object (`none`). With assertions compiled out an unregistered subscriber is posted to through NULL. -/
def publishCb (c : Cfg) (e : Nat) (sender : Option Nat) (w : World) (prio : Nat) : Res World :=
  match w.sptbl[prio]? with
  | none => .ub
  | some r =>
    (assertIf c.assertEn r.isSome).bind fun _ =>
    match r with
    | none => .ub
    | some ao => if some ao ≠ sender then postFifo c w ao e else .ok w

/-- Critical section of `rkh_pubsub_publish` (rkhfwk_pubsub.c:177-194). The channel number is not checked. The pending
`RKH_FWK_GC(event)` is recorded as `gc1`. -/
def publish (c : Cfg) (w : World) (ch e : Nat) (sender : Option Nat) : Res (World × Nat) :=
  match w.chans[ch]? with
  | none => .ub
  | some g => RdyGrp.traverse g (publishCb c e sender) { incRef w e with conts := .gc1 e :: w.conts }

/-- First part of an iteration of `rkh_fwk_enter` (rkhfwk_sched.c:118-123, 131-139), interrupts disabled: choose an active
object, or run the idle hook (`none`). -/
def select (w : World) : Res (World × Option Nat) :=
  if RdyGrp.isReady w.rdy then
    (RdyGrp.findHighest w.rdy).bind fun prio =>
    match w.sptbl[prio]? with
    | some (some ao) => .ok ({ w with ph := .fetch ao }, some ao)
    | _ => .ub
  else .ok (w, none)

/-- Operations: application calls, scheduler steps, and continuation of interrupted functions.

`take ao` is the first statement of the thread of `ao` in the ports that run each active object in a thread of its own
(80x86/win32_mt/vc/rkhport.c:104-110, ucos/v3.03.01/rkhport.c:77-83, arm-cortex/ksdk_os/ucosiii/kds/rkhport.c:95-101):
`e = rkh_sma_get(ao)`, after the wait for an event. From then on the thread is executing `rkh_sm_dispatch(ao, e)`, whose calls
of the framework are operations of their own; the continuation `thr ao e`, resumed when the dispatch is over, is `RKH_FWK_GC(e)`. The threads of
different objects interleave freely. These ports signal an operating system object instead of the ready group; the model keeps the
ready group, which nobody reads then. In the uC/OS ports the queue itself is one of the operating system. -/
inductive Op where
  | activate (prio : Nat) (mem : List Nat) (qsize : Nat)
  | terminate (ao : Nat)
  | newDefer (mem : List Nat) (size : Nat)
  | regPool (m : MemPool.Mem) (sstart ssize esize : Nat)
  | alloc (esize sig : Nat)
  | postFifo (ao e : Nat)
  | postLifo (ao e : Nat)
  | defer (i e : Nat)
  | recall (ao i : Nat)
  | reserve (e : Nat)
  | gc (e : Nat)
  | subscribe (ch ao : Nat)
  | unsubscribe (ch ao : Nat)
  | unsubscribeAll (ao : Nat)
  | publish (ch e : Nat) (sender : Option Nat)
  | select
  | fetch
  | done
  | take (ao : Nat)
  | resume (k : Nat)
  | numUsed (i : Nat)

/-- What an operation returns to its caller, or shows to the outside. -/
inductive Out where
  | unit
  | num (n : Nat)
  | evt (e : Nat)
  | idle
  | chose (ao : Nat)
  | dispatch (ao e : Nat)
  deriving DecidableEq, Repr

/-- The next critical section of a pending function. The world passed in no longer contains the continuation. -/
def resumeCont (c : Cfg) (w : World) : Cont → Res World
  | .gc1 e => .ok (if (w.hdr e).nref ≠ 0 then { w with conts := .gc2 e :: w.conts } else w)
  | .gc2 e =>
    (gcSection c w e).bind fun r =>
    .ok (match r.2 with
      | none => r.1
      | some i => { r.1 with conts := .put i e :: r.1.conts })
  | .put i e => evtPut c w i e
  | .rc2 ao e => (postLifo c w ao e).map' fun w' => { w' with conts := .rc3 ao e :: w'.conts }
  | .rc3 _ e => recall3 c w e
  | .thr _ e => .ok (if (w.hdr e).nref ≠ 0 then { w with conts := .gc2 e :: w.conts } else w)

/-- One operation. Scheduler steps out of turn do not occur in the code; they are `ub` here. -/
def step (c : Cfg) (w : World) : Op → Res (World × Out)
  | .activate p mem n => (activate c w p mem n).map' fun r => (r.1, .num r.2)
  | .terminate ao => (terminate c w ao).map' fun w => (w, .unit)
  | .newDefer mem n => .ok ({ w with dqs := w.dqs ++ [Queue.init mem n false] }, .num w.dqs.length)
  | .regPool m s n es => (registerPool c w m s n es).map' fun w => (w, .unit)
  | .alloc n sig => (ae c w n sig).map' fun r => (r.1, .evt r.2)
  | .postFifo ao e => (postFifo c w ao e).map' fun w => (w, .unit)
  | .postLifo ao e => (postLifo c w ao e).map' fun w => (w, .unit)
  | .defer i e => (defer c w i e).map' fun w => (w, .unit)
  | .recall ao i => (recall1 c w ao i).map' fun r => (r.1, .evt r.2)
  | .reserve e => .ok (incRef w e, .unit)
  | .gc e => .ok ({ w with conts := .gc1 e :: w.conts }, .unit)
  | .subscribe ch ao => (subscribe c w true ch ao).map' fun w => (w, .unit)
  | .unsubscribe ch ao => (subscribe c w false ch ao).map' fun w => (w, .unit)
  | .unsubscribeAll ao => (unsubscribeAll c w ao).map' fun w => (w, .unit)
  | .publish ch e s => (publish c w ch e s).map' fun r => (r.1, .num r.2)
  | .select =>
    match w.ph with
    | .none => (select w).map' fun r => (r.1, match r.2 with | some ao => .chose ao | none => .idle)
    | _ => .ub
  | .fetch =>
    match w.ph with
    | .fetch ao => (smaGet c w ao).map' fun r => ({ r.1 with ph := .run ao r.2 }, .dispatch ao r.2)
    | _ => .ub
  | .done =>
    match w.ph with
    | .run _ e => .ok ({ w with ph := .none, conts := .gc1 e :: w.conts }, .unit)
    | _ => .ub
  | .take ao => (smaGet c w ao).map' fun r => ({ r.1 with conts := .thr ao r.2 :: r.1.conts }, .dispatch ao r.2)
  | .resume k =>
    match w.conts[k]? with
    | none => .ub
    | some t => (resumeCont c { w with conts := w.conts.eraseIdx k } t).map' fun w => (w, .unit)
  | .numUsed i =>
    match w.regs[i]? with
    | none => .ub
    | some s => match w.slots[s]? with
      | none => .ub
      | some p => .ok (w, .num (numUsed p))

end Verif.Fwk
