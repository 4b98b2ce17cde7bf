import Verif.Basic
/-
Model of the parts of the uC/OS ports that replace RKH's own: source/portable/arm-cortex/ksdk_os/ucosiii/kds/rkhport.c (KSDK) and
source/portable/ucos/v3.03.01/rkhport.c. There the event queue of an active object is a message queue of the operating system, and the system tick is
derived from the tick of the operating system. (Threads of these ports: `Thread`, with `Cfg.testFirst`; critical sections: `Port/Model`.)

The operating system itself is not part of /repo and is assumed to work as documented: OSQPost refuses a message if the queue is full or has been deleted,
and may refuse one because the pool of messages that all queues of the application share is empty; else it puts it at the end or in front; OSQPend takes the message in front, and blocks if there is none; OSMemGet and OSMemPut take and give back blocks of a
partition; OSA_MsgQCreate makes a queue for `n` messages and a partition of `n` blocks of `size` words in the storage given; OSA_MsgQPut is
OSA_MsgQPutLifo with OS_OPT_POST_FIFO; OSA_MsgQGet takes a message, copies it to the caller and gives its block back.
-/
namespace Verif.Port.Ucos
open Verif

/-! ### The tick (KSDK) -/

/-- The `#if` in front of the port (kds/rkhport.c:65-68): is the configuration accepted? `sym` is what the preprocessor takes OSCfg_TickRate_Hz for (0, since it
is a variable of uC/OS-III and no macro), `osCfg` is OS_CFG_TICK_RATE_HZ. -/
def accepted (sym osCfg : Nat) : Bool := !decide (sym > osCfg)

/-- `RKH_TICKS_RATE` (kds/rkhport.c:70), stored in `tick_cnt`, a `rui16_t` (kds/rkhport.c:75, 115, 192). -/
def reload (os rkh : Nat) : Nat := os / rkh % 65536

/-- `rkh_isr_tick` (kds/rkhport.c:109-118), called at each tick of the operating system: the new `tick_cnt`, and whether `rkh_tmr_tick` is called. -/
def isrTick (os rkh cnt : Nat) : Nat × Bool :=
  if cnt ≠ 0 then
    let cnt := cnt - 1
    if cnt = 0 then (reload os rkh, true) else (cnt, false)
  else (cnt, false)

/-- `n` ticks of the operating system: the final `tick_cnt`, and the number of framework ticks. -/
def osTicks (os rkh : Nat) : Nat → Nat → Nat × Nat
  | 0, cnt => (cnt, 0)
  | n + 1, cnt =>
    let r := isrTick os rkh cnt
    let q := osTicks os rkh n r.1
    (q.1, q.2 + if r.2 then 1 else 0)

/-- The framework ticks in `n` ticks of the operating system, from `rkh_fwk_init` on (kds/rkhport.c:187-200). -/
def ticks (os rkh n : Nat) : Nat := (osTicks os rkh n (reload os rkh)).2

/-! ### The event queue (KSDK) -/

/-- `msg_queue_t`: the queue of messages (addresses of blocks), the partition, the words in memory. `live`: not deleted. -/
structure MsgQ where
  cap : Nat
  size : Nat
  live : Bool
  q : List Nat
  free : List Nat
  mem : Nat → Nat

/-- The loop that copies a message (kds/rkhport.c:147-153); `from_`, `to_` are word addresses. -/
def copyLoop : Nat → (Nat → Nat) → Nat → (Nat → Nat) → Nat → (Nat → Nat)
  | 0, _, _, dst, _ => dst
  | n + 1, src, from_, dst, to_ => copyLoop n src (from_ + 1) (fun x => if x = to_ then src from_ else dst x) (to_ + 1)

/-- `OSA_MsgQPutLifo` (kds/rkhport.c:131-168), and `OSA_MsgQPut` with `lifo = false`: copies the message at `pm` in the caller's memory `src`; false is
kStatus_OSA_Error. `osOk`: the operating system has a message left in its pool. -/
def msgQPut (lifo osOk : Bool) (s : MsgQ) (src : Nat → Nat) (pm : Nat) : MsgQ × Bool :=
  match s.free with
  | [] => (s, false)
  | b :: free =>
    let mem := copyLoop s.size src pm s.mem b
    if osOk ∧ s.live ∧ s.q.length < s.cap then
      ({ s with free := free, mem := mem, q := if lifo then b :: s.q else s.q ++ [b] }, true)
    else ({ s with free := b :: free, mem := mem }, false)     -- OSMemPut

/-- `OSA_MsgQGet`, when it returns: the message; `none` while the caller blocks. -/
def msgQGet (s : MsgQ) : MsgQ × Option (List Nat) :=
  match s.q with
  | [] => (s, none)
  | b :: q => ({ s with q := q, free := b :: s.free }, some ((List.range s.size).map fun i => s.mem (b + i)))

/-- `OSA_MsgQCreate` as called by `rkh_sma_activate` (kds/rkhport.c:247-251), on storage at `base` with any contents. -/
def create (n size base : Nat) (mem : Nat → Nat) : MsgQ := ⟨n, size, true, [], (List.range n).map fun i => base + i * size, mem⟩

/-- Operations on one queue; the message is `size` words of the caller's memory `src` from `pm` on. -/
inductive Op where
  | put (lifo osOk : Bool) (src : Nat → Nat) (pm : Nat)
  | get

/-- Results. -/
inductive Out where
  | put (ok : Bool)
  | get (m : Option (List Nat))
  deriving DecidableEq, Repr

/-- One operation. -/
def step (s : MsgQ) : Op → MsgQ × Out
  | .put lifo osOk src pm => let r := msgQPut lifo osOk s src pm; (r.1, .put r.2)
  | .get => let r := msgQGet s; (r.1, .get r.2)

/-- A history. -/
def run : MsgQ → List Op → MsgQ × List Out
  | s, [] => (s, [])
  | s, op :: ops =>
    let r := step s op
    let q := run r.1 ops
    (q.1, r.2 :: q.2)

/-! ### Posting -/

/-- What posting works on: the queue of the object, and pool and reference counter of each event. -/
structure Sys where
  q : MsgQ
  pool : Nat → Nat
  nref : Nat → Nat

/-- `rkh_sma_post_fifo` and `rkh_sma_post_lifo` (kds/rkhport.c:271-320; the same with OSQPost in ucos/v3.03.01/rkhport.c:213-274): RKH_INC_REF, the message
queue, RKH_ALLEGE. The message is the address of the event, one word; the reference counter has 8 bits. -/
def post (en lifo osOk : Bool) (s : Sys) (e : Nat) : Res Sys :=
  let s := if s.pool e ≠ 0 then { s with nref := fun x => if x = e then (s.nref e + 1) % 256 else s.nref x } else s
  let r := msgQPut lifo osOk s.q (fun _ => e) 0
  if en ∧ r.2 = false then .assert else .ok { s with q := r.1 }

/-- The fields of the record of a post (kds/rkhport.c:290-291, 316-317, ucos/v3.03.01/rkhport.c:236-239) that describe event and queue. `addr` is the address of
`equeue` and `o1`, `o2`, `o3` are the offsets of NbrEntries, NbrEntriesSize and NbrEntriesMax; the arguments are `&…NbrEntries` and
`&…NbrEntriesSize - &…NbrEntriesMax` (for KSDK 0), cut to `w` bits (RKH_TRC_NE, rkhtrc_define.h:1086-1123). -/
structure Rec where
  pool : Nat
  nref : Nat
  nElem : Nat
  nMin : Int
  deriving DecidableEq, Repr

/-- See `Rec`. Offsets in elements of OS_MSG_QTY. -/
def record (w addr o1 o2 o3 : Nat) (s : Sys) (e : Nat) : Rec :=
  ⟨s.pool e, s.nref e, (addr + o1) % 2 ^ w, (o2 : Int) - o3⟩

/-! ### Priorities (ucos/v3.03.01) -/

/-- The mapping of priorities in `rkh_sma_activate` (ucos/v3.03.01/rkhport.c:183-193). `noErr`: `err == OS_ERR_NONE`, which was asserted just before
(rkhport.c:179) and not changed since. -/
def taskPrio (en : Bool) (prioMax prio : Nat) (noErr : Bool) : Res Nat :=
  (if prio + 2 ≥ prioMax - 2 then assertIf en noErr else .ok ()).bind fun _ => .ok (prio + 2)

end Verif.Port.Ucos
