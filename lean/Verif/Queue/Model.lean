import Verif.Basic
/-
Model of source/queue/src/rkhqueue.c (event queues).

Configuration modelled: all optional queue features enabled (IS_FULL, GET_NELEMS, GET_LWMARK, PUT_LIFO, DEPLETE,
READ, GET_INFO); assertions either compiled in or out (`assertEn`); any width of `RKH_QUENE_T` (`W` = 2^8, 2^16 or 2^32).
Simplifications: pointers into the storage are offsets from `pstart`; queue pointers `q` are valid
(the `q != NULL` assertions are not modelled); trace calls are omitted.
-/
namespace Verif.Queue

/-- `void *`: 0 is NULL. -/
abbrev Ptr := Nat

/-- Compile-time configuration: `RKH_CFG_FWK_ASSERT_EN`, and the modulus of `RKH_QUENE_T`
(source/queue/inc/rkhqueue.h, RKH_CFG_QUE_SIZEOF_NELEM). -/
structure Cfg where
  assertEn : Bool
  W : Nat

/-- `RKH_QUEI_T` (source/queue/inc/rkhqueue.h): 16-bit performance counters. -/
structure Info where
  nputs : BitVec 16
  ngets : BitVec 16
  nreads : BitVec 16
  nempty : BitVec 16
  nfull : BitVec 16
  deriving DecidableEq, Repr

/-- All counters zero (rkhqueue.c:113-115, 363-364). -/
def Info.zero : Info := ⟨0, 0, 0, 0, 0⟩

/-- `RKH_QUEUE_T` (source/queue/inc/rkhqueue.h) together with the storage array it points to.
`mem` is the array `sstart`; `pin`, `pout`, `pend` are offsets from `pstart` (= 0); `sma` says
whether the queue belongs to an active object (`q->sma != NULL`). -/
structure Queue where
  mem : List Ptr
  pin : Nat
  pout : Nat
  pend : Nat
  nelems : Nat
  qty : Nat
  nmin : Nat
  sma : Bool
  info : Info
  deriving DecidableEq, Repr

/-- What the call did to the owning active object's ready state: `rkh_sma_setReady`,
`rkh_sma_setUnready` (source/sma/src/rkhsma_sync.c:76-86) or nothing. -/
inductive Sync where
  | none
  | ready
  | unready
  deriving DecidableEq, Repr

/-- `rkh_queue_init` (rkhqueue.c:99-119). `mem` is the supplied array with arbitrary contents. -/
def init (mem : List Ptr) (ssize : Nat) (sma : Bool) : Queue :=
  { mem := mem, pin := 0, pout := 0, pend := ssize, nelems := ssize, qty := 0, nmin := ssize,
    sma := sma, info := Info.zero }

/-- `rkh_queue_is_full` (rkhqueue.c:121-136). -/
def isFull (q : Queue) : Bool := q.qty == q.nelems

/-- `rkh_queue_get_num` (rkhqueue.c:138-153). -/
def getNum (q : Queue) : Nat := q.qty

/-- `rkh_queue_get_lwm` (rkhqueue.c:155-170). -/
def getLwm (q : Queue) : Nat := q.nmin

/-- `*p` for a pointer `p = pstart + i` into the storage. -/
def rd (mem : List Ptr) (i : Nat) : Res Ptr :=
  match mem[i]? with
  | some v => .ok v
  | none => .ub

/-- `*p = v` for a pointer `p = pstart + i` into the storage. -/
def wr (mem : List Ptr) (i : Nat) (v : Ptr) : Res (List Ptr) :=
  if i < mem.length then .ok (mem.set i v) else .ub

/-- `rkh_queue_get` (rkhqueue.c:172-214). For an active object's queue `rkh_sma_block`
(rkhsma_sync.c:70-74) asserts that the queue is not empty; otherwise an empty queue counts `nempty` and returns NULL. -/
def get (c : Cfg) (q : Queue) : Res (Queue × Ptr × Sync) := do
  assertIf (c.assertEn && q.sma) (q.qty != 0)
  if !q.sma && q.qty == 0 then
    pure ({ q with info := { q.info with nempty := q.info.nempty + 1 } }, 0, Sync.none)
  else
    let e ← rd q.mem q.pout
    let pout := q.pout + 1
    let qty := (q.qty + (c.W - 1)) % c.W
    let pout := if pout == q.pend then 0 else pout
    let info := { q.info with ngets := q.info.ngets + 1 }
    let s := if q.sma && qty == 0 then Sync.unready else Sync.none
    pure ({ q with pout := pout, qty := qty, info := info }, e, s)

/-- `q->nmin` update (rkhqueue.c:247-250, 291-294): the cast `(RKH_QUENE_T)(q->nelems - q->qty)`. -/
def newMin (c : Cfg) (nelems qty nmin : Nat) : Nat :=
  let f := (nelems + c.W - qty) % c.W
  if nmin > f then f else nmin

/-- `rkh_queue_put_fifo` (rkhqueue.c:216-255). -/
def putFifo (c : Cfg) (q : Queue) (pe : Ptr) : Res (Queue × Sync) := do
  assertIf c.assertEn (pe != 0)
  assertIf c.assertEn (decide (q.qty < q.nelems))
  if q.qty ≥ q.nelems then
    pure ({ q with info := { q.info with nfull := q.info.nfull + 1 } }, Sync.none)
  else
    let mem ← wr q.mem q.pin pe
    let pin := q.pin + 1
    let qty := (q.qty + 1) % c.W
    let pin := if pin == q.pend then 0 else pin
    let s := if q.sma then Sync.ready else Sync.none
    let nmin := newMin c q.nelems qty q.nmin
    pure ({ q with mem := mem, pin := pin, qty := qty, nmin := nmin,
                   info := { q.info with nputs := q.info.nputs + 1 } }, s)

/-- `rkh_queue_put_lifo` (rkhqueue.c:257-300). A `--q->pout` below the start of the array is `ub`. -/
def putLifo (c : Cfg) (q : Queue) (pe : Ptr) : Res (Queue × Sync) := do
  assertIf c.assertEn (pe != 0)
  assertIf c.assertEn (decide (q.qty < q.nelems))
  if q.qty ≥ q.nelems then
    pure ({ q with info := { q.info with nfull := q.info.nfull + 1 } }, Sync.none)
  else
    let pout := if q.pout == 0 then q.pend else q.pout
    if pout == 0 then .ub else
    let pout := pout - 1
    let mem ← wr q.mem pout pe
    let qty := (q.qty + 1) % c.W
    let s := if q.sma then Sync.ready else Sync.none
    let nmin := newMin c q.nelems qty q.nmin
    pure ({ q with mem := mem, pout := pout, qty := qty, nmin := nmin,
                   info := { q.info with nputs := q.info.nputs + 1 } }, s)

/-- `rkh_queue_deplete` (rkhqueue.c:302-319). -/
def deplete (q : Queue) : Queue × Sync :=
  ({ q with qty := 0, pin := 0, pout := 0 }, if q.sma then Sync.unready else Sync.none)

/-- `rkh_queue_read` (rkhqueue.c:321-343). `pe` is the caller's buffer address and `cm` the caller's
memory; the code assigns `*q->pout` to the *parameter* `pe`, a local variable, so `cm` is returned as it was.
The result is the return code: `true` = RKH_QUE_OK, `false` = RKH_QUE_EMPTY. -/
def read (c : Cfg) (q : Queue) (pe : Ptr) (cm : Ptr → Ptr) : Res (Queue × Bool × (Ptr → Ptr)) := do
  assertIf c.assertEn (pe != 0)
  if q.qty == 0 then
    pure ({ q with info := { q.info with nempty := q.info.nempty + 1 } }, false, cm)
  else
    let _pe ← rd q.mem q.pout
    pure ({ q with info := { q.info with nreads := q.info.nreads + 1 } }, true, cm)

/-- `rkh_queue_clear_info` (rkhqueue.c:355-368). -/
def clearInfo (q : Queue) : Queue := { q with info := Info.zero }

/-- Calls a client can make on a queue. For `read` the caller's buffer is some non-NULL address. -/
inductive Op where
  | putFifo (e : Ptr)
  | putLifo (e : Ptr)
  | get
  | deplete
  | read
  | isFull
  | getNum
  | getLwm
  | getInfo
  | clearInfo
  deriving DecidableEq, Repr

/-- What a call returns. -/
inductive Out where
  | unit
  | ptr (p : Ptr)
  | bool (b : Bool)
  | num (n : Nat)
  | info (i : Info)
  deriving DecidableEq, Repr

/-- One API call on the queue. -/
def step (c : Cfg) (q : Queue) : Op → Res (Queue × Out)
  | .putFifo e => (putFifo c q e).map' fun r => (r.1, .unit)
  | .putLifo e => (putLifo c q e).map' fun r => (r.1, .unit)
  | .get => (get c q).map' fun r => (r.1, .ptr r.2.1)
  | .deplete => .ok ((deplete q).1, .unit)
  | .read => (read c q 1 (fun _ => 0)).map' fun r => (r.1, .bool r.2.1)
  | .isFull => .ok (q, .bool (isFull q))
  | .getNum => .ok (q, .num (getNum q))
  | .getLwm => .ok (q, .num (getLwm q))
  | .getInfo => .ok (q, .info q.info)
  | .clearInfo => .ok (clearInfo q, .unit)

end Verif.Queue
