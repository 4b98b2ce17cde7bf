import Verif.Queue.Lemmas
/-
The trace records of source/queue/src/rkhqueue.c, and a host that reads them.

Simplification: every record is the last thing its call does before it leaves (rkhqueue.c:118, 206, 211, 229, 254, 270, 299, 317),
so it is attached to the result of the untraced call. `q` stands for the queue's address.
-/
namespace Verif.Queue
open Verif

/-- The records: `RKH_TR_QUE_INIT`, `_GET`, `_GET_LAST`, `_FIFO`, `_LIFO`, `_FULL`, `_DPT`
(source/trc/inc/rkhtrc_record.h:165-272). -/
inductive QRec where
  | init (q nelem : Nat) (sma : Bool)
  | get (q nelem : Nat)
  | getLast (q : Nat)
  | fifo (q nelem nmin : Nat)
  | lifo (q nelem nmin : Nat)
  | full (q : Nat)
  | dpt (q : Nat)
  deriving DecidableEq, Repr

/-- `rkh_queue_get` with its trace points (rkhqueue.c:172-214): the early return of an empty queue that belongs to no active object shows
nothing (line 188); otherwise the last element of an active object's queue shows GET_LAST (206), anything else GET with the
number of elements left (211). -/
def tGet (c : Cfg) (id : Nat) (q : Queue) : Res (Queue × Ptr × List QRec) :=
  (get c q).map' fun r =>
    (r.1, r.2.1,
      if !q.sma && q.qty == 0 then []
      else if q.sma && r.1.qty == 0 then [.getLast id]
      else [.get id r.1.qty])

/-- `rkh_queue_put_fifo` with its trace points (rkhqueue.c:216-255): FULL at line 229, FIFO at 254. -/
def tPutFifo (c : Cfg) (id : Nat) (q : Queue) (pe : Ptr) : Res (Queue × List QRec) :=
  (putFifo c q pe).map' fun r => (r.1, if q.qty ≥ q.nelems then [.full id] else [.fifo id r.1.qty r.1.nmin])

/-- `rkh_queue_put_lifo` with its trace points (rkhqueue.c:257-300): FULL at line 270, LIFO at 299. -/
def tPutLifo (c : Cfg) (id : Nat) (q : Queue) (pe : Ptr) : Res (Queue × List QRec) :=
  (putLifo c q pe).map' fun r => (r.1, if q.qty ≥ q.nelems then [.full id] else [.lifo id r.1.qty r.1.nmin])

/-- `rkh_queue_deplete` with its trace point (rkhqueue.c:302-319). -/
def tDeplete (id : Nat) (q : Queue) : Queue × List QRec := ((deplete q).1, [.dpt id])

/-- One call on queue `id`. The other calls have no trace points. -/
def tcall (c : Cfg) (id : Nat) (q : Queue) : Op → Res (Queue × Out × List QRec)
  | .putFifo e => (tPutFifo c id q e).map' fun r => (r.1, .unit, r.2)
  | .putLifo e => (tPutLifo c id q e).map' fun r => (r.1, .unit, r.2)
  | .get => (tGet c id q).map' fun r => (r.1, .ptr r.2.1, r.2.2)
  | .deplete => .ok ((tDeplete id q).1, .unit, (tDeplete id q).2)
  | op => (step c q op).map' fun r => (r.1, r.2, [])

/-- Several queues, each created by `rkh_queue_init` at any time (also again). -/
inductive MOp where
  | init (q : Nat) (mem : List Ptr) (size : Nat) (sma : Bool)
  | call (q : Nat) (op : Op)
  deriving DecidableEq, Repr

/-- The queues that exist. -/
abbrev World := Nat → Option Queue

/-- Replacing one queue. -/
def World.set (w : World) (q : Nat) (x : Queue) : World := fun i => if i = q then some x else w i

/-- One call; calling an uninitialised queue is undefined. The trace point of `rkh_queue_init` is at rkhqueue.c:118. -/
def mstep (c : Cfg) (w : World) : MOp → Res (World × (Out × List QRec))
  | .init q mem size sma => .ok (w.set q (init mem size sma), .unit, [.init q size sma])
  | .call q op =>
    match w q with
    | none => .ub
    | some x => (tcall c q x op).map' fun r => (w.set q r.1, r.2)

/-- What a host knows about each queue: capacity, whether it belongs to an active object, number of elements, smallest number of free places so far. -/
structure Known where
  cap : Nat
  sma : Bool
  num : Nat
  lwm : Nat
  deriving DecidableEq, Repr

abbrev Host := Nat → Option Known

def Host.set (h : Host) (q : Nat) (k : Known) : Host := fun i => if i = q then some k else h i

/-- Reading a record that stores an element. -/
def Host.readPut (h : Host) (q n m : Nat) : Option Host :=
  match h q with
  | some k => if n = k.num + 1 ∧ n ≤ k.cap ∧ m = min k.lwm (k.cap - n) then some (h.set q { k with num := n, lwm := m }) else none
  | none => none

/-- Reading a record. `none`: the record contradicts what is known. -/
def Host.read (h : Host) : QRec → Option Host
  | .init q n sma => some (h.set q ⟨n, sma, 0, n⟩)
  | .get q n => match h q with
    | some k => if k.num = n + 1 ∧ (k.sma = true → n ≠ 0) then some (h.set q { k with num := n }) else none
    | none => none
  | .getLast q => match h q with
    | some k => if k.sma = true ∧ k.num = 1 then some (h.set q { k with num := 0 }) else none
    | none => none
  | .fifo q n m => h.readPut q n m
  | .lifo q n m => h.readPut q n m
  | .full q => match h q with
    | some k => if k.num = k.cap then some h else none
    | none => none
  | .dpt q => match h q with
    | some k => some (h.set q { k with num := 0 })
    | none => none

/-- Reading several records. -/
def Host.readAll (h : Host) : List QRec → Option Host
  | [] => some h
  | r :: l => (h.read r).bind fun h => h.readAll l

/-- All records of a run. -/
def records (os : List (Out × List QRec)) : List QRec := os.flatMap Prod.snd

end Verif.Queue
