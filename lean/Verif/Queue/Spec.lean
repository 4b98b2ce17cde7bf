import Verif.Queue.Model
/-
Independent specification of an RKH event queue: a bounded sequence with unbounded event counts.
No ring buffer, no pointers, no machine words.
-/
namespace Verif.Queue.Spec
open Verif Verif.Queue

/-- Abstract queue: the stored elements (front first), the smallest number of free places seen so
far, and how often each kind of call happened since the counters were cleared. -/
structure Abs where
  items : List Ptr
  minFree : Nat
  puts : Nat
  gets : Nat
  reads : Nat
  empties : Nat
  fulls : Nat
  deriving DecidableEq, Repr

/-- A freshly initialised queue. -/
def empty (cap : Nat) : Abs := ⟨[], cap, 0, 0, 0, 0, 0⟩

/-- The counters as a client sees them: 16-bit words. -/
def counters (a : Abs) : Info :=
  ⟨BitVec.ofNat 16 a.puts, BitVec.ofNat 16 a.gets, BitVec.ofNat 16 a.reads,
   BitVec.ofNat 16 a.empties, BitVec.ofNat 16 a.fulls⟩

/-- Storing a new sequence of elements: update the smallest number of free places. -/
def store (cap : Nat) (a : Abs) (items : List Ptr) : Abs :=
  { a with items := items, minFree := min a.minFree (cap - items.length), puts := a.puts + 1 }

/-- A put, FIFO (`f = (· ++ [e])`) or LIFO (`f = (e :: ·)`): NULL elements and full queues are rejected by an
assertion; without assertions a full queue drops the element and counts it. -/
def put (assertEn : Bool) (cap : Nat) (a : Abs) (e : Ptr) (new : List Ptr) : Res (Abs × Out) :=
  if assertEn && (e == 0 || a.items.length == cap) then .assert
  else if a.items.length == cap then .ok ({ a with fulls := a.fulls + 1 }, .unit)
  else .ok (store cap a new, .unit)

/-- Specification of each call. `sma`: the queue belongs to an active object, in which case
getting from an empty queue is a programming error (assertion) instead of returning NULL. -/
def step (assertEn sma : Bool) (cap : Nat) (a : Abs) : Op → Res (Abs × Out)
  | .putFifo e => put assertEn cap a e (a.items ++ [e])
  | .putLifo e => put assertEn cap a e (e :: a.items)
  | .get =>
    match a.items with
    | [] => if sma then .assert else .ok ({ a with empties := a.empties + 1 }, .ptr 0)
    | e :: rest => .ok ({ a with items := rest, gets := a.gets + 1 }, .ptr e)
  | .deplete => .ok ({ a with items := [] }, .unit)
  | .read =>
    match a.items with
    | [] => .ok ({ a with empties := a.empties + 1 }, .bool false)
    | _ :: _ => .ok ({ a with reads := a.reads + 1 }, .bool true)
  | .isFull => .ok (a, .bool (a.items.length == cap))
  | .getNum => .ok (a, .num a.items.length)
  | .getLwm => .ok (a, .num a.minFree)
  | .getInfo => .ok (a, .info (counters a))
  | .clearInfo => .ok ({ a with puts := 0, gets := 0, reads := 0, empties := 0, fulls := 0 }, .unit)

end Verif.Queue.Spec
