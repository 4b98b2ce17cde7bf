import Verif.MemPool.Model
/-
The trace records of source/mempool/src/rkhmempool.c, and a host that reads them.

Each record is the last thing its call does (rkhmempool.c:138, 168, 199); `id` stands for the pool's address.
-/
namespace Verif.MemPool
open Verif

/-- The records `RKH_TR_MP_INIT`, `_GET`, `_PUT` (source/trc/inc/rkhtrc_record.h:130-163). -/
inductive MRec where
  | init (id nblocks bsize : Nat)
  | get (id nfree nmin : Nat)
  | put (id nfree : Nat)
  deriving DecidableEq, Repr

/-- `rkh_memPool_init` with its trace point (rkhmempool.c:79-139). -/
def tInit (c : Cfg) (id : Nat) (m : Mem) (sstart ssize bsize : Nat) : Res (Pool × List MRec) :=
  (init c m sstart ssize bsize).map' fun p => (p, [.init id p.nblocks p.bsize])

/-- `rkh_memPool_get` with its trace point (rkhmempool.c:141-174), which is passed whether or not a block was available. -/
def tGet (c : Cfg) (id : Nat) (p : Pool) : Res ((Pool × Nat) × List MRec) :=
  (get c p).map' fun r => (r, [.get id r.1.nfree r.1.nmin])

/-- `rkh_memPool_put` with its trace point (rkhmempool.c:176-201). -/
def tPut (c : Cfg) (id : Nat) (p : Pool) (blk : Nat) : Res (Pool × List MRec) :=
  (put c p blk).map' fun p => (p, [.put id p.nfree])

/-- What a host knows about a pool: number and size of its blocks, free blocks, smallest number of free blocks so far, and
how many requests failed. -/
structure Known where
  nblocks : Nat
  bsize : Nat
  free : Nat
  lwm : Nat
  failed : Nat
  deriving DecidableEq, Repr

abbrev Host := Nat → Option Known

def Host.set (h : Host) (q : Nat) (k : Known) : Host := fun i => if i = q then some k else h i

/-- Reading a record. `none`: the record contradicts what is known. A get that leaves the number of free blocks at 0 where it was
0 already is a request that failed. -/
def Host.read (h : Host) : MRec → Option Host
  | .init q n b => some (h.set q ⟨n, b, n, n, 0⟩)
  | .get q n m => match h q with
    | some k =>
      if k.free = 0 then (if n = 0 ∧ m = k.lwm then some (h.set q { k with failed := k.failed + 1 }) else none)
      else if n + 1 = k.free ∧ m = min k.lwm n then some (h.set q { k with free := n, lwm := m })
      else none
    | none => none
  | .put q n => match h q with
    | some k => if n = k.free + 1 ∧ n ≤ k.nblocks then some (h.set q { k with free := n }) else none
    | none => none

/-- Reading several records. -/
def Host.readAll (h : Host) : List MRec → Option Host
  | [] => some h
  | r :: l => (h.read r).bind fun h => h.readAll l

end Verif.MemPool
