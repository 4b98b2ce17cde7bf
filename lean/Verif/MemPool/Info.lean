import Verif.MemPool.Model
/-
Model of the optional performance counters of the memory pools (RKH_CFG_MP_GET_INFO_EN enabled): the member `mpi` of `RKH_MEMPOOL_T`
(rkhmempool.h:109-140, 266-268) and the functions reading and clearing it (rkhmempool.c:255-282). The counters are kept beside the
pool of Model.lean: `rkh_memPool_init`, `rkh_memPool_get` and `rkh_memPool_put` do not mention the member.
Simplification: the pointers are valid.
-/
namespace Verif.MemPool
open Verif

/-- `RKH_MPI_T` (rkhmempool.h:109-140): five `rui8_t` counters. -/
structure MInfo where
  inits : Nat
  gets : Nat
  puts : Nat
  free : Nat
  full : Nat
  deriving DecidableEq, Repr

/-- A pool with its counters. -/
structure PoolI where
  p : Pool
  mpi : MInfo

/-- Calls on one pool; `write` is the application writing a byte of a block it holds. -/
inductive OpI where
  | init (m : Mem) (sstart ssize bsize : Nat)
  | get
  | put (b : Nat)
  | write (a : Nat) (v : BitVec 8)
  | getInfo
  | clearInfo

/-- What a call returns. -/
inductive OutI where
  | unit
  | blk (b : Nat)
  | info (i : MInfo)
  deriving DecidableEq, Repr

/-- `rkh_memPool_get_info` (rkhmempool.c:257-268). -/
def getInfo (x : PoolI) : MInfo := x.mpi

/-- `rkh_memPool_clear_info` (rkhmempool.c:270-282). -/
def clearInfo (x : PoolI) : PoolI := { x with mpi := ⟨0, 0, 0, 0, 0⟩ }

/-- One call. The functions of rkhmempool.c:79-199 leave the counters alone. -/
def stepI (c : Cfg) (x : PoolI) : OpI → Res (PoolI × OutI)
  | .init m s n b => (init c m s n b).map' fun p => ({ x with p := p }, .unit)
  | .get => (get c x.p).map' fun r => ({ x with p := r.1 }, .blk r.2)
  | .put b => (put c x.p b).map' fun p => ({ x with p := p }, .unit)
  | .write a v => .ok ({ x with p := poke x.p a v }, .unit)
  | .getInfo => .ok (x, .info (getInfo x))
  | .clearInfo => .ok (clearInfo x, .unit)

/-- A history of calls. -/
def runI (c : Cfg) : PoolI → List OpI → Res (PoolI × List OutI)
  | x, [] => .ok (x, [])
  | x, o :: l => (stepI c x o).bind fun r => (runI c r.1 l).bind fun q => .ok (q.1, r.2 :: q.2)

end Verif.MemPool
