import Verif.Basic
/-
Model of source/mempool/src/rkhmempool.c (fixed-size block memory pools).

The pool's storage is byte memory with real addresses; the free list is threaded through the free blocks by
little-endian pointers of `psz` bytes, exactly as `RKH_FREE_BLK_T` does. Access outside the supplied
storage is `ub`.
Configuration modelled: RKH_CFG_MP_REDUCED_EN disabled, low watermark, GET_NFREE, GET_BSIZE enabled; assertions either way.
Simplifications: `mp` is a valid pointer; trace calls omitted; byte order fixed to little endian (irrelevant
to every theorem: only "load after store" is used); RKH_MPI_T counters are never updated by the code and are omitted.
-/
namespace Verif.MemPool
open Verif

/-- Target and configuration: pointer size in bytes, modulus of `RKH_MPNB_T` (number of blocks), modulus of
`RKH_MPBS_T` (block size), assertions compiled in. -/
structure Cfg where
  psz : Nat
  nbW : Nat
  bsW : Nat
  assertEn : Bool

/-- Byte memory. -/
abbrev Mem := Nat → BitVec 8

/-- Store one byte. -/
def upd (m : Mem) (a : Nat) (v : BitVec 8) : Mem := fun x => if x = a then v else m x

/-- Value of the `k`-byte pointer stored at `a`. -/
def ldp (m : Mem) (a : Nat) : Nat → Nat
  | 0 => 0
  | k + 1 => (m a).toNat + 256 * ldp m (a + 1) k

/-- Store the `k`-byte pointer `v` at `a`. -/
def stp (m : Mem) (a v : Nat) : Nat → Mem
  | 0 => m
  | k + 1 => stp (upd m a (BitVec.ofNat 8 v)) (a + 1) (v / 256) k

/-- `RKH_MEMPOOL_T` (source/mempool/inc/rkhmempool.h) together with the memory it manages. `lo`, `size` describe the
storage handed to `rkh_memPool_init`: the only memory the pool may touch. -/
structure Pool where
  free : Nat
  bsize : Nat
  nblocks : Nat
  nfree : Nat
  nmin : Nat
  start : Nat
  endp : Nat
  mem : Mem
  lo : Nat
  size : Nat

/-- The `k`-byte object at `a` lies inside the storage. -/
def inStore (lo size a k : Nat) : Bool := decide (lo ≤ a ∧ a + k ≤ lo + size)

/-- Rounding loop of `rkh_memPool_init` (rkhmempool.c:103-110): returns the rounded size and the number of
pointers per block. `fuel` bounds the loop; running out means it does not terminate (`ub`). -/
def roundLoop (c : Cfg) (bsize : Nat) : Nat → Nat → Nat → Res (Nat × Nat)
  | 0, _, _ => .ub
  | fuel + 1, bs, nb =>
    if bs < bsize then roundLoop c bsize fuel ((bs + c.psz) % c.bsW) ((nb + 1) % c.nbW)
    else .ok (bs, nb)

/-- Chaining loop of `rkh_memPool_init` (rkhmempool.c:122-128): `fb->next = &fb[nblocks]; fb = fb->next; ...`. -/
def chainLoop (c : Cfg) (lo size bs nb : Nat) : Nat → Mem → Nat → Nat → Nat → Res (Mem × Nat × Nat)
  | 0, _, _, _, _ => .ub
  | fuel + 1, m, fb, ssize, n =>
    if ssize ≥ bs % 65536 then
      if inStore lo size fb c.psz then
        let m' := stp m fb (fb + nb * c.psz) c.psz
        chainLoop c lo size bs nb fuel m' (ldp m' fb c.psz) (ssize - bs % 65536) ((n + 1) % c.nbW)
      else .ub
    else .ok (m, fb, n)

/-- `rkh_memPool_init` (rkhmempool.c:79-139). `m` is memory with arbitrary contents. `ssize` is a `rui16_t`
(the subtraction wraps), so 65537 bounds the number of iterations of the second loop. -/
def init (c : Cfg) (m : Mem) (sstart ssize bsize : Nat) : Res Pool := do
  assertIf c.assertEn (decide (sstart ≠ 0 ∧ ssize ≥ c.psz ∧ (bsize + c.psz) % c.bsW > bsize))
  let (bs, nb) ← roundLoop c bsize (bsize + 1) (c.psz % c.bsW) (1 % c.nbW)
  assertIf c.assertEn (decide (ssize ≥ bs % 65536))
  let (m, fb, n) ← chainLoop c sstart ssize bs nb 65537 m sstart ((ssize + 65536 - bs % 65536) % 65536) (1 % c.nbW)
  if inStore sstart ssize fb c.psz then
    pure { free := sstart, bsize := bs, nblocks := n, nfree := n, nmin := n, start := sstart, endp := fb,
           mem := stp m fb 0 c.psz, lo := sstart, size := ssize }
  else .ub

/-- `rkh_memPool_get` (rkhmempool.c:141-174): the block, or 0 = NULL. -/
def get (c : Cfg) (p : Pool) : Res (Pool × Nat) := do
  assertIf c.assertEn (decide (p.bsize ≠ 0))
  let fb := p.free
  if fb ≠ 0 then
    if inStore p.lo p.size fb c.psz then
      assertIf c.assertEn (decide (p.nfree > 0))
      let nfree := (p.nfree + (c.nbW - 1)) % c.nbW
      pure ({ p with free := ldp p.mem fb c.psz, nfree := nfree, nmin := if p.nmin > nfree then nfree else p.nmin }, fb)
    else .ub
  else pure (p, 0)

/-- `rkh_memPool_put` (rkhmempool.c:176-201). -/
def put (c : Cfg) (p : Pool) (blk : Nat) : Res Pool := do
  assertIf c.assertEn (decide (p.bsize ≠ 0))
  assertIf c.assertEn (decide (p.start ≤ blk ∧ blk ≤ p.endp ∧ p.nfree < p.nblocks))
  if inStore p.lo p.size blk c.psz then
    pure { p with mem := stp p.mem blk p.free c.psz, free := blk, nfree := (p.nfree + 1) % c.nbW }
  else .ub

/-- `rkh_memPool_get_bsize`, `rkh_memPool_get_nfree`, `rkh_memPool_get_low_wmark` (rkhmempool.c:203-253). -/
def getBsize (p : Pool) : Nat := p.bsize
def getNfree (p : Pool) : Nat := p.nfree
def getLowWmark (p : Pool) : Nat := p.nmin

/-- A client writing one byte of its own memory. -/
def poke (p : Pool) (a : Nat) (v : BitVec 8) : Pool := { p with mem := upd p.mem a v }

end Verif.MemPool
