import Verif.Basic
/-
Model of source/fwk/src/rkhfwk_bittbl.c and source/fwk/src/rkhfwk_rdygrp.c; the functions of
source/sma/src/rkhsma_prio.c:71-107 only forward to these with a static group.

Bytes are `BitVec 8`. An array access outside its bounds is `ub`. `maxSma` is
`RKH_CFG_FWK_MAX_SMA` (1..64, checked at compile time in source/fwk/inc/rkhitl.h).
-/
namespace Verif.RdyGrp
open Verif

/-- `bitMaskTbl` (rkhfwk_bittbl.c:66-69). -/
def bitMaskTbl : List (BitVec 8) := [0x01#8, 0x02#8, 0x04#8, 0x08#8, 0x10#8, 0x20#8, 0x40#8, 0x80#8]

/-- `leastBitSetTbl` (rkhfwk_bittbl.c:76-94), copied row by row. -/
def leastBitSetTbl : List Nat := [
    0, 0, 1, 0, 2, 0, 1, 0, 3, 0, 1, 0, 2, 0, 1, 0,
    4, 0, 1, 0, 2, 0, 1, 0, 3, 0, 1, 0, 2, 0, 1, 0,
    5, 0, 1, 0, 2, 0, 1, 0, 3, 0, 1, 0, 2, 0, 1, 0,
    4, 0, 1, 0, 2, 0, 1, 0, 3, 0, 1, 0, 2, 0, 1, 0,
    6, 0, 1, 0, 2, 0, 1, 0, 3, 0, 1, 0, 2, 0, 1, 0,
    4, 0, 1, 0, 2, 0, 1, 0, 3, 0, 1, 0, 2, 0, 1, 0,
    5, 0, 1, 0, 2, 0, 1, 0, 3, 0, 1, 0, 2, 0, 1, 0,
    4, 0, 1, 0, 2, 0, 1, 0, 3, 0, 1, 0, 2, 0, 1, 0,
    7, 0, 1, 0, 2, 0, 1, 0, 3, 0, 1, 0, 2, 0, 1, 0,
    4, 0, 1, 0, 2, 0, 1, 0, 3, 0, 1, 0, 2, 0, 1, 0,
    5, 0, 1, 0, 2, 0, 1, 0, 3, 0, 1, 0, 2, 0, 1, 0,
    4, 0, 1, 0, 2, 0, 1, 0, 3, 0, 1, 0, 2, 0, 1, 0,
    6, 0, 1, 0, 2, 0, 1, 0, 3, 0, 1, 0, 2, 0, 1, 0,
    4, 0, 1, 0, 2, 0, 1, 0, 3, 0, 1, 0, 2, 0, 1, 0,
    5, 0, 1, 0, 2, 0, 1, 0, 3, 0, 1, 0, 2, 0, 1, 0,
    4, 0, 1, 0, 2, 0, 1, 0, 3, 0, 1, 0, 2, 0, 1, 0]

/-- `a[i]` for an array held as a list. -/
def ix {α : Type} (l : List α) (i : Nat) : Res α :=
  match l[i]? with
  | some v => .ok v
  | none => .ub

/-- `rkh_bittbl_getBitMask` (rkhfwk_bittbl.c:102-106); `RKH_INVALID_BITPOS` is 0xFF. -/
def getBitMask (bitPos : Nat) : Res (BitVec 8) :=
  if bitPos < 8 then ix bitMaskTbl bitPos else .ok 0xFF#8

/-- `rkh_bittbl_getLeastBitSetPos` (rkhfwk_bittbl.c:108-112). -/
def getLeastBitSetPos (value : BitVec 8) : Res Nat := ix leastBitSetTbl value.toNat

/-- `RKHRdyGrp` (source/fwk/inc/rkhfwk_rdygrp.h): group byte and one byte per row of 8 priorities. -/
structure Grp where
  grp : BitVec 8
  tbl : List (BitVec 8)
  deriving DecidableEq, Repr

/-- `RKH_NUM_RDYGRP` (source/fwk/inc/rkhfwk_rdygrp.h:66-82): a preprocessor cascade on `RKH_CFG_FWK_MAX_SMA`. -/
def numRows (maxSma : Nat) : Nat :=
  if maxSma ≤ 8 then 1 else if maxSma ≤ 16 then 2 else if maxSma ≤ 24 then 3 else if maxSma ≤ 32 then 4
  else if maxSma ≤ 40 then 5 else if maxSma ≤ 48 then 6 else if maxSma ≤ 56 then 7 else 8

/-- `rkh_rdygrp_init` (rkhfwk_rdygrp.c:71-81): whatever was in the structure is cleared. -/
def init (maxSma : Nat) : Grp := { grp := 0#8, tbl := List.replicate (numRows maxSma) 0#8 }

/-- `rkh_rdygrp_isReady` (rkhfwk_rdygrp.c:83-87). -/
def isReady (g : Grp) : Bool := g.grp != 0#8

/-- `rkh_rdygrp_setReady` (rkhfwk_rdygrp.c:89-95). -/
def setReady (en : Bool) (maxSma : Nat) (g : Grp) (prio : Nat) : Res Grp := do
  assertIf en (decide (prio < maxSma))
  let mg ← getBitMask (prio >>> 3)
  let row ← ix g.tbl (prio >>> 3)
  let mr ← getBitMask (prio &&& 7)
  pure { grp := g.grp ||| mg, tbl := g.tbl.set (prio >>> 3) (row ||| mr) }

/-- `rkh_rdygrp_setUnready` (rkhfwk_rdygrp.c:97-105). -/
def setUnready (en : Bool) (maxSma : Nat) (g : Grp) (prio : Nat) : Res Grp := do
  assertIf en (decide (prio < maxSma))
  let row ← ix g.tbl (prio >>> 3)
  let mr ← getBitMask (prio &&& 7)
  let row := row &&& ~~~mr
  let mg ← getBitMask (prio >>> 3)
  pure { grp := if row == 0#8 then g.grp &&& ~~~mg else g.grp, tbl := g.tbl.set (prio >>> 3) row }

/-- `rkh_rdygrp_findHighest` (rkhfwk_rdygrp.c:107-116). -/
def findHighest (g : Grp) : Res Nat := do
  let prio ← getLeastBitSetPos g.grp
  let row ← ix g.tbl prio
  let b ← getLeastBitSetPos row
  pure (((prio <<< 3) + b) % 256)

/-- Inner loop of `rkh_rdygrp_traverse` (rkhfwk_rdygrp.c:129-138). `cb` is the callback acting on
the caller's state `s`; `n` is `nRdyAO`. Simplification: the callback does not modify the group being traversed
(the only callback in the code base, `publish`, does not, unless a post function is overridden: `RdyGrp/Live`). -/
def colLoop {S : Type} (cb : S → Nat → Res S) (row : Nat) (column : BitVec 8) (nBit : Nat) (s : S) (n : Nat) : Res (S × Nat) :=
  if column ≠ 0#8 ∧ nBit < 8 then
    if column &&& 1#8 ≠ 0#8 then
      (cb s ((row <<< 3) ||| nBit)).bind fun s' => colLoop cb row (column >>> 1) (nBit + 1) s' ((n + 1) % 256)
    else colLoop cb row (column >>> 1) (nBit + 1) s n
  else .ok (s, n)
termination_by 8 - nBit

/-- Outer loop of `rkh_rdygrp_traverse` (rkhfwk_rdygrp.c:127-139). -/
def rowLoop {S : Type} (cb : S → Nat → Res S) : Nat → List (BitVec 8) → S → Nat → Res (S × Nat)
  | _, [], s, n => .ok (s, n)
  | row, c :: tbl, s, n => (colLoop cb row c 0 s n).bind fun r => rowLoop cb (row + 1) tbl r.1 r.2

/-- `rkh_rdygrp_traverse` (rkhfwk_rdygrp.c:118-142). -/
def traverse {S : Type} (g : Grp) (cb : S → Nat → Res S) (s : S) : Res (S × Nat) :=
  if g.grp ≠ 0#8 then rowLoop cb 0 g.tbl s 0 else .ok (s, 0)

/-- Calls that change a group. -/
inductive Op where
  | ready (prio : Nat)
  | unready (prio : Nat)
  deriving DecidableEq, Repr

/-- One call. -/
def step (en : Bool) (maxSma : Nat) (g : Grp) : Op → Res (Grp × Unit)
  | .ready p => (setReady en maxSma g p).map' fun g => (g, ())
  | .unready p => (setUnready en maxSma g p).map' fun g => (g, ())

end Verif.RdyGrp
