import Verif.RdyGrp.Model
/-
Model of the trace subsystem: source/trc/src/rkhtrc_stream.c, source/trc/src/rkhtrc_record.c and
source/trc/src/rkhtrc_filter.c with the constants and macros of source/trc/inc/rkhtrc_define.h and
source/trc/inc/rkhtrc_filter.h.

Bytes are `BitVec 8`. The stream storage and the filter tables are lists; an access outside is `ub`.
-/
namespace Verif.Trc
open Verif

/-- `rui8_t`. -/
abbrev Byte := BitVec 8

/-- `RKH_FLG` (rkhtrc_define.h:308). -/
def FLG : Byte := 0x7E#8
/-- `RKH_ESC` (rkhtrc_define.h:311). -/
def ESC : Byte := 0x7D#8
/-- `RKH_XOR` (rkhtrc_define.h:305). -/
def XOR : Byte := 0x20#8

/-! ## Stream (rkhtrc_stream.c) -/

/-- `trcstm, trcin, trcout, trcqty` (rkhtrc_stream.c:68-70); pointers are indices into `mem`. `trcend` is the
size, a constant after initialisation. -/
structure Stream where
  mem : List Byte
  tin : Nat
  tout : Nat
  qty : Nat
  deriving DecidableEq, Repr

/-- Range of `TRCQTY_T` (rkhtrc_define.h:1245-1249). -/
def qtyMod (sz : Nat) : Nat := if sz < 255 then 256 else 65536

/-- `*(mem + i) = v`. -/
def wr (mem : List Byte) (i : Nat) (v : Byte) : Res (List Byte) :=
  if i < mem.length then .ok (mem.set i v) else .ub

/-- `rkh_trc_put` (rkhtrc_stream.c:142-158); `sz` is `RKH_CFG_TRC_SIZEOF_STREAM`. -/
def put (sz : Nat) (s : Stream) (b : Byte) : Res Stream :=
  (wr s.mem s.tin b).map' fun mem =>
    let tin := if s.tin + 1 = sz then 0 else s.tin + 1
    let qty := (s.qty + 1) % qtyMod sz
    if sz ≤ qty then { mem := mem, tin := tin, tout := tin, qty := sz }
    else { mem := mem, tin := tin, tout := s.tout, qty := qty }

/-- `rkh_trcStream_init` (rkhtrc_stream.c:75-82) over storage `mem`; ends with a raw flag byte. -/
def streamInit (sz : Nat) (mem : List Byte) : Res Stream := put sz ⟨mem, 0, 0, 0⟩ FLG

/-- `rkh_trc_get` (rkhtrc_stream.c:84-103). The result is the byte the returned pointer designates, `none` for
NULL. Simplification: the caller reads the byte before the next put. -/
def get (sz : Nat) (s : Stream) : Res (Stream × Option Byte) :=
  if s.qty = 0 then .ok (s, none)
  else
    (RdyGrp.ix s.mem s.tout).map' fun b =>
      ({ s with tout := if sz ≤ s.tout + 1 then 0 else s.tout + 1, qty := s.qty - 1 }, some b)

/-- Reading `n` consecutive bytes starting at index `p`. -/
def slice (mem : List Byte) (p n : Nat) : Res (List Byte) :=
  if p + n ≤ mem.length then .ok ((mem.drop p).take n) else .ub

/-- `rkh_trc_get_block` (rkhtrc_stream.c:105-140): `nget` is the value of `*nget` on entry; the result is the block
of bytes returned, whose length is the value of `*nget` on return. Simplification: the caller reads the block before
the next put. -/
def getBlock (sz : Nat) (s : Stream) (nget : Nat) : Res (Stream × List Byte) :=
  if s.qty = 0 then .ok (s, [])
  else
    let n := sz - s.tout
    let n := if s.qty < n then s.qty else n
    let n := if nget < n then nget else n
    (slice s.mem s.tout n).map' fun blk =>
      ({ s with tout := if sz ≤ s.tout + n then 0 else s.tout + n, qty := s.qty - n }, blk)

/-- `memcpy(dest + off, src, n)` with the source bytes already read; `ub` beyond the destination. -/
def copyTo (dest : List Byte) (off : Nat) (src : List Byte) : Res (List Byte) :=
  if off + src.length ≤ dest.length then .ok (dest.take off ++ src ++ dest.drop (off + src.length)) else .ub

/-- The `do … while (nConsumed)` loop of `rkh_trc_getWholeBlock` (rkhtrc_stream.c:178-193). `offset` is assigned, not
accumulated, as in the code. The first argument bounds the iterations (`n := nConsumed` makes the second one the last);
running out of it would be reported as `ub`. -/
def wholeLoop (sz : Nat) : Nat → Stream → List Byte → (nConsumed n offset result : Nat) → Res (Stream × List Byte × Nat)
  | 0, _, _, _, _, _, _ => .ub
  | fuel + 1, s, dest, nConsumed, n, offset, result =>
    (slice s.mem s.tout n).bind fun src =>
    (copyTo dest offset src).bind fun dest =>
      let tout := s.tout + n
      let s := { s with tout := if sz ≤ tout then 0 else tout, qty := s.qty - n }
      let nConsumed := nConsumed - n
      if nConsumed ≠ 0 then wholeLoop sz fuel s dest nConsumed nConsumed n (result + n)
      else .ok (s, dest, result + n)

/-- `rkh_trc_getWholeBlock` (rkhtrc_stream.c:160-196): copies into `dest`; also returns the number of bytes copied. -/
def getWholeBlock (sz : Nat) (s : Stream) (dest : List Byte) (nElem : Nat) : Res (Stream × List Byte × Nat) :=
  if s.qty ≠ 0 then
    let nConsumed := if s.qty ≤ nElem then s.qty else nElem
    let n := sz - s.tout
    let n := if s.qty < n then s.qty else n
    let n := if nElem < n then nElem else n
    wholeLoop sz 3 s dest nConsumed n 0 0
  else .ok (s, dest, 0)

/-- Calls on the stream. `whole d n` passes a destination buffer `d` and asks for `n` bytes. -/
inductive SOp where
  | put (b : Byte)
  | get
  | block (n : Nat)
  | whole (dest : List Byte) (n : Nat)
  deriving DecidableEq, Repr

/-- What a call returns: `bytes` carries the bytes handed over by a block read; for `whole` also the final buffer. -/
inductive SOut where
  | unit
  | byte (b : Option Byte)
  | bytes (l : List Byte)
  | buffer (n : Nat) (dest : List Byte)
  deriving DecidableEq, Repr

/-- One call. -/
def sstep (sz : Nat) (s : Stream) : SOp → Res (Stream × SOut)
  | .put b => (put sz s b).map' fun s => (s, .unit)
  | .get => (get sz s).map' fun r => (r.1, .byte r.2)
  | .block n => (getBlock sz s n).map' fun r => (r.1, .bytes r.2)
  | .whole d n => (getWholeBlock sz s d n).map' fun r => (r.1, .buffer r.2.2 r.2.1)

/-! ## Records (rkhtrc_record.c) -/

/-- Size of the time stamp: `RKH_CFG_TRC_TSTAMP_EN`, `RKH_CFGPORT_TRC_SIZEOF_TSTAMP` (rkhtrc_record.c:69-85). -/
inductive Ts where
  | off | b8 | b16 | b32
  deriving DecidableEq, Repr

/-- Trace configuration: stream size, `RKH_CFG_TRC_NSEQ_EN`, `RKH_CFG_TRC_CHK_EN`, time stamp size. -/
structure Cfg where
  sz : Nat
  nseqEn : Bool
  chkEn : Bool
  ts : Ts
  deriving DecidableEq, Repr

/-- Stream plus `chk` and `nseq` (rkhtrc_record.c:91-92). -/
structure Rec where
  stm : Stream
  chk : Byte
  nseq : Byte
  deriving DecidableEq, Repr

/-- `rkh_trc_put` on the record state. -/
def rput (c : Cfg) (r : Rec) (b : Byte) : Res Rec := (put c.sz r.stm b).map' fun s => { r with stm := s }

/-- `rkh_trc_init` (rkhtrc_record.c:96-102). -/
def recInit (c : Cfg) (mem : List Byte) : Res Rec := (streamInit c.sz mem).map' fun s => ⟨s, 0#8, 0#8⟩

/-- `rkh_trc_u8` (rkhtrc_record.c:137-150). -/
def u8 (c : Cfg) (r : Rec) (d : Byte) : Res Rec :=
  let r := { r with chk := r.chk + d }
  if d = FLG ∨ d = ESC then (rput c r ESC).bind fun r => rput c r (d ^^^ XOR)
  else rput c r d

/-- `rkh_trc_u16` (rkhtrc_record.c:152-158). -/
def u16 (c : Cfg) (r : Rec) (d : BitVec 16) : Res Rec :=
  (u8 c r (d.setWidth 8)).bind fun r => u8 c r ((d >>> 8).setWidth 8)

/-- `rkh_trc_u32` (rkhtrc_record.c:160-170). -/
def u32 (c : Cfg) (r : Rec) (d : BitVec 32) : Res Rec :=
  (u8 c r (d.setWidth 8)).bind fun r =>
  (u8 c r ((d >>> 8).setWidth 8)).bind fun r =>
  (u8 c r ((d >>> 8 >>> 8).setWidth 8)).bind fun r => u8 c r ((d >>> 8 >>> 8 >>> 8).setWidth 8)

/-- `rkh_trc_str` (rkhtrc_record.c:172-178): `mem` is the memory from `s` on; running past it without meeting a
terminator is `ub`. -/
def str (c : Cfg) : Rec → List Byte → Res Rec
  | _, [] => .ub
  | r, b :: mem => if b ≠ 0#8 then (u8 c r b).bind fun r => str c r mem else u8 c r 0#8

/-- The copy loop of `rkh_trc_fmt_mem` (rkhtrc_record.c:260-265). -/
def memLoop (c : Cfg) : Rec → List Byte → Nat → Res Rec
  | r, _, 0 => .ok r
  | _, [], _ + 1 => .ub
  | r, b :: mem, n + 1 => (u8 c r b).bind fun r => memLoop c r mem n

/-- Arguments inserted between begin and end: `RKH_TRC_UI8/UI16/UI32/STR` and the formatted user-trace inserts
`rkh_trc_fmt_*` (rkhtrc_record.c:224-267). The other insert macros (`RKH_TRC_SYM`, `RKH_TRC_SIG`, `RKH_TRC_NE`, …,
rkhtrc_define.h:955-1163) are one of the three integer sizes depending on the configuration. -/
inductive Field where
  | u8 (d : Byte)
  | u16 (d : BitVec 16)
  | u32 (d : BitVec 32)
  | str (mem : List Byte)
  | fmtU8 (fmt : Byte) (d : Byte)
  | fmtU16 (fmt : Byte) (d : BitVec 16)
  | fmtU32 (fmt : Byte) (d : BitVec 32)
  | fmtStr (mem : List Byte)
  | fmtMem (mem : List Byte) (size : Byte)
  deriving DecidableEq, Repr

/-- `RKH_STR_T`, `RKH_MEM_T` in `enum RKH_TRC_FMT` (rkhtrc_define.h:1165-1179). -/
def STR_T : Byte := 7#8
@[inherit_doc STR_T] def MEM_T : Byte := 8#8

/-- One insert (rkhtrc_record.c:137-178, 224-267). -/
def field (c : Cfg) (r : Rec) : Field → Res Rec
  | .u8 d => u8 c r d
  | .u16 d => u16 c r d
  | .u32 d => u32 c r d
  | .str mem => str c r mem
  | .fmtU8 f d => (u8 c r f).bind fun r => u8 c r d
  | .fmtU16 f d => (u8 c r f).bind fun r => u16 c r d
  | .fmtU32 f d => (u8 c r f).bind fun r => u32 c r d
  | .fmtStr mem => (u8 c r STR_T).bind fun r => str c r mem
  | .fmtMem mem size => (u8 c r MEM_T).bind fun r => (u8 c r size).bind fun r => memLoop c r mem size.toNat

/-- The inserts of one record, in order. -/
def fields (c : Cfg) : Rec → List Field → Res Rec
  | r, [] => .ok r
  | r, f :: fs => (field c r f).bind fun r => fields c r fs

/-- `RKH_TRC_TSTAMP()` (rkhtrc_record.c:69-85) with `ts` the value of `rkh_trc_getts()`, converted to the argument type. -/
def tstamp (c : Cfg) (r : Rec) (ts : BitVec 32) : Res Rec :=
  match c.ts with
  | .off => .ok r
  | .b8 => u8 c r (ts.setWidth 8)
  | .b16 => u16 c r (ts.setWidth 16)
  | .b32 => u32 c r ts

/-- `rkh_trc_begin` (rkhtrc_record.c:104-114); `RKH_CFG_TRC_SIZEOF_TE_ID` is 8 (rkhtrc_define.h:75). -/
def beginRec (c : Cfg) (r : Rec) (eid : Byte) (ts : BitVec 32) : Res Rec :=
  (u8 c { r with chk := 0#8 } eid).bind fun r =>
  (if c.nseqEn then (u8 c r r.nseq).map' fun r => { r with nseq := r.nseq + 1#8 } else .ok r).bind fun r =>
  tstamp c r ts

/-- `rkh_trc_end` (rkhtrc_record.c:116-129), without the user hook. -/
def endRec (c : Cfg) (r : Rec) : Res Rec :=
  (if c.chkEn then
    let r := { r with chk := ~~~r.chk + 1#8 }
    u8 c r r.chk
   else .ok r).bind fun r => rput c r FLG

/-- A record: `RKH_TRC_BEGIN_WOFIL … RKH_TRC_END_WOFIL` (rkhtrc_define.h:716-728). The record is written inside one
critical section, so it is one atomic step. -/
def record (c : Cfg) (r : Rec) (eid : Byte) (ts : BitVec 32) (fs : List Field) : Res Rec :=
  (beginRec c r eid ts).bind fun r => (fields c r fs).bind fun r => endRec c r

/-- A record with the default header: `RKH_TRC_BEGIN_DFT … RKH_TRC_END_DFT` (rkhtrc_define.h:746-758). -/
def recordDft (c : Cfg) (r : Rec) (eid : Byte) (fs : List Field) : Res Rec :=
  (u8 c { r with chk := 0#8 } eid).bind fun r => (fields c r fs).bind fun r => endRec c r

/-! ## Filters (rkhtrc_filter.c) -/

/-- Filter configuration: `RKH_CFG_FWK_MAX_SMA`, `RKH_CFG_FWK_MAX_SIGNALS`, assertions compiled in, and the
per-AO / per-signal filters `RKH_CFG_TRC_RTFIL_SMA_EN`, `RKH_CFG_TRC_RTFIL_SIGNAL_EN`; `compl` is
`RKH_COMPLETION_EVENT` (source/fwk/inc/rkhitl.h:144). -/
structure FCfg where
  maxSma : Nat
  maxSig : Nat
  assertEn : Bool
  smaEn : Bool
  sigEn : Bool
  compl : Nat
  deriving DecidableEq, Repr

/-- Bytes of a table of `n` bits: `RKH_TRC_MAX_SMA`, `RKH_TRC_MAX_SIGNALS` (rkhtrc_define.h:168-188). -/
def tblBytes (n : Nat) : Nat := if n % 8 = 0 then n / 8 else n / 8 + 1

/-- Range of `RKH_TRC_FSLOT` (rkhtrc_filter.h:245-265). -/
def slotMod (f : FCfg) : Nat :=
  let bytes := if tblBytes f.maxSig < tblBytes f.maxSma then tblBytes f.maxSma else tblBytes f.maxSig
  if bytes * 8 ≤ 2 ^ 8 then 2 ^ 8 else if bytes * 8 ≤ 2 ^ 16 then 2 ^ 16 else if bytes * 8 ≤ 2 ^ 32 then 2 ^ 32 else 2 ^ 8

/-- `trcgmtbl` (rkhtrc_filter.c:147-157): offset and range, in bytes, of the events of each group
(rkhtrc_define.h:223-265). -/
def gmtbl : List (Nat × Nat) := [(0, 1), (1, 1), (2, 2), (4, 3), (7, 1), (8, 3), (11, 4), (15, 2)]

/-- `RKH_TRC_MAX_EVENTS_IN_BYTES` = `RKH_TOT_NUM_TRC_EVTS` (rkhtrc_define.h:236-252). -/
def evtBytes : Nat := 17

/-- `RKH_TRC_ALL_GROUPS` = `RKH_TG_NGROUP` (rkhtrc_define.h:286, 339). -/
def ALL_GROUPS : Nat := 8
/-- `RKH_TE_UT_INIT` … (rkhtrc_define.h:489-499); `RKH_UT_END` is `RKH_TE_UT_IGNORE_ARG`. -/
def UT_START : Nat := 7 <<< 5
@[inherit_doc UT_START] def UT_IGNORE_ARG : Nat := UT_START + 7
@[inherit_doc UT_START] def UT_SUCCESS : Nat := UT_START + 8
@[inherit_doc UT_START] def UT_FAIL : Nat := UT_START + 9
/-- `RKH_TRC_ALL_EVENTS` = `RKH_TE_NEVENT` = `RKH_UT_END + 1` (rkhtrc_define.h:292, 502). -/
def ALL_EVENTS : Nat := UT_IGNORE_ARG + 1

/-- `trceftbl, trcgfilter, trcsmaftbl, trcsigftbl` (rkhtrc_filter.c:87-142). -/
structure Flt where
  evt : List Byte
  grp : Byte
  sma : List Byte
  sig : List Byte
  deriving DecidableEq, Repr

/-- The static tables before `main` (zero initialised). -/
def fltInit (f : FCfg) : Flt :=
  ⟨List.replicate evtBytes 0#8, 0#8, List.replicate (tblBytes f.maxSma) 0#8, List.replicate (tblBytes f.maxSig) 0#8⟩

/-- `FILTER_OFF` (rkhtrc_filter.h:277-280); `FILTER_ON` is 0. -/
def FILTER_OFF : Byte := 1#8
/-- `FILTER_ON` (rkhtrc_filter.h:277-280). -/
def FILTER_ON : Byte := 0#8
/-- `RKH_TRC_ALL_FILTERS` (rkhtrc_define.h:301). -/
def ALL_FILTERS : Byte := 0x80#8

/-- The loop of `setAllFilters` (rkhtrc_filter.c:169-180): `ix` is an 8-bit counter compared with `size`, while the
pointer `ft` keeps advancing. -/
def setAllLoop (c : Byte) (size : Nat) (tbl : List Byte) (ft ix : Nat) : Res (List Byte) :=
  if ix < size then
    if ft < tbl.length then setAllLoop c size (tbl.set ft c) (ft + 1) ((ix + 1) % 256)
    else .ub
  else .ok tbl
termination_by tbl.length - ft
decreasing_by simp only [List.length_set]; omega

/-- `setAllFilters(&tbl[ft], value, size)` (rkhtrc_filter.c:169-180). -/
def setAllFilters (tbl : List Byte) (ft : Nat) (value : Byte) (size : Nat) : Res (List Byte) :=
  setAllLoop (if value = FILTER_OFF then 0xFF#8 else 0#8) size tbl ft 0

/-- `setOneFilter(byte, value, bitPos)` (rkhtrc_filter.c:182-193). -/
def setOneFilter (byte : Byte) (value : Byte) (bitPos : Nat) : Res Byte :=
  if value = FILTER_OFF then (RdyGrp.getBitMask bitPos).map' fun m => byte ||| m
  else (RdyGrp.getBitMask bitPos).map' fun m => byte &&& ~~~m

/-- `setOneFilter(&tbl[i], value, bitPos)`. -/
def setOneAt (tbl : List Byte) (i : Nat) (value : Byte) (bitPos : Nat) : Res (List Byte) :=
  (RdyGrp.ix tbl i).bind fun b => (setOneFilter b value bitPos).map' fun b => tbl.set i b

/-- `isOffFilter(&tbl[base], filter)` (rkhtrc_filter.c:195-204): true when the bit is set, i.e. when the item is
*not* filtered out. `filter` is a `RKH_TE_ID_T`, 8 bits (rkhtrc_define.h:1214-1215). -/
def isOffFilter (tbl : List Byte) (base : Nat) (filter : Nat) : Res Bool :=
  let filter := filter % 256
  (RdyGrp.ix tbl (base + (filter >>> 3))).bind fun b =>
    (RdyGrp.getBitMask (filter &&& 7)).map' fun m => decide (b &&& m ≠ 0#8)

/-- `GETGRP` (rkhtrc_define.h:274-275). -/
def getGrp (e : Nat) : Nat := (e &&& 0xE0) >>> 5
/-- `GETEVT` (rkhtrc_define.h:276-277). -/
def getEvt (e : Nat) : Nat := e &&& 0x1F

/-- `rkh_trc_filter_group_` (rkhtrc_filter.c:214-234); `change` is `mode == ECHANGE`. -/
def filterGroup (t : Flt) (ctrl : Byte) (grp : Nat) (change : Bool) : Res Flt :=
  if grp = ALL_GROUPS then .ok { t with grp := if ctrl = FILTER_OFF then 0xFF#8 else 0#8 }
  else
    (setOneFilter t.grp ctrl grp).bind fun g =>
      let t := { t with grp := g }
      if change then
        (RdyGrp.ix gmtbl grp).bind fun r =>
        (setAllFilters t.evt r.1 ctrl r.2).map' fun e => { t with evt := e }
      else .ok t

/-- `rkh_trc_filter_event_` (rkhtrc_filter.c:236-262). -/
def filterEvent (f : FCfg) (t : Flt) (ctrl : Byte) (evt : Nat) : Res Flt :=
  (assertIf f.assertEn (decide (evt ≤ ALL_EVENTS))).bind fun _ =>
  if evt = ALL_EVENTS then
    (setAllFilters t.evt 0 ctrl evtBytes).map' fun e =>
      { t with evt := e, grp := if ctrl = FILTER_OFF then 0xFF#8 else 0#8 }
  else
    let e := getEvt evt
    let g := getGrp evt
    (RdyGrp.ix gmtbl g).bind fun r =>
    (setOneAt t.evt ((r.1 + (e >>> 3)) % 256) ctrl (e &&& 7)).bind fun ev =>
      let t := { t with evt := ev }
      if ctrl = FILTER_OFF then (RdyGrp.getBitMask g).map' fun m => { t with grp := t.grp ||| m }
      else .ok t

/-- `rkh_trc_isoff_` (rkhtrc_filter.c:264-277). -/
def isOff (t : Flt) (e : Nat) : Res Bool :=
  (RdyGrp.ix gmtbl (getGrp e)).bind fun r =>
  (RdyGrp.getBitMask (getGrp e)).bind fun m =>
    if t.grp &&& m ≠ 0#8 then isOffFilter t.evt r.1 (getEvt e) else .ok false

/-- The two symbol filter tables (`RKHFilterSignal`, `RKHFilterSma`). Simplification: `RKHFilterTrcEvt`, which
`getFilterTable` maps to the AO table, is not used by any macro and is left out. -/
inductive Tbl where
  | signal | sma
  deriving DecidableEq, Repr

/-- `getFilterTable(fd)->size` (rkhtrc_filter.c:163-164, 206-211). -/
def tblSize (f : FCfg) : Tbl → Nat
  | .signal => tblBytes f.maxSig
  | .sma => tblBytes f.maxSma

/-- `getFilterTable(fd)->tbl` (rkhtrc_filter.c:163-164, 206-211). -/
def tbl (t : Flt) : Tbl → List Byte
  | .signal => t.sig
  | .sma => t.sma

/-- Writing back a symbol filter table. -/
def setTbl (t : Flt) (d : Tbl) (l : List Byte) : Flt :=
  match d with
  | .signal => { t with sig := l }
  | .sma => { t with sma := l }

/-- `rkh_trc_symFil` (rkhtrc_filter.c:279-300). The argument is converted to `RKH_TRC_FSLOT`. -/
def symFil (f : FCfg) (t : Flt) (d : Tbl) (slot : Nat) (mode : Byte) : Res Flt :=
  let slot := slot % slotMod f
  (assertIf f.assertEn (decide (slot ≤ tblSize f d <<< 3))).bind fun _ =>
  let onoff := mode &&& ~~~ALL_FILTERS
  if mode &&& ALL_FILTERS ≠ 0#8 then
    (setAllFilters (tbl t d) 0 onoff (tblSize f d)).map' fun l => setTbl t d l
  else
    (setOneAt (tbl t d) (slot >>> 3) onoff (slot &&& 7)).map' fun l => setTbl t d l

/-- `rkh_trc_symFil_isoff` (rkhtrc_filter.c:302-310). The slot is converted to the 8-bit `RKH_TE_ID_T` for
`isOffFilter`. -/
def symFilIsOff (f : FCfg) (t : Flt) (d : Tbl) (slot : Nat) : Res Bool :=
  let slot := slot % slotMod f
  (assertIf f.assertEn (decide (slot ≤ tblSize f d <<< 3))).bind fun _ => isOffFilter (tbl t d) 0 slot

/-- Which of the macros `RKH_TRC_BEGIN`, `…_WOAO`, `…_WOSIG`, `…_WOAOSIG`, `…_WOFIL`, `…_DFT` opens the record
(rkhtrc_define.h:571-758), with the active object's priority and the signal it passes to the filters. -/
inductive Kind where
  | full (prio sig : Nat)
  | woAo (sig : Nat)
  | woSig (prio : Nat)
  | woAoSig
  | woFil
  | dft
  deriving DecidableEq, Repr

/-- `RKH_TRC_AO_ISOFF(prio)` (rkhtrc_define.h:103-108): part of a `&&` chain. -/
def aoIsOff (f : FCfg) (t : Flt) (prio : Nat) : Res Bool :=
  if f.smaEn then symFilIsOff f t .sma prio else .ok true

/-- `RKH_TRC_SIG_ISOFF(sig)` (rkhtrc_define.h:113-135). -/
def sigIsOff (f : FCfg) (t : Flt) (sig : Nat) : Res Bool :=
  if f.sigEn then (if sig = f.compl then .ok true else symFilIsOff f t .signal sig) else .ok true

/-- C `&&`. -/
def andThen (a : Res Bool) (b : Res Bool) : Res Bool := a.bind fun x => if x then b else .ok false

/-- The condition guarding a record (rkhtrc_define.h:571-673, 716-719, 746-750). -/
def passes (f : FCfg) (t : Flt) (k : Kind) (eid : Nat) : Res Bool :=
  match k with
  | .full prio sig => andThen (andThen (isOff t eid) (aoIsOff f t prio)) (sigIsOff f t sig)
  | .woAo sig => andThen (isOff t eid) (sigIsOff f t sig)
  | .woSig prio => andThen (isOff t eid) (aoIsOff f t prio)
  | .woAoSig => isOff t eid
  | .woFil => .ok true
  | .dft => .ok true

/-! ## The trace facility as a whole -/

/-- Everything together. -/
structure World where
  tr : Rec
  flt : Flt
  deriving DecidableEq, Repr

/-- Calls on the trace facility: filter settings, trace points, stream reads. -/
inductive Op where
  | group (ctrl : Bool) (grp : Nat) (change : Bool)
  | event (ctrl : Bool) (evt : Nat)
  | sym (d : Tbl) (slot : Nat) (ctrl : Bool) (all : Bool)
  | trace (k : Kind) (eid : Byte) (ts : BitVec 32) (fs : List Field)
  | get
  | block (n : Nat)
  | whole (dest : List Byte) (n : Nat)
  deriving DecidableEq, Repr

/-- `FILTER_OFF` (emit) for `true`, `FILTER_ON` (suppress) for `false`. -/
def ctl (emit : Bool) : Byte := if emit then FILTER_OFF else FILTER_ON

/-- `mode` argument of the symbol filter macros; `RKH_TRC_SET_ALL` (rkhtrc_define.h:298-299). -/
def symMode (emit all : Bool) : Byte := if all then ctl emit ||| ALL_FILTERS else ctl emit

/-- One trace point: the record is written when the filters let it pass (rkhtrc_define.h:571-758). -/
def trace (c : Cfg) (f : FCfg) (w : World) (k : Kind) (eid : Byte) (ts : BitVec 32) (fs : List Field) : Res World :=
  (passes f w.flt k eid.toNat).bind fun p =>
    if p then
      (if k = .dft then recordDft c w.tr eid fs else record c w.tr eid ts fs).map' fun r => { w with tr := r }
    else .ok w

/-- One call. -/
def step (c : Cfg) (f : FCfg) (w : World) : Op → Res (World × SOut)
  | .group ctrl g ch => (filterGroup w.flt (ctl ctrl) g ch).map' fun t => ({ w with flt := t }, .unit)
  | .event ctrl e => (filterEvent f w.flt (ctl ctrl) e).map' fun t => ({ w with flt := t }, .unit)
  | .sym d slot ctrl all => (symFil f w.flt d slot (symMode ctrl all)).map' fun t => ({ w with flt := t }, .unit)
  | .trace k eid ts fs => (trace c f w k eid ts fs).map' fun w => (w, .unit)
  | .get => (get c.sz w.tr.stm).map' fun r => ({ w with tr := { w.tr with stm := r.1 } }, .byte r.2)
  | .block n => (getBlock c.sz w.tr.stm n).map' fun r => ({ w with tr := { w.tr with stm := r.1 } }, .bytes r.2)
  | .whole d n =>
    (getWholeBlock c.sz w.tr.stm d n).map' fun r => ({ w with tr := { w.tr with stm := r.1 } }, .buffer r.2.2 r.2.1)

/-- Start-up: `rkh_trc_init` over the static tables. -/
def start (c : Cfg) (f : FCfg) (mem : List Byte) : Res World := (recInit c mem).map' fun r => ⟨r, fltInit f⟩

end Verif.Trc
