import Verif.Trc.Model
/-
Model of the trace points: the macros `RKH_TR_*` of source/trc/inc/rkhtrc_record.h:60-1850, the insert macros
`RKH_TRC_SYM`, `RKH_TRC_NBLK`, … of source/trc/inc/rkhtrc_define.h:970-1156, the user-trace macros `RKH_TUSR_*`
(rkhtrc_define.h:834-950) and the helpers `rkh_trc_obj`, `rkh_trc_sig`, `rkh_trc_ao`, `rkh_trc_state`
(source/trc/src/rkhtrc_record.c:180-222). A trace point becomes a `Trc.Op.trace` of the model of the trace facility.

Addresses and numbers are naturals; the insert macros convert them to the unsigned type of the field.
-/
namespace Verif.Trc
open Verif

/-- The sizes 8, 16, 32 a `…_SIZEOF_…` option may have (source/fwk/inc/rkhitl.h:262-289, 356-368, 485-497, 1287-1328,
1564-1592). -/
inductive W where
  | b8 | b16 | b32
  deriving DecidableEq, Repr

/-- The option's value divided by 8. -/
def W.bytes : W → Nat
  | .b8 => 1
  | .b16 => 2
  | .b32 => 4

/-- The compile-time options the trace records depend on. Names follow the options; `sndrEn` is
`RKH_CFG_SMA_TRC_SNDR_EN`, which defines `RKH_USE_TRC_SENDER` when tracing is enabled (rkhitl.h:74-92). The `sm…En`
are `RKH_CFG_TRC_SM_INIT_EN` and its companions. -/
structure PCfg where
  sz : Nat
  version : Nat
  sndrEn : Bool
  rtfilEn : Bool
  userEn : Bool
  allEn : Bool
  mpEn : Bool
  queEn : Bool
  smaEn : Bool
  tmrEn : Bool
  smEn : Bool
  fwkEn : Bool
  assertEn : Bool
  queLwmEn : Bool
  mpLwmEn : Bool
  rtfilSmaEn : Bool
  rtfilSigEn : Bool
  nseqEn : Bool
  tstampEn : Bool
  chkEn : Bool
  smInitEn : Bool
  smClrhEn : Bool
  smDchEn : Bool
  smTrnEn : Bool
  smStateEn : Bool
  smEnstateEn : Bool
  smExstateEn : Bool
  smNenexEn : Bool
  smNtrnactEn : Bool
  smTsStateEn : Bool
  smProcessEn : Bool
  smExeActEn : Bool
  evt : W
  tstamp : W
  ptr : W
  funPtr : W
  ntimer : W
  nblock : W
  nelem : W
  evtSize : W
  bsize : W
  maxEvtPool : Nat
  deriving DecidableEq, Repr

/-- The part of the configuration the record functions use (rkhtrc_record.c:69-85). -/
def PCfg.cfg (k : PCfg) : Cfg :=
  ⟨k.sz, k.nseqEn, k.chkEn, if k.tstampEn then (match k.tstamp with | .b8 => .b8 | .b16 => .b16 | .b32 => .b32) else .off⟩

/-- `RKH_TRC_UI8` (rkhtrc_define.h:771-772). -/
def ui8 (n : Nat) : Field := .u8 (BitVec.ofNat 8 n)
/-- `RKH_TRC_UI16` (rkhtrc_define.h:778-779). -/
def ui16 (n : Nat) : Field := .u16 (BitVec.ofNat 16 n)
/-- `RKH_TRC_UI32` (rkhtrc_define.h:785-786). -/
def ui32 (n : Nat) : Field := .u32 (BitVec.ofNat 32 n)

/-- An insert macro that selects the width by an option. -/
def uint (w : W) (n : Nat) : Field :=
  match w with
  | .b8 => ui8 n
  | .b16 => ui16 n
  | .b32 => ui32 n

/-- `RKH_TRC_SYM` (rkhtrc_define.h:971-980): the size 8 takes the `#else` branch and inserts 32 bits. -/
def trcSym (k : PCfg) (a : Nat) : Field :=
  match k.ptr with
  | .b16 => ui16 a
  | .b32 => ui32 a
  | .b8 => ui32 a

/-- `RKH_TRC_FUN` (rkhtrc_define.h:997-1006). -/
def trcFun (k : PCfg) (a : Nat) : Field :=
  match k.funPtr with
  | .b16 => ui16 a
  | .b32 => ui32 a
  | .b8 => ui32 a

/-- `RKH_TRC_SNDR` (rkhtrc_define.h:986-991). -/
def trcSndr (k : PCfg) (a : Nat) : List Field := if k.sndrEn then [trcSym k a] else []
/-- `RKH_TRC_NTICK` (rkhtrc_define.h:1011-1023). -/
def trcNtick (k : PCfg) (n : Nat) : Field := uint k.ntimer n
/-- `RKH_TRC_NBLK` (rkhtrc_define.h:1028-1065). -/
def trcNblk (k : PCfg) (n : Nat) : Field := uint k.nblock n
/-- `RKH_TRC_MP_NMIN` (rkhtrc_define.h:1028-1065). -/
def trcMpNmin (k : PCfg) (n : Nat) : List Field := if k.mpLwmEn then [uint k.nblock n] else []
/-- `RKH_TRC_BSIZE` (rkhtrc_define.h:1069-1081). -/
def trcBsize (k : PCfg) (n : Nat) : Field := uint k.bsize n
/-- `RKH_TRC_NE` (rkhtrc_define.h:1086-1123). -/
def trcNe (k : PCfg) (n : Nat) : Field := uint k.nelem n
/-- `RKH_TRC_QUE_NMIN` (rkhtrc_define.h:1086-1123). -/
def trcQueNmin (k : PCfg) (n : Nat) : List Field := if k.queLwmEn then [uint k.nelem n] else []
/-- `RKH_TRC_SIG` (rkhtrc_define.h:1127-1139). -/
def trcSig (k : PCfg) (n : Nat) : Field := uint k.evt n
/-- `RKH_TRC_ES` (rkhtrc_define.h:1144-1156). -/
def trcEs (k : PCfg) (n : Nat) : Field := uint k.evtSize n

/-- An active object as a macro argument: its address and `RKH_SMA_ACCESS_CONST(actObj_, prio)`. -/
structure Ao where
  addr : Nat
  prio : Nat
  deriving DecidableEq, Repr

/-- An event as a macro argument: `evt->e`, `evt->pool`, `evt->nref`. -/
structure Ev where
  sig : Nat
  pool : Nat
  nref : Nat
  deriving DecidableEq, Repr

/-- One `RKH_TUSR_*` insert of a user trace (rkhtrc_define.h:834-950); `w` is the display width. -/
inductive UItem where
  | i8 (w : Nat) (d : BitVec 8)
  | ui8 (w : Nat) (d : BitVec 8)
  | i16 (w : Nat) (d : BitVec 16)
  | ui16 (w : Nat) (d : BitVec 16)
  | i32 (w : Nat) (d : BitVec 32)
  | ui32 (w : Nat) (d : BitVec 32)
  | x32 (w : Nat) (d : BitVec 32)
  | str (mem : List Byte)
  | mem (mem : List Byte) (size : Nat)
  | obj (a : Nat)
  | fn (a : Nat)
  | sig (s : Nat)
  deriving DecidableEq, Repr

/-- `enum RKH_TRC_FMT` (rkhtrc_define.h:1165-1179), joined with the display width: `(rui8_t)((w_) << 4) | (rui8_t)x`. -/
def fmt (w t : Nat) : Byte := BitVec.ofNat 8 (w <<< 4) ||| BitVec.ofNat 8 t

/-- The `RKH_TUSR_*` macros (rkhtrc_define.h:834-950); the parameter of `rkh_trc_fmt_mem` is `rui8_t`. -/
def usrField (k : PCfg) : UItem → Field
  | .i8 w d => .fmtU8 (fmt w 0) d
  | .ui8 w d => .fmtU8 (fmt w 1) d
  | .i16 w d => .fmtU16 (fmt w 2) d
  | .ui16 w d => .fmtU16 (fmt w 3) d
  | .i32 w d => .fmtU32 (fmt w 4) d
  | .ui32 w d => .fmtU32 (fmt w 5) d
  | .x32 w d => .fmtU32 (fmt w 6) d
  | .str m => .fmtStr m
  | .mem m n => .fmtMem m (BitVec.ofNat 8 n)
  | .obj a => match k.ptr with
    | .b16 => .fmtU16 9#8 (BitVec.ofNat 16 a)
    | .b32 => .fmtU32 9#8 (BitVec.ofNat 32 a)
    | .b8 => .fmtU32 9#8 (BitVec.ofNat 32 a)
  | .fn a => match k.funPtr with
    | .b16 => .fmtU16 10#8 (BitVec.ofNat 16 a)
    | .b32 => .fmtU32 10#8 (BitVec.ofNat 32 a)
    | .b8 => .fmtU32 10#8 (BitVec.ofNat 32 a)
  | .sig s => match k.evt with
    | .b8 => .fmtU8 11#8 (BitVec.ofNat 8 s)
    | .b16 => .fmtU16 11#8 (BitVec.ofNat 16 s)
    | .b32 => .fmtU32 11#8 (BitVec.ofNat 32 s)

/-- A trace point with its arguments. Names and arguments are those of the macros `RKH_TR_*`; strings are the memory from
the pointer on. -/
inductive Pt where
  -- memory pool (rkhtrc_record.h:88-132)
  | mpInit (memPool nBlocks blockSize : Nat)
  | mpGet (memPool nFree nMin : Nat)
  | mpPut (memPool nFree : Nat)
  -- queue (rkhtrc_record.h:165-272)
  | queInit (queue actObj nElem : Nat)
  | queGet (queue nElem : Nat)
  | queFifo (queue nElem nMin : Nat)
  | queLifo (queue nElem nMin : Nat)
  | queFull (queue : Nat)
  | queDpt (queue : Nat)
  | queGetLast (queue : Nat)
  -- active object (rkhtrc_record.h:308-496)
  | smaAct (ao : Ao) (prio queSize : Nat)
  | smaTerm (ao : Ao) (prio : Nat)
  | smaGet (ao : Ao) (evt : Ev) (poolID refCntr nElem nMin : Nat)
  | smaFifo (ao : Ao) (evt : Ev) (sender poolID refCntr nElem nMin : Nat)
  | smaLifo (ao : Ao) (evt : Ev) (sender poolID refCntr nElem nMin : Nat)
  | smaReg (ao : Ao) (prio : Nat)
  | smaUnreg (ao : Ao) (prio : Nat)
  | smaDefer (queue : Nat) (evt : Ev)
  | smaRcall (ao : Ao) (evt : Ev)
  -- state machine (rkhtrc_record.h:546-929)
  | smInit (ao : Ao) (initState : Nat)
  | smClrh (ao : Ao) (history : Nat)
  | smDch (ao : Ao) (evt : Ev) (state : Nat)
  | smTrn (ao : Ao) (sourceState targetState : Nat)
  | smState (ao : Ao) (state : Nat)
  | smEnstate (ao : Ao) (state : Nat)
  | smExstate (ao : Ao) (state : Nat)
  | smNenex (ao : Ao) (nEnState nExState : Nat)
  | smNtrnact (ao : Ao) (nta nts : Nat)
  | smTsState (ao : Ao) (state : Nat)
  | smEvtProc (ao : Ao)
  | smEvtNfound (ao : Ao) (evt : Ev)
  | smGrdFalse (ao : Ao)
  | smCndNfound (ao : Ao)
  | smUnknState (ao : Ao)
  | smExHlevel (ao : Ao)
  | smExTseg (ao : Ao)
  | smExeAct (actionType : Nat) (ao : Ao) (state action : Nat)
  -- timer (rkhtrc_record.h:981-1061)
  | tmrInit (timer signal : Nat)
  | tmrStart (timer : Nat) (ao : Ao) (nTicks period : Nat)
  | tmrStop (timer nTicks period : Nat)
  | tmrTout (timer signal : Nat) (ao : Ao)
  | tmrRem (timer : Nat)
  -- framework (rkhtrc_record.h:1091-1850)
  | fwkEn
  | fwkEx
  | fwkEpreg (evtPool storageSize evtSize poolSize : Nat)
  | fwkAe (evtSize : Nat) (evt : Ev) (nUsed nMin sender : Nat)
  | fwkGc (evt : Ev) (poolID refCnt : Nat)
  | fwkGcr (evt : Ev) (nUsed nMin sender : Nat)
  | fwkObj (obj : Nat) (name : List Byte)
  | fwkSig (sig : Nat) (name : List Byte)
  | fwkFun (function : Nat) (name : List Byte)
  | fwkExeFun (function : Nat)
  | fwkSyncEvt (function senderObj receiverObj : Nat)
  | fwkTusr (evt : Nat) (name : List Byte)
  | fwkTcfg (timeStamp : Nat)
  | fwkAssert (mod : List Byte) (line : Nat)
  | fwkAo (ao : Ao) (name : List Byte)
  | fwkState (ao : Ao) (state : Nat) (regular : Bool) (name : List Byte)
  | fwkTimer (timer : Nat) (name : List Byte)
  | fwkEpool (poolId : Nat) (name : List Byte)
  | fwkQueue (queue : Nat) (name : List Byte)
  | fwkActor (actor : Nat) (name : List Byte)
  -- user (rkhtrc_define.h:795-828)
  | user (eid : Nat) (items : List UItem)
  deriving DecidableEq, Repr

/-- `GRPLSH(grp)` (rkhtrc_define.h:267-269) plus the event's number in the group (rkhtrc_define.h:342-488). -/
def te (grp n : Nat) : Byte := BitVec.ofNat 8 (grp <<< 5 + n)

/-- `RKH_TE_*` of each trace point (rkhtrc_define.h:342-488). `rkh_trc_state` chooses between two events
(rkhtrc_record.c:214-216). -/
def Pt.eid : Pt → Byte
  | .mpInit .. => te 0 0
  | .mpGet .. => te 0 1
  | .mpPut .. => te 0 2
  | .queInit .. => te 1 0
  | .queGet .. => te 1 1
  | .queFifo .. => te 1 2
  | .queLifo .. => te 1 3
  | .queFull .. => te 1 4
  | .queDpt .. => te 1 5
  | .queGetLast .. => te 1 6
  | .smaAct .. => te 2 0
  | .smaTerm .. => te 2 1
  | .smaGet .. => te 2 2
  | .smaFifo .. => te 2 3
  | .smaLifo .. => te 2 4
  | .smaReg .. => te 2 5
  | .smaUnreg .. => te 2 6
  | .smaDefer .. => te 2 7
  | .smaRcall .. => te 2 8
  | .smInit .. => te 3 0
  | .smClrh .. => te 3 1
  | .smTrn .. => te 3 2
  | .smState .. => te 3 3
  | .smEnstate .. => te 3 4
  | .smExstate .. => te 3 5
  | .smNenex .. => te 3 6
  | .smNtrnact .. => te 3 7
  | .smTsState .. => te 3 8
  | .smEvtProc .. => te 3 9
  | .smEvtNfound .. => te 3 10
  | .smGrdFalse .. => te 3 11
  | .smCndNfound .. => te 3 12
  | .smUnknState .. => te 3 13
  | .smExHlevel .. => te 3 14
  | .smExTseg .. => te 3 15
  | .smExeAct .. => te 3 16
  | .smDch .. => te 3 17
  | .tmrInit .. => te 4 0
  | .tmrStart .. => te 4 1
  | .tmrStop .. => te 4 2
  | .tmrTout .. => te 4 3
  | .tmrRem .. => te 4 4
  | .fwkEn => te 5 0
  | .fwkEx => te 5 1
  | .fwkEpreg .. => te 5 2
  | .fwkAe .. => te 5 3
  | .fwkGc .. => te 5 4
  | .fwkGcr .. => te 5 5
  | .fwkObj .. => te 5 6
  | .fwkSig .. => te 5 7
  | .fwkFun .. => te 5 8
  | .fwkExeFun .. => te 5 9
  | .fwkSyncEvt .. => te 5 10
  | .fwkTusr .. => te 5 11
  | .fwkTcfg .. => te 5 12
  | .fwkAssert .. => te 5 13
  | .fwkAo .. => te 5 14
  | .fwkState _ _ regular _ => if regular then te 5 15 else te 5 16
  | .fwkTimer .. => te 5 17
  | .fwkEpool .. => te 5 18
  | .fwkQueue .. => te 5 19
  | .fwkActor .. => te 5 20
  | .user e _ => BitVec.ofNat 8 e

/-- Which `RKH_TRC_BEGIN…` macro opens the record (rkhtrc_record.h:88-1850); the variants with and without critical
section are the same here. With run-time filters disabled none applies
(rkhtrc_define.h:675-710), except that user traces always ask for the filter (rkhtrc_define.h:799-804), which then does
not exist (rkhtrc_filter.c:56). -/
def Pt.kind (k : PCfg) (p : Pt) : Kind :=
  if !k.rtfilEn then
    match p with
    | .fwkTcfg _ => .dft
    | .user .. => .woAoSig
    | _ => .woFil
  else
    match p with
    | .smaAct ao .. | .smaTerm ao .. | .smaReg ao .. | .smaUnreg ao .. => .woSig ao.prio
    | .smaGet ao e .. | .smaFifo ao e .. | .smaLifo ao e .. => .full ao.prio e.sig
    | .smInit ao _ | .smClrh ao _ | .smState ao _ | .smEnstate ao _ | .smExstate ao _ | .smTsState ao _ => .woSig ao.prio
    | .smTrn ao .. | .smNenex ao .. | .smNtrnact ao .. => .woSig ao.prio
    | .smEvtProc ao | .smGrdFalse ao | .smCndNfound ao | .smUnknState ao | .smExHlevel ao | .smExTseg ao => .woSig ao.prio
    | .smExeAct _ ao .. => .woSig ao.prio
    | .smDch ao e _ | .smEvtNfound ao e => .full ao.prio e.sig
    | .tmrTout _ s ao => .full ao.prio s
    | .fwkTcfg _ => .dft
    | .fwkObj .. | .fwkSig .. | .fwkFun .. | .fwkExeFun .. | .fwkSyncEvt .. | .fwkTusr .. | .fwkAo .. | .fwkState ..
    | .fwkTimer .. | .fwkEpool .. | .fwkQueue .. | .fwkActor .. => .woFil
    | _ => .woAoSig

/-- One bit of the option word: `((rui32_t)OPT << i)` (rkhtrc_record.h:1531-1548). -/
def bit (b : Bool) (i : Nat) : BitVec 32 := (if b then 1#32 else 0#32) <<< i

/-- The option word of `RKH_TR_FWK_TCFG` (rkhtrc_record.h:1530-1548). -/
def options (k : PCfg) : BitVec 32 :=
  bit k.sndrEn 0 ||| bit k.rtfilEn 1 ||| bit k.userEn 2 ||| bit k.allEn 3 ||| bit k.mpEn 4 ||| bit k.queEn 5 |||
  bit k.smaEn 6 ||| bit k.tmrEn 7 ||| bit k.smEn 8 ||| bit k.fwkEn 9 ||| bit k.assertEn 10 ||| bit k.queLwmEn 11 |||
  bit k.mpLwmEn 12 ||| bit k.rtfilSmaEn 13 ||| bit k.rtfilSigEn 14 ||| bit k.nseqEn 15 ||| bit k.tstampEn 16 |||
  bit k.chkEn 17

/-- `(rui8_t)((hi / 8 << 4) | lo)` (rkhtrc_record.h:1550-1563). -/
def nibbles (hi lo : Nat) : Field := ui8 (hi <<< 4 ||| lo)

/-- The inserts of each trace point (rkhtrc_record.h:88-1850, rkhtrc_record.c:180-222). -/
def Pt.fields (k : PCfg) : Pt → List Field
  | .mpInit p n b => [trcSym k p, trcNblk k n, trcBsize k b]
  | .mpGet p n m => [trcSym k p, trcNblk k n] ++ trcMpNmin k m
  | .mpPut p n => [trcSym k p, trcNblk k n]
  | .queInit q a n => [trcSym k q, trcSym k a, trcNe k n]
  | .queGet q n => [trcSym k q, trcNe k n]
  | .queFifo q n m => [trcSym k q, trcNe k n] ++ trcQueNmin k m
  | .queLifo q n m => [trcSym k q, trcNe k n] ++ trcQueNmin k m
  | .queFull q => [trcSym k q]
  | .queDpt q => [trcSym k q]
  | .queGetLast q => [trcSym k q]
  | .smaAct ao p s => [trcSym k ao.addr, ui8 p, ui8 s]
  | .smaTerm ao p => [trcSym k ao.addr, ui8 p]
  | .smaGet ao e p r n m => [trcSym k ao.addr, trcSig k e.sig, ui8 p, ui8 r, trcNe k n] ++ trcQueNmin k m
  | .smaFifo ao e s p r n m =>
    [trcSym k ao.addr, trcSig k e.sig] ++ trcSndr k s ++ [ui8 p, ui8 r, trcNe k n] ++ trcQueNmin k m
  | .smaLifo ao e s p r n m =>
    [trcSym k ao.addr, trcSig k e.sig] ++ trcSndr k s ++ [ui8 p, ui8 r, trcNe k n] ++ trcQueNmin k m
  | .smaReg ao p => [trcSym k ao.addr, ui8 p]
  | .smaUnreg ao p => [trcSym k ao.addr, ui8 p]
  | .smaDefer q e => [trcSym k q, trcSig k e.sig]
  | .smaRcall ao e => [trcSym k ao.addr, trcSig k e.sig]
  | .smInit ao s => [trcSym k ao.addr, trcSym k s]
  | .smClrh ao h => [trcSym k ao.addr, trcSym k h]
  | .smDch ao e s => [trcSym k ao.addr, trcSig k e.sig, trcSym k s]
  | .smTrn ao s t => [trcSym k ao.addr, trcSym k s, trcSym k t]
  | .smState ao s => [trcSym k ao.addr, trcSym k s]
  | .smEnstate ao s => [trcSym k ao.addr, trcSym k s]
  | .smExstate ao s => [trcSym k ao.addr, trcSym k s]
  | .smNenex ao n x => [trcSym k ao.addr, ui8 n, ui8 x]
  | .smNtrnact ao a s => [trcSym k ao.addr, ui8 a, ui8 s]
  | .smTsState ao s => [trcSym k ao.addr, trcSym k s]
  | .smEvtProc ao => [trcSym k ao.addr]
  | .smEvtNfound ao e => [trcSym k ao.addr, trcSig k e.sig]
  | .smGrdFalse ao => [trcSym k ao.addr]
  | .smCndNfound ao => [trcSym k ao.addr]
  | .smUnknState ao => [trcSym k ao.addr]
  | .smExHlevel ao => [trcSym k ao.addr]
  | .smExTseg ao => [trcSym k ao.addr]
  | .smExeAct t ao s a => [ui8 t, trcSym k ao.addr, trcSym k s, trcFun k a]
  | .tmrInit t s => [trcSym k t, trcSig k s]
  | .tmrStart t ao n p => [trcSym k t, trcSym k ao.addr, trcNtick k n, trcNtick k p]
  | .tmrStop t n p => [trcSym k t, trcNtick k n, trcNtick k p]
  | .tmrTout t s ao => [trcSym k t, trcSig k s, trcSym k ao.addr]
  | .tmrRem t => [trcSym k t]
  | .fwkEn => []
  | .fwkEx => []
  | .fwkEpreg p ss es n => [ui8 p, ui32 ss, trcEs k es, trcNblk k n]
  | .fwkAe es e u m s =>
    [trcEs k es, trcSig k e.sig, ui8 (e.pool + 255), ui8 e.nref, trcNblk k u] ++ trcMpNmin k m ++ [trcSym k s]
  | .fwkGc e p r => [trcSig k e.sig, ui8 p, ui8 r]
  | .fwkGcr e u m s => [trcSig k e.sig, ui8 (e.pool + 255), ui8 e.nref, trcNblk k u] ++ trcMpNmin k m ++ [trcSym k s]
  | .fwkObj o nm => [trcSym k o, .str nm]
  | .fwkSig s nm => [trcSig k s, .str nm]
  | .fwkFun f nm => [trcSym k f, .str nm]
  | .fwkExeFun f => [trcFun k f]
  | .fwkSyncEvt f s r => [trcFun k f] ++ trcSndr k s ++ trcSndr k r
  | .fwkTusr e nm => [ui8 (e + (256 - 6 <<< 5)), .str nm]
  | .fwkTcfg ts =>
    [ui16 k.version, .u32 (options k), nibbles k.evt.bytes k.tstamp.bytes, nibbles k.ptr.bytes k.ntimer.bytes,
     nibbles k.nblock.bytes k.nelem.bytes, ui8 k.evtSize.bytes, nibbles k.bsize.bytes k.maxEvtPool, ui16 ts]
  | .fwkAssert m l => [.str m, ui16 l]
  | .fwkAo ao nm => [trcSym k ao.addr, .str nm]
  | .fwkState ao s _ nm => [trcSym k ao.addr, trcSym k s, .str nm]
  | .fwkTimer t nm => [trcSym k t, .str nm]
  | .fwkEpool p nm => [ui8 p, .str nm]
  | .fwkQueue q nm => [trcSym k q, .str nm]
  | .fwkActor a nm => [trcSym k a, .str nm]
  | .user _ items => items.map (usrField k)

/-- Whether the trace point is compiled in (the `#if`s of rkhtrc_record.h); otherwise it expands to `(void)0`. -/
def Pt.compiled (k : PCfg) : Pt → Bool
  | .mpInit .. | .mpGet .. | .mpPut .. => k.allEn || k.mpEn
  | .queInit .. | .queGet .. | .queFifo .. | .queLifo .. | .queFull .. | .queDpt .. | .queGetLast .. => k.allEn || k.queEn
  | .smaAct .. | .smaTerm .. | .smaGet .. | .smaFifo .. | .smaLifo .. | .smaReg .. | .smaUnreg .. | .smaDefer ..
  | .smaRcall .. => k.allEn || k.smaEn
  | .smInit .. => (k.allEn || k.smEn) && k.smInitEn
  | .smClrh .. => (k.allEn || k.smEn) && k.smClrhEn
  | .smDch .. => (k.allEn || k.smEn) && k.smDchEn
  | .smTrn .. => (k.allEn || k.smEn) && k.smTrnEn
  | .smState .. => (k.allEn || k.smEn) && k.smStateEn
  | .smEnstate .. => (k.allEn || k.smEn) && k.smEnstateEn
  | .smExstate .. => (k.allEn || k.smEn) && k.smExstateEn
  | .smNenex .. => (k.allEn || k.smEn) && k.smNenexEn
  | .smNtrnact .. => (k.allEn || k.smEn) && k.smNtrnactEn
  | .smTsState .. => (k.allEn || k.smEn) && k.smTsStateEn
  | .smEvtProc .. | .smEvtNfound .. | .smGrdFalse .. | .smCndNfound .. | .smUnknState .. | .smExHlevel .. | .smExTseg .. =>
    (k.allEn || k.smEn) && k.smProcessEn
  | .smExeAct .. => (k.allEn || k.smEn) && k.smExeActEn
  | .tmrInit .. | .tmrStart .. | .tmrStop .. | .tmrTout .. | .tmrRem .. => k.allEn || k.tmrEn
  | .fwkAssert .. => (k.allEn || k.fwkEn) && k.assertEn
  | .user .. => k.userEn
  | _ => k.allEn || k.fwkEn

/-- A trace point as a call on the trace facility; `ts` is the value of `rkh_trc_getts()`. -/
def Pt.op (k : PCfg) (p : Pt) (ts : BitVec 32) : Op := .trace (p.kind k) p.eid ts (p.fields k)

/-! ## Where the framework reports the use of event pools -/

/-- The counters of a memory pool the event pool functions read (source/fwk/src/rkhfwk_evtpool.c:138-158). -/
structure Pool where
  nblocks : Nat
  nfree : Nat
  nmin : Nat
  deriving DecidableEq, Repr

/-- `rkh_evtPool_getNumUsed` (rkhfwk_evtpool.c:138-143), returns `rui8_t`. -/
def Pool.numUsed (p : Pool) : Nat := (p.nblocks - p.nfree) % 256
/-- `rkh_evtPool_getNumMin` (rkhfwk_evtpool.c:145-151), returns `rui8_t`. -/
def Pool.numMin (p : Pool) : Nat := p.nmin % 256
/-- `rkh_evtPool_getNumBlock` (rkhfwk_evtpool.c:153-158), returns `rui8_t`. -/
def Pool.numBlock (p : Pool) : Nat := p.nblocks % 256

/-- The trace point in `rkh_fwk_registerEvtPool` (source/fwk/src/rkhfwk_dynevt.c:166-168): `n` is `nextFreeEvtPool`
after the increment. -/
def epregPt (n ssize esize : Nat) (p : Pool) : Pt := .fwkEpreg n ssize esize p.numBlock

/-- The trace point in `rkh_fwk_ae` (rkhfwk_dynevt.c:143-152) for an event of the pool at index `i`; the pool's counters
are those after taking the block. -/
def aePt (esize sig i : Nat) (p : Pool) (sender : Nat) : Pt :=
  .fwkAe esize ⟨sig, (i + 1) % 256, 0⟩ p.numUsed p.numMin sender

/-- The trace point in `rkh_sma_post_fifo` (source/sma/src/rkhsma.c:180-181): `q` is the queue's `qty` and `nmin`. -/
def fifoPt (ao : Ao) (e : Ev) (sender qty nmin : Nat) : Pt := .smaFifo ao e sender e.pool e.nref qty nmin

/-- The trace point in `rkh_fwk_gc` (rkhfwk_dynevt.c:97-98) when references remain; `e` after the decrement. -/
def gcPt (e : Ev) : Pt := .fwkGc e e.pool e.nref

/-- The trace point in `rkh_fwk_gc` (rkhfwk_dynevt.c:107-108) when the event is recycled. `nUsed - 1` is computed in
`int`. -/
def gcrPt (e : Ev) (p : Pool) (sender : Nat) : Pt := .fwkGcr e (p.numUsed + (2 ^ 32 - 1)) p.numMin sender

/-- The trace point in `rkh_sma_activate` (source/sma/src/rkhsma.c:160). -/
def actPt (ao : Ao) (qsize : Nat) : Pt := .smaAct ao ao.prio qsize

end Verif.Trc
