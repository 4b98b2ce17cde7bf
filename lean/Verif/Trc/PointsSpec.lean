import Verif.Trc.Points
import Verif.Trc.Spec
/-
What a host program on the other end of the trace channel knows: the documented layout of the records
(the comments in source/trc/inc/rkhtrc_record.h), and the configuration announced by the record
`RKH_TE_FWK_TCFG`. Nothing here looks at how the trace points are implemented.
-/
namespace Verif.Trc.Spec
open Verif Verif.Trc

/-! ## The announcement -/

/-- Contents of a trace configuration record: version, option bits, sizes in bytes, number of event pools, time stamp
frequency. -/
structure Announced where
  version : Nat
  options : Nat
  evt : Nat
  tstamp : Nat
  ptr : Nat
  ntimer : Nat
  nblock : Nat
  nelem : Nat
  evtSize : Nat
  bsize : Nat
  maxEvtPool : Nat
  hz : Nat
  deriving DecidableEq, Repr

/-- Option number `i` is announced as enabled. -/
def Announced.has (a : Announced) (i : Nat) : Bool := a.options.testBit i

/-- Identifier of the trace configuration record. -/
def TCFG : Nat := 5 * 32 + 12

/-- A host reading a trace configuration record. Sizes come in pairs, the first one in the high nibble. The record ends
with a checksum byte if it announces checksums. -/
def readTcfg (m : List Byte) : Option Announced :=
  match parse [.int 1, .int 2, .int 4, .int 1, .int 1, .int 1, .int 1, .int 1, .int 2] m with
  | some ([.int id, .int version, .int options, .int s1, .int s2, .int s3, .int s4, .int s5, .int hz], rest) =>
    let a : Announced :=
      ⟨version, options, s1 / 16, s1 % 16, s2 / 16, s2 % 16, s3 / 16, s3 % 16, s4, s5 / 16, s5 % 16, hz⟩
    if id = TCFG ∧ (if a.has 17 then rest.length = 1 ∧ sum m = 0#8 else rest = []) then some a else none
  | _ => none

/-! ## The documented layout of the records -/

/-- The kinds of data in a record. `sndr`, `mpMin` and `queMin` are left out when the corresponding option is disabled. -/
inductive Slot where
  | u8 | u16 | u32
  | sym | fn | sig | sndr | nblk | mpMin | bsize | ne | queMin | ntick | es
  | text
  deriving DecidableEq, Repr

/-- Names and kinds of the parameters of each record. -/
def layout (id : Nat) : Option (List (String × Slot)) :=
  match id / 32, id % 32 with
  -- memory pool
  | 0, 0 => some [("memPool", .sym), ("nBlocks", .nblk), ("blockSize", .bsize)]
  | 0, 1 => some [("memPool", .sym), ("nFree", .nblk), ("nMin", .mpMin)]
  | 0, 2 => some [("memPool", .sym), ("nFree", .nblk)]
  -- queue
  | 1, 0 => some [("queue", .sym), ("actObj", .sym), ("nElem", .ne)]
  | 1, 1 => some [("queue", .sym), ("nElem", .ne)]
  | 1, 2 => some [("queue", .sym), ("nElem", .ne), ("nMin", .queMin)]
  | 1, 3 => some [("queue", .sym), ("nElem", .ne), ("nMin", .queMin)]
  | 1, 4 => some [("queue", .sym)]
  | 1, 5 => some [("queue", .sym)]
  | 1, 6 => some [("queue", .sym)]
  -- active object
  | 2, 0 => some [("actObj", .sym), ("prio", .u8), ("queSize", .u8)]
  | 2, 1 => some [("actObj", .sym), ("prio", .u8)]
  | 2, 2 => some [("actObj", .sym), ("evt", .sig), ("poolID", .u8), ("refCntr", .u8), ("nElem", .ne), ("nMin", .queMin)]
  | 2, 3 => some [("actObj", .sym), ("evt", .sig), ("sender", .sndr), ("poolID", .u8), ("refCntr", .u8), ("nElem", .ne),
                  ("nMin", .queMin)]
  | 2, 4 => some [("actObj", .sym), ("evt", .sig), ("sender", .sndr), ("poolID", .u8), ("refCntr", .u8), ("nElem", .ne),
                  ("nMin", .queMin)]
  | 2, 5 => some [("actObj", .sym), ("prio", .u8)]
  | 2, 6 => some [("actObj", .sym), ("prio", .u8)]
  | 2, 7 => some [("queue", .sym), ("evt", .sig)]
  | 2, 8 => some [("actObj", .sym), ("evt", .sig)]
  -- state machine
  | 3, 0 => some [("actObj", .sym), ("initState", .sym)]
  | 3, 1 => some [("actObj", .sym), ("history", .sym)]
  | 3, 2 => some [("actObj", .sym), ("sourceState", .sym), ("targetState", .sym)]
  | 3, 3 => some [("actObj", .sym), ("state", .sym)]
  | 3, 4 => some [("actObj", .sym), ("state", .sym)]
  | 3, 5 => some [("actObj", .sym), ("state", .sym)]
  | 3, 6 => some [("actObj", .sym), ("nEnState", .u8), ("nExState", .u8)]
  | 3, 7 => some [("actObj", .sym), ("nta", .u8), ("nts", .u8)]
  | 3, 8 => some [("actObj", .sym), ("state", .sym)]
  | 3, 9 => some [("actObj", .sym)]
  | 3, 10 => some [("actObj", .sym), ("evt", .sig)]
  | 3, 11 => some [("actObj", .sym)]
  | 3, 12 => some [("actObj", .sym)]
  | 3, 13 => some [("actObj", .sym)]
  | 3, 14 => some [("actObj", .sym)]
  | 3, 15 => some [("actObj", .sym)]
  | 3, 16 => some [("actionType", .u8), ("actObj", .sym), ("state", .sym), ("action", .fn)]
  | 3, 17 => some [("actObj", .sym), ("evt", .sig), ("state", .sym)]
  -- timer
  | 4, 0 => some [("timer", .sym), ("signal", .sig)]
  | 4, 1 => some [("timer", .sym), ("actObj", .sym), ("nTicks", .ntick), ("period", .ntick)]
  | 4, 2 => some [("timer", .sym), ("nTicks", .ntick), ("period", .ntick)]
  | 4, 3 => some [("timer", .sym), ("signal", .sig), ("actObj", .sym)]
  | 4, 4 => some [("timer", .sym)]
  -- framework
  | 5, 0 => some []
  | 5, 1 => some []
  | 5, 2 => some [("evtPool", .u8), ("storageSize", .u32), ("evtSize", .es), ("poolSize", .nblk)]
  | 5, 3 => some [("evtSize", .es), ("evt", .sig), ("pool", .u8), ("nref", .u8), ("nUsed", .nblk), ("nMin", .mpMin),
                  ("sender", .sym)]
  | 5, 4 => some [("evt", .sig), ("pool", .u8), ("refCnt", .u8)]
  | 5, 5 => some [("evt", .sig), ("pool", .u8), ("nref", .u8), ("nUsed", .nblk), ("nMin", .mpMin), ("sender", .sym)]
  | 5, 6 => some [("obj", .sym), ("name", .text)]
  | 5, 7 => some [("sig", .sig), ("name", .text)]
  | 5, 8 => some [("function", .sym), ("name", .text)]
  | 5, 9 => some [("function", .fn)]
  | 5, 10 => some [("function", .fn), ("senderObj", .sndr), ("receiverObj", .sndr)]
  | 5, 11 => some [("event", .u8), ("name", .text)]
  | 5, 12 => some [("version", .u16), ("options", .u32), ("sizes1", .u8), ("sizes2", .u8), ("sizes3", .u8),
                   ("sizes4", .u8), ("sizes5", .u8), ("hz", .u16)]
  | 5, 13 => some [("module", .text), ("line", .u16)]
  | 5, 14 => some [("actObj", .sym), ("name", .text)]
  | 5, 15 => some [("actObj", .sym), ("state", .sym), ("name", .text)]
  | 5, 16 => some [("actObj", .sym), ("state", .sym), ("name", .text)]
  | 5, 17 => some [("timer", .sym), ("name", .text)]
  | 5, 18 => some [("poolId", .u8), ("name", .text)]
  | 5, 19 => some [("queue", .sym), ("name", .text)]
  | 5, 20 => some [("actor", .sym), ("name", .text)]
  | _, _ => none

/-- How a host reads each kind of datum, given the announcement. Function addresses have no announced size of their own;
a host can only take the one of data addresses. -/
def slotTy (a : Announced) : Slot → List Ty
  | .u8 => [.int 1]
  | .u16 => [.int 2]
  | .u32 => [.int 4]
  | .sym => [.int a.ptr]
  | .fn => [.int a.ptr]
  | .sig => [.int a.evt]
  | .sndr => if a.has 0 then [.int a.ptr] else []
  | .nblk => [.int a.nblock]
  | .mpMin => if a.has 12 then [.int a.nblock] else []
  | .bsize => [.int a.bsize]
  | .ne => [.int a.nelem]
  | .queMin => if a.has 11 then [.int a.nelem] else []
  | .ntick => [.int a.ntimer]
  | .es => [.int a.evtSize]
  | .text => [.text]

/-! ## User traces are self-describing -/

/-- A value in a user trace, `w` is the display width. -/
inductive UVal where
  | int (w : Nat) (z : Int)
  | nat (w : Nat) (n : Nat)
  | hex (w : Nat) (n : Nat)
  | text (s : List Byte)
  | blob (s : List Byte)
  | obj (n : Nat)
  | fn (n : Nat)
  | sig (n : Nat)
  deriving DecidableEq, Repr

/-- Two's complement. -/
def signed (bits n : Nat) : Int := if n < 2 ^ (bits - 1) then n else (n : Int) - 2 ^ bits

/-- A host reading one value of a user trace: the low nibble of the first byte is the format, the high nibble the display
width. -/
def readItem (a : Announced) : List Byte → Option (UVal × List Byte)
  | [] => none
  | b :: bs =>
    let w := b.toNat / 16
    let num (k : Nat) (f : Nat → UVal) : Option (UVal × List Byte) :=
      match parse1 (.int k) bs with
      | some (.int n, rest) => some (f n, rest)
      | _ => none
    match b.toNat % 16 with
    | 0 => num 1 fun n => .int w (signed 8 n)
    | 1 => num 1 (.nat w)
    | 2 => num 2 fun n => .int w (signed 16 n)
    | 3 => num 2 (.nat w)
    | 4 => num 4 fun n => .int w (signed 32 n)
    | 5 => num 4 (.nat w)
    | 6 => num 4 (.hex w)
    | 7 => match parse1 .text bs with | some (.text s, rest) => some (.text s, rest) | _ => none
    | 8 => match parse1 .blob bs with | some (.blob s, rest) => some (.blob s, rest) | _ => none
    | 9 => num a.ptr .obj
    | 10 => num a.ptr .fn
    | 11 => num a.evt .sig
    | _ => none

/-- A host reading values until there are no bytes left; the first argument bounds the number of values. -/
def readItems (a : Announced) : Nat → List Byte → Option (List UVal)
  | _, [] => some []
  | 0, _ :: _ => none
  | n + 1, b :: bs =>
    match readItem a (b :: bs) with
    | none => none
    | some (v, rest) =>
      match readItems a n rest with
      | none => none
      | some vs => some (v :: vs)

/-! ## Decoding a record -/

/-- A decoded record: identifier, sequence number and time stamp if the configuration has them, the named parameters of a
record of the framework, or the values of a user trace. -/
structure Decoded where
  id : Nat
  seq : Option Nat
  time : Option Nat
  args : List (String × Val)
  items : List UVal
  deriving DecidableEq, Repr

/-- Names of the parameters that are present. -/
def names (a : Announced) (l : List (String × Slot)) : List String := l.flatMap fun x => (slotTy a x.2).map fun _ => x.1

/-- A number in front, if present. -/
def optInt (present : Bool) (k : Nat) (bs : List Byte) : Option (Option Nat × List Byte) :=
  if present then
    match parse1 (.int k) bs with
    | some (.int n, rest) => some (some n, rest)
    | _ => none
  else some (none, bs)

/-- The parameters of a record; all bytes must be used up. -/
def decodeArgs (a : Announced) (id : Nat) (seq time : Option Nat) (bs : List Byte) : Option Decoded :=
  if id / 32 = 6 then (readItems a bs.length bs).map fun vs => ⟨id, seq, time, [], vs⟩
  else
    match layout id with
    | none => none
    | some l =>
      match parse (l.flatMap fun x => slotTy a x.2) bs with
      | some (vs, []) => some ⟨id, seq, time, (names a l).zip vs, []⟩
      | _ => none

/-- A host decoding a received record. The checksum is verified and removed; the trace configuration record has no
sequence number and no time stamp. -/
def decode (a : Announced) (m : List Byte) : Option Decoded :=
  if a.has 17 && sum m ≠ 0#8 then none
  else
    match (if a.has 17 then m.dropLast else m) with
    | [] => none
    | b :: bs =>
      if b.toNat = TCFG then decodeArgs a b.toNat none none bs
      else
        match optInt (a.has 15) 1 bs with
        | none => none
        | some (seq, bs) =>
          match optInt (a.has 16) a.tstamp bs with
          | none => none
          | some (time, bs) => decodeArgs a b.toNat seq time bs

/-- A host decoding a sequence of records. -/
def decodeAll (a : Announced) : List (List Byte) → Option (List Decoded)
  | [] => some []
  | m :: ms =>
    match decode a m, decodeAll a ms with
    | some d, some ds => some (d :: ds)
    | _, _ => none

/-- A host that has nothing but the received records: the first one announces the configuration. -/
def host : List (List Byte) → Option (Announced × List Decoded)
  | [] => none
  | m :: ms =>
    match readTcfg m with
    | none => none
    | some a => (decodeAll a ms).map fun ds => (a, ds)

/-! ## What the program passes to a trace point -/

/-- Identifier (group and number), and the named arguments of a trace point, as numbers and strings. `pool` of an
allocation or recycling record counts from zero. -/
def says : Pt → Nat × List (String × Slot × Val)
  | .mpInit p n b => (0, [("memPool", .sym, .int p), ("nBlocks", .nblk, .int n), ("blockSize", .bsize, .int b)])
  | .mpGet p n m => (1, [("memPool", .sym, .int p), ("nFree", .nblk, .int n), ("nMin", .mpMin, .int m)])
  | .mpPut p n => (2, [("memPool", .sym, .int p), ("nFree", .nblk, .int n)])
  | .queInit q a n => (32, [("queue", .sym, .int q), ("actObj", .sym, .int a), ("nElem", .ne, .int n)])
  | .queGet q n => (33, [("queue", .sym, .int q), ("nElem", .ne, .int n)])
  | .queFifo q n m => (34, [("queue", .sym, .int q), ("nElem", .ne, .int n), ("nMin", .queMin, .int m)])
  | .queLifo q n m => (35, [("queue", .sym, .int q), ("nElem", .ne, .int n), ("nMin", .queMin, .int m)])
  | .queFull q => (36, [("queue", .sym, .int q)])
  | .queDpt q => (37, [("queue", .sym, .int q)])
  | .queGetLast q => (38, [("queue", .sym, .int q)])
  | .smaAct ao p s => (64, [("actObj", .sym, .int ao.addr), ("prio", .u8, .int p), ("queSize", .u8, .int s)])
  | .smaTerm ao p => (65, [("actObj", .sym, .int ao.addr), ("prio", .u8, .int p)])
  | .smaGet ao e p r n m =>
    (66, [("actObj", .sym, .int ao.addr), ("evt", .sig, .int e.sig), ("poolID", .u8, .int p), ("refCntr", .u8, .int r),
          ("nElem", .ne, .int n), ("nMin", .queMin, .int m)])
  | .smaFifo ao e s p r n m =>
    (67, [("actObj", .sym, .int ao.addr), ("evt", .sig, .int e.sig), ("sender", .sndr, .int s), ("poolID", .u8, .int p),
          ("refCntr", .u8, .int r), ("nElem", .ne, .int n), ("nMin", .queMin, .int m)])
  | .smaLifo ao e s p r n m =>
    (68, [("actObj", .sym, .int ao.addr), ("evt", .sig, .int e.sig), ("sender", .sndr, .int s), ("poolID", .u8, .int p),
          ("refCntr", .u8, .int r), ("nElem", .ne, .int n), ("nMin", .queMin, .int m)])
  | .smaReg ao p => (69, [("actObj", .sym, .int ao.addr), ("prio", .u8, .int p)])
  | .smaUnreg ao p => (70, [("actObj", .sym, .int ao.addr), ("prio", .u8, .int p)])
  | .smaDefer q e => (71, [("queue", .sym, .int q), ("evt", .sig, .int e.sig)])
  | .smaRcall ao e => (72, [("actObj", .sym, .int ao.addr), ("evt", .sig, .int e.sig)])
  | .smInit ao s => (96, [("actObj", .sym, .int ao.addr), ("initState", .sym, .int s)])
  | .smClrh ao h => (97, [("actObj", .sym, .int ao.addr), ("history", .sym, .int h)])
  | .smTrn ao s t =>
    (98, [("actObj", .sym, .int ao.addr), ("sourceState", .sym, .int s), ("targetState", .sym, .int t)])
  | .smState ao s => (99, [("actObj", .sym, .int ao.addr), ("state", .sym, .int s)])
  | .smEnstate ao s => (100, [("actObj", .sym, .int ao.addr), ("state", .sym, .int s)])
  | .smExstate ao s => (101, [("actObj", .sym, .int ao.addr), ("state", .sym, .int s)])
  | .smNenex ao n x => (102, [("actObj", .sym, .int ao.addr), ("nEnState", .u8, .int n), ("nExState", .u8, .int x)])
  | .smNtrnact ao a s => (103, [("actObj", .sym, .int ao.addr), ("nta", .u8, .int a), ("nts", .u8, .int s)])
  | .smTsState ao s => (104, [("actObj", .sym, .int ao.addr), ("state", .sym, .int s)])
  | .smEvtProc ao => (105, [("actObj", .sym, .int ao.addr)])
  | .smEvtNfound ao e => (106, [("actObj", .sym, .int ao.addr), ("evt", .sig, .int e.sig)])
  | .smGrdFalse ao => (107, [("actObj", .sym, .int ao.addr)])
  | .smCndNfound ao => (108, [("actObj", .sym, .int ao.addr)])
  | .smUnknState ao => (109, [("actObj", .sym, .int ao.addr)])
  | .smExHlevel ao => (110, [("actObj", .sym, .int ao.addr)])
  | .smExTseg ao => (111, [("actObj", .sym, .int ao.addr)])
  | .smExeAct t ao s a =>
    (112, [("actionType", .u8, .int t), ("actObj", .sym, .int ao.addr), ("state", .sym, .int s), ("action", .fn, .int a)])
  | .smDch ao e s => (113, [("actObj", .sym, .int ao.addr), ("evt", .sig, .int e.sig), ("state", .sym, .int s)])
  | .tmrInit t s => (128, [("timer", .sym, .int t), ("signal", .sig, .int s)])
  | .tmrStart t ao n p =>
    (129, [("timer", .sym, .int t), ("actObj", .sym, .int ao.addr), ("nTicks", .ntick, .int n), ("period", .ntick, .int p)])
  | .tmrStop t n p => (130, [("timer", .sym, .int t), ("nTicks", .ntick, .int n), ("period", .ntick, .int p)])
  | .tmrTout t s ao => (131, [("timer", .sym, .int t), ("signal", .sig, .int s), ("actObj", .sym, .int ao.addr)])
  | .tmrRem t => (132, [("timer", .sym, .int t)])
  | .fwkEn => (160, [])
  | .fwkEx => (161, [])
  | .fwkEpreg p ss es n =>
    (162, [("evtPool", .u8, .int p), ("storageSize", .u32, .int ss), ("evtSize", .es, .int es), ("poolSize", .nblk, .int n)])
  | .fwkAe es e u m s =>
    (163, [("evtSize", .es, .int es), ("evt", .sig, .int e.sig), ("pool", .u8, .int (e.pool + 255)), ("nref", .u8, .int e.nref),
           ("nUsed", .nblk, .int u), ("nMin", .mpMin, .int m), ("sender", .sym, .int s)])
  | .fwkGc e p r => (164, [("evt", .sig, .int e.sig), ("pool", .u8, .int p), ("refCnt", .u8, .int r)])
  | .fwkGcr e u m s =>
    (165, [("evt", .sig, .int e.sig), ("pool", .u8, .int (e.pool + 255)), ("nref", .u8, .int e.nref), ("nUsed", .nblk, .int u),
           ("nMin", .mpMin, .int m), ("sender", .sym, .int s)])
  | .fwkObj o nm => (166, [("obj", .sym, .int o), ("name", .text, .text (cstr nm))])
  | .fwkSig s nm => (167, [("sig", .sig, .int s), ("name", .text, .text (cstr nm))])
  | .fwkFun f nm => (168, [("function", .sym, .int f), ("name", .text, .text (cstr nm))])
  | .fwkExeFun f => (169, [("function", .fn, .int f)])
  | .fwkSyncEvt f s r => (170, [("function", .fn, .int f), ("senderObj", .sndr, .int s), ("receiverObj", .sndr, .int r)])
  | .fwkTusr e nm => (171, [("event", .u8, .int (e + 64)), ("name", .text, .text (cstr nm))])
  | .fwkTcfg _ => (172, [])
  | .fwkAssert m l => (173, [("module", .text, .text (cstr m)), ("line", .u16, .int l)])
  | .fwkAo ao nm => (174, [("actObj", .sym, .int ao.addr), ("name", .text, .text (cstr nm))])
  | .fwkState ao s regular nm =>
    (if regular then 175 else 176,
      [("actObj", .sym, .int ao.addr), ("state", .sym, .int s), ("name", .text, .text (cstr nm))])
  | .fwkTimer t nm => (177, [("timer", .sym, .int t), ("name", .text, .text (cstr nm))])
  | .fwkEpool p nm => (178, [("poolId", .u8, .int p), ("name", .text, .text (cstr nm))])
  | .fwkQueue q nm => (179, [("queue", .sym, .int q), ("name", .text, .text (cstr nm))])
  | .fwkActor a nm => (180, [("actor", .sym, .int a), ("name", .text, .text (cstr nm))])
  | .user e _ => (e, [])

/-- Size in bytes the configuration gives to each kind of number. -/
def size (k : PCfg) : Slot → Nat
  | .u8 => 1
  | .u16 => 2
  | .u32 => 4
  | .sym => k.ptr.bytes
  | .fn => k.funPtr.bytes
  | .sig => k.evt.bytes
  | .sndr => k.ptr.bytes
  | .nblk => k.nblock.bytes
  | .mpMin => k.nblock.bytes
  | .bsize => k.bsize.bytes
  | .ne => k.nelem.bytes
  | .queMin => k.nelem.bytes
  | .ntick => k.ntimer.bytes
  | .es => k.evtSize.bytes
  | .text => 0

/-- Whether the configuration includes the kind of datum. -/
def present (k : PCfg) : Slot → Bool
  | .sndr => k.sndrEn
  | .mpMin => k.mpLwmEn
  | .queMin => k.queLwmEn
  | _ => true

/-- A value as an unsigned number of `b` bytes. -/
def cut (b : Nat) : Val → Val
  | .int n => .int (n % 256 ^ b)
  | v => v

/-- The arguments of a trace point as the configuration allows to transmit them. -/
def argsOf (k : PCfg) (p : Pt) : List (String × Val) :=
  (says p).2.flatMap fun x => if present k x.2.1 then [(x.1, cut (size k x.2.1) x.2.2)] else []

/-- The value a user trace item carries. -/
def itemOf (k : PCfg) : UItem → UVal
  | .i8 w d => .int (w % 16) d.toInt
  | .ui8 w d => .nat (w % 16) d.toNat
  | .i16 w d => .int (w % 16) d.toInt
  | .ui16 w d => .nat (w % 16) d.toNat
  | .i32 w d => .int (w % 16) d.toInt
  | .ui32 w d => .nat (w % 16) d.toNat
  | .x32 w d => .hex (w % 16) d.toNat
  | .str m => .text (cstr m)
  | .mem m n => .blob (m.take n)
  | .obj a => .obj (a % 256 ^ k.ptr.bytes)
  | .fn a => .fn (a % 256 ^ k.funPtr.bytes)
  | .sig s => .sig (s % 256 ^ k.evt.bytes)

/-- The values of a user trace. -/
def itemsOf (k : PCfg) : Pt → List UVal
  | .user _ items => items.map (itemOf k)
  | _ => []

/-- Not the announcement itself. -/
def Ordinary (p : Pt) : Prop := ∀ hz, p ≠ .fwkTcfg hz

/-- What a host should make of a trace point executed with time stamp `ts` and sequence number `n`. -/
def meaning (k : PCfg) (n : Byte) (p : Pt) (ts : BitVec 32) : Decoded :=
  ⟨(says p).1, if k.nseqEn then some n.toNat else none,
   if k.tstampEn then some (ts.toNat % 256 ^ k.tstamp.bytes) else none, argsOf k p, itemsOf k p⟩

/-- Strings are terminated. -/
def StrOk : Pt → Prop
  | .fwkObj _ nm | .fwkSig _ nm | .fwkFun _ nm | .fwkTusr _ nm | .fwkAssert nm _ | .fwkAo _ nm | .fwkState _ _ _ nm
  | .fwkTimer _ nm | .fwkEpool _ nm | .fwkQueue _ nm | .fwkActor _ nm => 0#8 ∈ nm
  | _ => True

/-- Arguments of user traces: terminated strings, memory blocks of at most 255 bytes. -/
def ItemOk : UItem → Prop
  | .str m => 0#8 ∈ m
  | .mem m n => n ≤ 255 ∧ n ≤ m.length
  | _ => True

/-- User trace events are those of the user group. -/
def UserOk : Pt → Prop
  | .user e items => 192 ≤ e ∧ e < 224 ∧ ∀ i ∈ items, ItemOk i
  | _ => True

/-- Arguments the documentation allows. -/
def PtOk (p : Pt) : Prop := StrOk p ∧ UserOk p

/-! ## Histories -/

/-- What the program does: execute a trace point with some time stamp, or control the filters or read the stream. -/
inductive Act where
  | pt (p : Pt) (ts : BitVec 32)
  | ctl (op : Op)
  deriving DecidableEq, Repr

/-- The calls made on the trace facility: trace points that are not compiled in make none. -/
def calls (k : PCfg) : Act → List Op
  | .pt p ts => if p.compiled k then [p.op k ts] else []
  | .ctl op => [op]

/-! ## Which trace points leave a record -/

/-- The switch `RKH_CFG_TRC_…_EN` of a state machine record, by its number in the group. -/
def smSwitch (k : PCfg) : Nat → Bool
  | 0 => k.smInitEn
  | 1 => k.smClrhEn
  | 2 => k.smTrnEn
  | 3 => k.smStateEn
  | 4 => k.smEnstateEn
  | 5 => k.smExstateEn
  | 6 => k.smNenexEn
  | 7 => k.smNtrnactEn
  | 8 => k.smTsStateEn
  | 16 => k.smExeActEn
  | 17 => k.smDchEn
  | _ => k.smProcessEn

/-- Whether the configuration includes the record: the switch of its group, or the one for all groups, and the
individual switch of state machine records and of the assertion record. -/
def included (k : PCfg) (id : Nat) : Bool :=
  match id / 32 with
  | 0 => k.allEn || k.mpEn
  | 1 => k.allEn || k.queEn
  | 2 => k.allEn || k.smaEn
  | 3 => (k.allEn || k.smEn) && smSwitch k (id % 32)
  | 4 => k.allEn || k.tmrEn
  | 5 => (k.allEn || k.fwkEn) && (id != 173 || k.assertEn)
  | _ => k.userEn

/-- The active object a record is about, if it may be filtered by it. -/
def aoOf : Pt → Option Nat
  | .smaAct ao .. | .smaTerm ao .. | .smaReg ao .. | .smaUnreg ao .. | .smaGet ao .. | .smaFifo ao .. | .smaLifo ao ..
  | .smInit ao .. | .smClrh ao .. | .smDch ao .. | .smTrn ao .. | .smState ao .. | .smEnstate ao .. | .smExstate ao ..
  | .smNenex ao .. | .smNtrnact ao .. | .smTsState ao .. | .smEvtProc ao | .smEvtNfound ao .. | .smGrdFalse ao
  | .smCndNfound ao | .smUnknState ao | .smExHlevel ao | .smExTseg ao | .smExeAct _ ao .. | .tmrTout _ _ ao => some ao.prio
  | _ => none

/-- The signal a record is about, if it may be filtered by it. -/
def sigOf : Pt → Option Nat
  | .smaGet _ e .. | .smaFifo _ e .. | .smaLifo _ e .. | .smDch _ e .. | .smEvtNfound _ e => some e.sig
  | .tmrTout _ s _ => some s
  | _ => none

/-- Records that give names to addresses and numbers are never filtered, nor are function calls and synchronous events. -/
def isSymbol (id : Nat) : Bool := 166 ≤ id && id ≤ 180 && id != 173

/-- Whether a trace point leaves a record: it is included and, with run-time filters, either gives a name, or its event,
its group, its active object and its signal are enabled. -/
def leaves (f : FCfg) (k : PCfg) (on : On) (p : Pt) : Bool :=
  let id := (says p).1
  let ao := (aoOf p).all fun prio => !f.smaEn || on.sma prio
  let sg := (sigOf p).all fun s => !f.sigEn || (s == f.compl || on.sig s)
  included k id && (!k.rtfilEn && id / 32 != 6 || isSymbol id || (on.grp (id / 32) && on.evt id && ao && sg))

/-- Legal arguments with respect to the filters: priority and signal within the tables. -/
def FilterOk (f : FCfg) (p : Pt) : Prop :=
  (∀ prio, aoOf p = some prio → SlotOk f .sma prio) ∧
  (∀ s, sigOf p = some s → s = f.compl ∨ SlotOk f .signal s ∧ s < 256)

/-- Legal actions. -/
def ActOk (f : FCfg) (k : PCfg) : Act → Prop
  | .pt p _ => PtOk p ∧ (k.rtfilEn → FilterOk f p) ∧ Ordinary p
  | .ctl op => Legal f op ∧ ∀ kd e ts fs, op ≠ .trace kd e ts fs

/-- The trace points of a history that leave a record, in order, given the filters at that moment. -/
def shown (f : FCfg) (k : PCfg) : On → List Act → List (Pt × BitVec 32)
  | _, [] => []
  | on, .pt p ts :: as => (if leaves f k on p then [(p, ts)] else []) ++ shown f k on as
  | on, .ctl op :: as => shown f k (onAfter on op) as

/-- The decoded records of a sequence of ordinary trace points, sequence numbers counting from `n` modulo 256. -/
def meanings (k : PCfg) : Byte → List (Pt × BitVec 32) → List Decoded
  | _, [] => []
  | n, (p, ts) :: l => meaning k n p ts :: meanings k (n + 1#8) l

end Verif.Trc.Spec
