import Verif.Trc.Model
/-
Model of the receiver of the unit-test link: third-party/unitrazer/tzparse.c and the loop that feeds it,
third-party/utrazer/platform/80x86/vc/bsp.c:186-215. The test host answers each trace event with a record in the framing of the trace
facility; the receiver takes the bytes one at a time.
-/
namespace Verif.Tz
open Verif Trc

/-- `PARSER_MAX_SIZE_BUF` (tzparse.c:16). -/
def bufSize : Nat := 512
/-- `sizeof(symstr)` (tzparse.c:25). -/
def symSize : Nat := 16
/-- `UT_SIZEOF_MSG` (unitrazer.h:386). -/
def msgSize : Nat := 256
/-- `RKH_TE_UT_SUCCESS` (rkhtrc_define.h:489-497): group 7, number 8. -/
def UT_SUCCESS : Byte := 232#8
/-- `RKH_TE_UT_FAIL` (rkhtrc_define.h:498). -/
def UT_FAIL : Byte := 233#8

/-- `UT_RET_CODE` (unitrazer.h:389-392). -/
inductive Status where
  | success | fail | busy | init
  deriving DecidableEq, Repr

/-- `UtrzProcessOut` (unitrazer.h:396-403). -/
structure Out where
  status : Status
  msg : List Byte
  line : Nat
  deriving DecidableEq, Repr

/-- The states of the receiver (tzparse.h:33-36). -/
inductive PState where
  | wflag | collect | escaping
  deriving DecidableEq, Repr

/-- The static variables of tzparse.c:20-26: `state`, `tr`, `ptr` (an index of `tr`) and `trix`, which is an `unsigned char`. `fmt`,
`lastnseq`, `TSTAMP_TICK_HZ` and `curr_tstamp` are not used by the code. -/
structure St where
  state : PState
  tr : List Byte
  ptr : Nat
  trix : Nat
  deriving DecidableEq, Repr

/-- The values of static variables before the program runs. -/
def st0 : St := ⟨.wflag, List.replicate bufSize 0#8, 0, 0⟩

/-- What the receiver finds when a frame ends: a record with a correct checksum (its bytes are handed to `parser`), or a record with a
wrong one. (A note for the theorems; the code only changes the `UtrzProcessOut`.) -/
inductive Ev where
  | got (m : List Byte)
  | bad
  deriving DecidableEq, Repr

/-- `assemble` (tzparse.c:33-43): `n` bytes from `trb = p` on. `*trb++ << sh` is computed in `int`: undefined if it reaches 2^31. -/
def assemble (tr : List Byte) : Nat → Nat → Nat → Nat → Res (Nat × Nat)
  | 0, p, _, d => .ok (d, p)
  | n + 1, p, sh, d =>
    (RdyGrp.ix tr p).bind fun b =>
      if 2 ^ 31 ≤ b.toNat <<< sh then .ub else assemble tr n (p + 1) (sh + 8) (d ||| b.toNat <<< sh)

/-- `assemble_str` (tzparse.c:45-56) from `trb = p` on with room for `room` characters in `symstr`; the string collected. -/
def assembleStr (tr : List Byte) : Nat → Nat → List Byte → Res (List Byte)
  | 0, _, _ => .ub
  | room + 1, p, acc =>
    (RdyGrp.ix tr p).bind fun b => if b = 0#8 then .ok acc else assembleStr tr room (p + 1) (acc ++ [b])

/-- `strncpy(p->msg, s, UT_SIZEOF_MSG)`. -/
def strncpy (s : List Byte) : List Byte := (s ++ List.replicate msgSize 0#8).take msgSize

/-- `parser_init` (tzparse.c:58-64). -/
def parserInit (s : St) : St := { s with ptr := 0, trix := 0 }

/-- `parser_collect` (tzparse.c:66-76). `++trix` wraps at 256, so that the comparison is always false. -/
def parserCollect (s : St) (d : Byte) : Res St :=
  let trix := (s.trix + 1) % 256
  if bufSize < trix then .ok { s with trix := trix, state := .wflag }
  else (wr s.tr s.ptr d).map' fun tr => { s with trix := trix, tr := tr, ptr := s.ptr + 1 }

/-- `parser_chk` (tzparse.c:78-89): the sum of the first `trix` bytes. -/
def parserChk (s : St) : Bool := (s.tr.take s.trix).foldl (· + ·) 0#8 == 0#8

/-- `utFail` (tzparse.c:91-104). -/
def utFail (tr : List Byte) (o : Out) : Res Out :=
  (assemble tr 4 1 0 0).bind fun (line, p) =>
    (assembleStr tr symSize p []).map' fun s => { o with status := .fail, line := line, msg := strncpy s }

/-- "Trace stream checksum Error" (tzparse.c:119). -/
def chkError : List Byte := [84, 114, 97, 99, 101, 32, 115, 116, 114, 101, 97, 109, 32, 99, 104, 101, 99, 107, 115, 117, 109, 32, 69, 114, 114, 111, 114]

/-- `utProcFail` (tzparse.c:113-120). -/
def utProcFail (o : Out) : Out := { o with status := .fail, line := 0, msg := strncpy chkError }

/-- `parser` with `utSuccess` (tzparse.c:106-111, 122-137). -/
def parser (tr : List Byte) (o : Out) : Res Out :=
  (RdyGrp.ix tr 0).bind fun b =>
    if b = UT_FAIL then utFail tr o else if b = UT_SUCCESS then .ok { o with status := .success } else .ok o

/-- `trazer_init` (tzparse.c:139-144). -/
def trazerInit (s : St) : St := { parserInit s with state := .collect }

/-- `trazer_parse` (tzparse.c:146-199): one byte. -/
def parse (s : St) (o : Out) (d : Byte) : Res (St × Out × List Ev) :=
  match s.state with
  | .wflag => if d = FLG then .ok ({ parserInit s with state := .collect }, o, []) else .ok (s, o, [])
  | .collect =>
    if d = FLG then
      if 0 < s.trix then
        if parserChk s then (parser s.tr o).map' fun o => (parserInit s, o, [.got (s.tr.take s.trix)])
        else .ok (parserInit s, utProcFail o, [.bad])
      else .ok (parserInit s, o, [])
    else if d = ESC then .ok ({ s with state := .escaping }, o, [])
    else (parserCollect s d).map' fun s => (s, o, [])
  | .escaping =>
    if d = FLG then .ok ({ parserInit s with state := .collect }, o, [])
    else (parserCollect s (d ^^^ XOR)).map' fun s => ({ s with state := .collect }, o, [])

/-- Bytes one after the other. -/
def feed : St → Out → List Byte → Res (St × Out × List Ev)
  | s, o, [] => .ok (s, o, [])
  | s, o, d :: ds => (parse s o d).bind fun (s, o, es) => (feed s o ds).map' fun (s, o, es') => (s, o, es ++ es')

/-- The loop of `utrz_recv` (bsp.c:194-202) over the bytes that arrive on the connection, which is then closed: the receiver, the
`UtrzProcessOut`, the bytes not read and the result. -/
def recvLoop : St → Out → List Byte → Res (St × Out × List Byte × Int)
  | s, o, [] => .ok (s, o, [], -1)
  | s, o, d :: ds =>
    (parse s o d).bind fun (s, o, _) => if o.status ≠ .busy then .ok (s, o, ds, 1) else recvLoop s o ds

/-- `utrz_recv` (bsp.c:186-203). -/
def utrzRecv (s : St) (o : Out) (bytes : List Byte) : Res (St × Out × List Byte × Int) := recvLoop s { o with status := .busy } bytes

/-- `ut_process` (bsp.c:205-215), called for each trace event that is put (`rkh_hook_putTrcEvt`, bsp.c:276-281). -/
def utProcess (s : St) (o : Out) (bytes : List Byte) : Res (St × Out × List Byte) :=
  (utrzRecv s o bytes).map' fun (s, o, rest, n) => if n ≤ 0 then (s, { o with status := .fail }, rest) else (s, o, rest)

end Verif.Tz
