import Verif.Trc.Model
/-
What the trace facility is meant to do, independently of how it is implemented.
-/
namespace Verif.Trc.Spec
open Verif

/-! ## Stream: the newest `sz` unread bytes -/

/-- The last `n` elements. -/
def lastN {α : Type} (n : Nat) (u : List α) : List α := u.drop (u.length - n)

/-- One call on a stream of capacity `sz` whose unread bytes are `u` (oldest first); `Step sz u op out u'` lists what the
call may return and what is unread afterwards. A block read may stop early (at the physical end of the ring) but
never returns nothing when there is something and something was asked for. -/
inductive Step (sz : Nat) : List Byte → SOp → SOut → List Byte → Prop
  | put (u : List Byte) (b : Byte) : Step sz u (.put b) .unit (lastN sz (u ++ [b]))
  | getNone : Step sz [] .get (.byte none) []
  | get (b : Byte) (u : List Byte) : Step sz (b :: u) .get (.byte (some b)) u
  | block (u : List Byte) (n k : Nat) (hn : k ≤ n) (hu : k ≤ u.length) (hp : 0 < n → u ≠ [] → 0 < k) :
      Step sz u (.block n) (.bytes (u.take k)) (u.drop k)
  | whole (u d : List Byte) (n : Nat) :
      Step sz u (.whole d n) (.buffer (u.take n).length (u.take n ++ d.drop (u.take n).length)) (u.drop n)

/-- A history of calls with their results. -/
inductive Run (sz : Nat) : List Byte → List SOp → List SOut → List Byte → Prop
  | nil (u : List Byte) : Run sz u [] [] u
  | cons {u u' u'' : List Byte} {op : SOp} {out : SOut} {ops : List SOp} {outs : List SOut} :
      Step sz u op out u' → Run sz u' ops outs u'' → Run sz u (op :: ops) (out :: outs) u''

/-- The destination buffer of a whole-block read is at least as long as the number of bytes asked for. -/
def SLegal : SOp → Prop
  | .whole d n => n ≤ d.length
  | _ => True

/-! ## Wire format -/

/-- Sum of bytes modulo 256. -/
def sum : List Byte → Byte
  | [] => 0#8
  | b :: bs => b + sum bs

/-- Byte stuffing of one byte. -/
def escape (b : Byte) : List Byte := if b = FLG ∨ b = ESC then [ESC, b ^^^ XOR] else [b]

/-- A frame: the stuffed bytes of a record followed by a flag. -/
def frame (raw : List Byte) : List Byte := raw.flatMap escape ++ [FLG]

/-- A receiver that is synchronised: collects bytes until a flag, undoing the byte stuffing. `cur` is the record being
collected, `esc` says that the previous byte was an escape. -/
def collect : List Byte → Bool → List Byte → List (List Byte)
  | _, _, [] => []
  | cur, esc, b :: bs =>
    if b = FLG then cur :: collect [] false bs
    else if esc then collect (cur ++ [b ^^^ XOR]) false bs
    else if b = ESC then collect cur true bs
    else collect (cur ++ [b]) false bs

/-- A receiver: ignores everything up to the first flag, then returns the records completed by a flag. -/
def receive : List Byte → List (List Byte)
  | [] => []
  | b :: bs => if b = FLG then collect [] false bs else receive bs

/-- Little-endian value of a byte string. -/
def le : List Byte → Nat
  | [] => 0
  | b :: bs => b.toNat + 256 * le bs

/-- `k` little-endian bytes of a number. -/
def leBytes : Nat → Nat → List Byte
  | 0, _ => []
  | k + 1, n => BitVec.ofNat 8 n :: leBytes k (n / 256)

/-- The C string at the start of `mem`. -/
def cstr (mem : List Byte) : List Byte := mem.takeWhile (· ≠ 0#8)

/-- The bytes a field contributes to its record. -/
def fieldBytes : Field → List Byte
  | .u8 d => [d]
  | .u16 d => leBytes 2 d.toNat
  | .u32 d => leBytes 4 d.toNat
  | .str mem => cstr mem ++ [0#8]
  | .fmtU8 f d => [f, d]
  | .fmtU16 f d => f :: leBytes 2 d.toNat
  | .fmtU32 f d => f :: leBytes 4 d.toNat
  | .fmtStr mem => STR_T :: (cstr mem ++ [0#8])
  | .fmtMem mem size => MEM_T :: size :: mem.take size.toNat

/-- A field the caller may pass: strings are terminated, memory blocks are as long as announced. -/
def FieldOk : Field → Prop
  | .str mem => 0#8 ∈ mem
  | .fmtStr mem => 0#8 ∈ mem
  | .fmtMem mem size => size.toNat ≤ mem.length
  | _ => True

/-- A record as the caller sees it: `dft` for the default header. -/
structure Record where
  dft : Bool
  eid : Byte
  ts : BitVec 32
  fs : List Field
  deriving DecidableEq, Repr

/-- The time stamp bytes. -/
def tsBytes (c : Cfg) (ts : BitVec 32) : List Byte :=
  match c.ts with
  | .off => []
  | .b8 => leBytes 1 ts.toNat
  | .b16 => leBytes 2 ts.toNat
  | .b32 => leBytes 4 ts.toNat

/-- Identifier, sequence number `n` and time stamp, then the fields. -/
def body (c : Cfg) (n : Byte) (r : Record) : List Byte :=
  (r.eid :: (if r.dft then [] else (if c.nseqEn then [n] else []) ++ tsBytes c r.ts)) ++ r.fs.flatMap fieldBytes

/-- The un-stuffed bytes of a record: body and, if enabled, the two's complement checksum. -/
def raw (c : Cfg) (n : Byte) (r : Record) : List Byte :=
  body c n r ++ (if c.chkEn then [-(sum (body c n r))] else [])

/-- Sequence number after a record. -/
def nextSeq (c : Cfg) (n : Byte) (r : Record) : Byte := if r.dft || !c.nseqEn then n else n + 1#8

/-- The un-stuffed bytes of a list of records, the sequence number starting at `n`. -/
def raws (c : Cfg) : Byte → List Record → List (List Byte)
  | _, [] => []
  | n, r :: rs => raw c n r :: raws c (nextSeq c n r) rs

/-- Everything put on the wire since initialisation: an initial flag and the frames. -/
def wire (c : Cfg) (rs : List Record) : List Byte := FLG :: (raws c 0#8 rs).flatMap frame

/-! ### Reading the fields back -/

/-- Kinds of values in a record. -/
inductive Ty where
  | int (bytes : Nat)
  | text
  | blob
  deriving DecidableEq, Repr

/-- Values in a record. -/
inductive Val where
  | int (n : Nat)
  | text (s : List Byte)
  | blob (s : List Byte)
  deriving DecidableEq, Repr

/-- A reader for one value: little-endian integers, zero-terminated strings, length-prefixed blocks. -/
def parse1 : Ty → List Byte → Option (Val × List Byte)
  | .int k, bs => if k ≤ bs.length then some (.int (le (bs.take k)), bs.drop k) else none
  | .text, bs => if 0#8 ∈ bs then some (.text (cstr bs), bs.drop ((cstr bs).length + 1)) else none
  | .blob, [] => none
  | .blob, n :: bs => if n.toNat ≤ bs.length then some (.blob (bs.take n.toNat), bs.drop n.toNat) else none

/-- A reader for a sequence of values. -/
def parse : List Ty → List Byte → Option (List Val × List Byte)
  | [], bs => some ([], bs)
  | t :: ts, bs =>
    match parse1 t bs with
    | none => none
    | some (v, bs) =>
      match parse ts bs with
      | none => none
      | some (vs, bs) => some (v :: vs, bs)

/-- What kinds of values a field consists of. -/
def fieldTy : Field → List Ty
  | .u8 _ => [.int 1]
  | .u16 _ => [.int 2]
  | .u32 _ => [.int 4]
  | .str _ => [.text]
  | .fmtU8 _ _ => [.int 1, .int 1]
  | .fmtU16 _ _ => [.int 1, .int 2]
  | .fmtU32 _ _ => [.int 1, .int 4]
  | .fmtStr _ => [.int 1, .text]
  | .fmtMem _ _ => [.int 1, .blob]

/-- The values a caller passes in a field. -/
def fieldVal : Field → List Val
  | .u8 d => [.int d.toNat]
  | .u16 d => [.int d.toNat]
  | .u32 d => [.int d.toNat]
  | .str mem => [.text (cstr mem)]
  | .fmtU8 f d => [.int f.toNat, .int d.toNat]
  | .fmtU16 f d => [.int f.toNat, .int d.toNat]
  | .fmtU32 f d => [.int f.toNat, .int d.toNat]
  | .fmtStr mem => [.int STR_T.toNat, .text (cstr mem)]
  | .fmtMem mem size => [.int MEM_T.toNat, .blob (mem.take size.toNat)]

/-! ## Filters: four sets of enabled items -/

/-- Number of events reserved for a group (rkhtrc_define.h:216-231): 8 per octet. -/
def eventsOf (g : Nat) : Nat :=
  match g with
  | 0 => 8 | 1 => 8 | 2 => 16 | 3 => 24 | 4 => 8 | 5 => 24 | 6 => 32 | 7 => 16 | _ => 0

/-- Event identifiers are three group bits and five event bits; an identifier is in use when its event number is among
those reserved for its group. -/
def Used (e : Nat) : Prop := e < 256 ∧ e % 32 < eventsOf (e / 32)

instance (e : Nat) : Decidable (Used e) := inferInstanceAs (Decidable (_ ∧ _))

/-- What is enabled. -/
structure On where
  grp : Nat → Bool
  evt : Nat → Bool
  sma : Nat → Bool
  sig : Nat → Bool

/-- Initially nothing is. -/
def On.none : On := ⟨fun _ => false, fun _ => false, fun _ => false, fun _ => false⟩

/-- Change one entry. -/
def upd (s : Nat → Bool) (i : Nat) (b : Bool) : Nat → Bool := fun j => if j = i then b else s j

/-- Effect of the filter calls (documentation in rkhtrc_filter.h:65-220); `emit` is `true` for the `RKH_FILTER_OFF_*`
macros. -/
def group (a : On) (emit : Bool) (g : Nat) (events : Bool) : On :=
  if g = ALL_GROUPS then { a with grp := fun _ => emit }
  else { a with grp := upd a.grp g emit, evt := fun e => if events && e / 32 == g then emit else a.evt e }

@[inherit_doc group] def event (a : On) (emit : Bool) (e : Nat) : On :=
  if e = ALL_EVENTS then { a with grp := fun _ => emit, evt := fun _ => emit }
  else { a with evt := upd a.evt e emit, grp := if emit then upd a.grp (e / 32) true else a.grp }

@[inherit_doc group] def sym (a : On) (d : Tbl) (slot : Nat) (emit all : Bool) : On :=
  match d with
  | .signal => { a with sig := if all then fun _ => emit else upd a.sig slot emit }
  | .sma => { a with sma := if all then fun _ => emit else upd a.sma slot emit }

/-- Whether a trace point emits: group and event enabled, and the active object and the signal enabled when the trace
point names them and that filter is configured; the completion event's signal is never filtered. -/
def emits (f : FCfg) (a : On) (k : Kind) (e : Nat) : Bool :=
  let ev := a.grp (e / 32) && a.evt e
  let ao := fun prio => !f.smaEn || a.sma prio
  let sg := fun sig => !f.sigEn || (sig == f.compl || a.sig sig)
  match k with
  | .full prio sig => ev && ao prio && sg sig
  | .woAo sig => ev && sg sig
  | .woSig prio => ev && ao prio
  | .woAoSig => ev
  | .woFil => true
  | .dft => true

/-! ## The whole facility -/

/-- Unread bytes, next sequence number, enabled items. -/
structure Abs where
  unread : List Byte
  nseq : Byte
  on : On

/-- After initialisation: one flag byte. -/
def Abs.init : Abs := ⟨[FLG], 0#8, On.none⟩

/-- The record a trace point writes. -/
def recOf (k : Kind) (eid : Byte) (ts : BitVec 32) (fs : List Field) : Record := ⟨k == .dft, eid, ts, fs⟩

/-- A record is appended to the unread bytes, of which the newest `sz` are kept. -/
def emit (c : Cfg) (a : Abs) (r : Record) : Abs :=
  { a with unread := lastN c.sz (a.unread ++ frame (raw c a.nseq r)), nseq := nextSeq c a.nseq r }

/-- One call on the whole facility. -/
inductive WStep (c : Cfg) (f : FCfg) : Abs → Op → SOut → Abs → Prop
  | group (a emit g ch) : WStep c f a (.group emit g ch) .unit { a with on := group a.on emit g ch }
  | event (a emit e) : WStep c f a (.event emit e) .unit { a with on := event a.on emit e }
  | sym (a d slot emit all) : WStep c f a (.sym d slot emit all) .unit { a with on := sym a.on d slot emit all }
  | trace (a k eid ts fs) :
      WStep c f a (.trace k eid ts fs) .unit (if emits f a.on k eid.toNat then emit c a (recOf k eid ts fs) else a)
  | get (a u o) : Step c.sz a.unread .get o u → WStep c f a .get o { a with unread := u }
  | block (a u o n) : Step c.sz a.unread (.block n) o u → WStep c f a (.block n) o { a with unread := u }
  | whole (a u o d n) : Step c.sz a.unread (.whole d n) o u → WStep c f a (.whole d n) o { a with unread := u }

/-- A history of calls on the whole facility. -/
inductive WRun (c : Cfg) (f : FCfg) : Abs → List Op → List SOut → Abs → Prop
  | nil (a : Abs) : WRun c f a [] [] a
  | cons {a a' a'' : Abs} {op : Op} {out : SOut} {ops : List Op} {outs : List SOut} :
      WStep c f a op out a' → WRun c f a' ops outs a'' → WRun c f a (op :: ops) (out :: outs) a''

/-- What is enabled after a call. -/
def onAfter (a : On) : Op → On
  | .group emit g ch => group a emit g ch
  | .event emit e => event a emit e
  | .sym d slot emit all => sym a d slot emit all
  | _ => a

/-- The records a history of calls emits, in order. -/
def emitted (f : FCfg) (a : On) : List Op → List Record
  | [] => []
  | op :: ops =>
    (match op with
      | .trace k eid ts fs => if emits f a k eid.toNat then [recOf k eid ts fs] else []
      | _ => []) ++ emitted f (onAfter a op) ops

/-- The bytes a call hands over to the reader. -/
def readBytes : SOut → List Byte
  | .byte (some b) => [b]
  | .bytes l => l
  | .buffer n d => d.take n
  | _ => []

/-- A record as a trace call that no filter applies to. -/
def callOf (r : Record) : Op := .trace (if r.dft then .dft else .woFil) r.eid r.ts r.fs

/-- Values in front of the fields: identifier, sequence number, time stamp. -/
def hdrTy (c : Cfg) (r : Record) : List Ty :=
  .int 1 :: (if r.dft then [] else
    (if c.nseqEn then [.int 1] else []) ++
    (match c.ts with | .off => [] | .b8 => [.int 1] | .b16 => [.int 2] | .b32 => [.int 4]))

@[inherit_doc hdrTy] def hdrVal (c : Cfg) (n : Byte) (r : Record) : List Val :=
  .int r.eid.toNat :: (if r.dft then [] else
    (if c.nseqEn then [.int n.toNat] else []) ++
    (match c.ts with
      | .off => [] | .b8 => [.int (r.ts.toNat % 2 ^ 8)] | .b16 => [.int (r.ts.toNat % 2 ^ 16)] | .b32 => [.int r.ts.toNat]))

/-- Slots of a symbol table: priorities below the maximum number of active objects, signals below the maximum number of
signals. -/
def SlotOk (f : FCfg) : Tbl → Nat → Prop
  | .signal, s => s < f.maxSig
  | .sma, p => p < f.maxSma

/-- The trace point's arguments for the filters are in range. Signals from 256 on, other than the completion event, are
excluded: see `signal_filter_aliases_from_256`. -/
def KindOk (f : FCfg) : Kind → Prop
  | .full prio sig => SlotOk f .sma prio ∧ (sig = f.compl ∨ SlotOk f .signal sig ∧ sig < 256)
  | .woAo sig => sig = f.compl ∨ SlotOk f .signal sig ∧ sig < 256
  | .woSig prio => SlotOk f .sma prio
  | _ => True

/-- Arguments the documentation allows. -/
def Legal (f : FCfg) : Op → Prop
  | .group _ g _ => g ≤ ALL_GROUPS
  | .event _ e => e = ALL_EVENTS ∨ (Used e ∧ e < ALL_EVENTS)
  | .sym d slot _ _ => SlotOk f d slot
  | .trace k eid _ fs => (k = .woFil ∨ k = .dft ∨ Used eid.toNat) ∧ KindOk f k ∧ ∀ x ∈ fs, FieldOk x
  | .whole d n => n ≤ d.length
  | _ => True

/-- A usable configuration: the stream size is what `rkhitl.h:1234` allows; the symbol tables are non-empty and have
at most 255 bytes (see `set_all_signals_overruns_large_tables`). -/
structure CfgOk (c : Cfg) (f : FCfg) : Prop where
  sz : 0 < c.sz ∧ c.sz ≤ 2048
  sma : 0 < f.maxSma ∧ f.maxSma ≤ 64
  sig : 0 < f.maxSig ∧ f.maxSig ≤ 2040

end Verif.Trc.Spec
