import Verif.Trc.PointsSpec
import Verif.Trc.Props
/-
Lemmas about trace points and the host that decodes them.
-/
namespace Verif.Trc
open Verif Verif.Trc.Spec

/-! ## Configuration -/

/-- The announcement `a` says what a host needs to know about the configuration `k`. -/
structure Tells (a : Announced) (k : PCfg) : Prop where
  sndr : a.has 0 = k.sndrEn
  queMin : a.has 11 = k.queLwmEn
  mpMin : a.has 12 = k.mpLwmEn
  nseq : a.has 15 = k.nseqEn
  ts : a.has 16 = k.tstampEn
  chk : a.has 17 = k.chkEn
  evt : a.evt = k.evt.bytes
  tstamp : a.tstamp = k.tstamp.bytes
  ptr : a.ptr = k.ptr.bytes
  ntimer : a.ntimer = k.ntimer.bytes
  nblock : a.nblock = k.nblock.bytes
  nelem : a.nelem = k.nelem.bytes
  evtSize : a.evtSize = k.evtSize.bytes
  bsize : a.bsize = k.bsize.bytes

theorem fieldTy_uint (w : W) (n : Nat) : fieldTy (uint w n) = [.int w.bytes] := by cases w <;> rfl

theorem fieldVal_uint (w : W) (n : Nat) : fieldVal (uint w n) = [.int (n % 256 ^ w.bytes)] := by
  cases w <;> simp [uint, ui8, ui16, ui32, fieldVal, W.bytes]

theorem fieldOk_uint (w : W) (n : Nat) : FieldOk (uint w n) := by cases w <;> trivial

theorem trcSym_uint {k : PCfg} (h : k.ptr ≠ .b8) (n : Nat) : trcSym k n = uint k.ptr n := by
  unfold trcSym uint; cases hp : k.ptr <;> simp_all

theorem trcFun_uint {k : PCfg} (h : k.funPtr ≠ .b8) (n : Nat) : trcFun k n = uint k.funPtr n := by
  unfold trcFun uint; cases hp : k.funPtr <;> simp_all

theorem fieldOk_sym (k : PCfg) (n : Nat) : FieldOk (trcSym k n) := by
  unfold trcSym; cases k.ptr <;> trivial

theorem fieldOk_fun (k : PCfg) (n : Nat) : FieldOk (trcFun k n) := by
  unfold trcFun; cases k.funPtr <;> trivial

theorem bytes_b8 : W.b8.bytes = 1 := rfl
theorem bytes_b16 : W.b16.bytes = 2 := rfl
theorem bytes_b32 : W.b32.bytes = 4 := rfl
theorem fieldTy_str (m : List Byte) : fieldTy (.str m) = [.text] := rfl
theorem fieldVal_str (m : List Byte) : fieldVal (.str m) = [.text (cstr m)] := rfl

theorem ui8_uint (n : Nat) : ui8 n = uint .b8 n := rfl
theorem ui16_uint (n : Nat) : ui16 n = uint .b16 n := rfl
theorem ui32_uint (n : Nat) : ui32 n = uint .b32 n := rfl

/-! ## Identifiers -/

/-- Not a user trace. -/
def NotUser : Pt → Prop
  | .user .. => False
  | _ => True

theorem eid_says (p : Pt) (h : UserOk p) : p.eid.toNat = (says p).1 := by
  cases p <;> first | rfl | skip
  case fwkState ao s r nm => cases r <;> rfl
  case user e items =>
    have := h.2.1
    simp [Pt.eid, says]; omega

theorem says_lt (p : Pt) (h : UserOk p) : (says p).1 < 256 := by
  rw [← eid_says p h]; exact p.eid.isLt

theorem says_tcfg (p : Pt) (h : UserOk p) (ho : Ordinary p) : (says p).1 ≠ TCFG := by
  cases p <;> first | (simp only [says, TCFG]; decide) | skip
  case fwkState ao s r nm => cases r <;> simp [says, TCFG]
  case fwkTcfg hz => exact absurd rfl (ho hz)
  case user e items =>
    have := h.1
    simp only [says, TCFG]; omega

theorem says_group (p : Pt) (h : NotUser p) : (says p).1 / 32 ≠ 6 := by
  cases p <;> first | (simp only [says]; decide) | skip
  case fwkState ao s r nm => cases r <;> simp [says]
  case user e items => exact absurd h (by simp [NotUser])

theorem layout_says (p : Pt) (h : NotUser p) (ho : Ordinary p) :
    layout (says p).1 = some ((says p).2.map fun x => (x.1, x.2.1)) := by
  cases p <;> first | (simp [says, layout]; done) | skip
  case fwkState ao s r nm => cases r <;> simp [says, layout]
  case fwkTcfg hz => exact absurd rfl (ho hz)
  case user e items => exact absurd h (by simp [NotUser])

/-! ## Inserts -/

/-- The pointer sizes are those a host assumes. -/
structure PtrOk (k : PCfg) : Prop where
  ptr : k.ptr ≠ .b8
  funPtr : k.funPtr.bytes = k.ptr.bytes

theorem PtrOk.eq {k : PCfg} (h : PtrOk k) : k.funPtr = k.ptr := by
  have := h.funPtr
  revert this
  cases k.funPtr <;> cases k.ptr <;> simp [W.bytes]

theorem fun_ne {k : PCfg} (h : PtrOk k) : k.funPtr ≠ .b8 := by rw [h.eq]; exact h.ptr

theorem fields_ty {a : Announced} {k : PCfg} (ht : Tells a k) (hp : PtrOk k) (p : Pt) (h : NotUser p) (ho : Ordinary p) :
    (p.fields k).flatMap fieldTy = (says p).2.flatMap fun x => slotTy a x.2.1 := by
  have hf := fun_ne hp
  have he := hp.eq
  cases p <;> first
    | (simp [Pt.fields, says, slotTy, trcSym_uint hp.ptr, trcFun_uint hf, trcSndr, trcNtick, trcNblk, trcMpNmin, trcBsize,
        trcNe, trcQueNmin, trcSig, trcEs, ui8_uint, ui16_uint, ui32_uint, fieldTy_uint, ht.sndr, ht.queMin, ht.mpMin,
        ht.evt, ht.ptr, ht.ntimer, ht.nblock, ht.nelem, ht.evtSize, ht.bsize, he, fieldTy_str, bytes_b8, bytes_b16, bytes_b32]
       first
         | done
         | (cases k.sndrEn <;> cases k.queLwmEn <;> cases k.mpLwmEn <;> simp [fieldTy_uint]))
    | skip
  case fwkTcfg hz => exact absurd rfl (ho hz)
  case user e items => exact absurd h (by simp [NotUser])

theorem fields_val {k : PCfg} (hp : PtrOk k) (p : Pt) (h : NotUser p) (ho : Ordinary p) :
    (p.fields k).flatMap fieldVal = (argsOf k p).map (·.2) := by
  have hf := fun_ne hp
  cases p <;> first
    | (simp [Pt.fields, argsOf, says, size, present, cut, trcSym_uint hp.ptr, trcFun_uint hf, trcSndr, trcNtick, trcNblk,
        trcMpNmin, trcBsize, trcNe, trcQueNmin, trcSig, trcEs, ui8_uint, ui16_uint, ui32_uint, fieldVal_uint, fieldVal_str,
        bytes_b8, bytes_b16, bytes_b32]
       first
         | done
         | (repeat' split) <;> simp_all [fieldVal_uint])
    | skip
  case fwkTcfg hz => exact absurd rfl (ho hz)
  case user e items => exact absurd h (by simp [NotUser])

theorem names_args {a : Announced} {k : PCfg} (ht : Tells a k) (p : Pt) :
    names a ((says p).2.map fun x => (x.1, x.2.1)) = (argsOf k p).map (·.1) := by
  unfold names argsOf
  rw [List.flatMap_map, List.map_flatMap]
  congr 1
  funext x
  obtain ⟨nm, s, v⟩ := x
  cases s <;> simp [slotTy, present, ht.sndr, ht.queMin, ht.mpMin] <;>
    first | done | (split <;> simp_all)

theorem fields_ok {k : PCfg} (p : Pt) (h : PtOk p) : ∀ x ∈ p.fields k, FieldOk x := by
  obtain ⟨h1, h2⟩ := h
  cases p
  case user e items =>
    intro x hx
    simp only [Pt.fields, List.mem_map] at hx
    obtain ⟨i, hi, rfl⟩ := hx
    have := h2.2.2 i hi
    cases i <;> simp only [usrField, FieldOk]
    case str m => exact this
    case mem m n => simp only [BitVec.toNat_ofNat]; have := this.2; omega
    case obj a => cases k.ptr <;> trivial
    case fn a => cases k.funPtr <;> trivial
    case sig a => cases k.evt <;> trivial
  all_goals
    intro x hx
    simp only [Pt.fields, trcSndr, trcNtick, trcNblk, trcMpNmin, trcBsize, trcNe, trcQueNmin, trcSig, trcEs, nibbles,
      ui8_uint, ui16_uint, ui32_uint] at hx
    simp only [List.mem_cons, List.mem_append, List.not_mem_nil, or_false] at hx
    try simp only [StrOk] at h1
    repeat (first
      | (subst hx; first | exact fieldOk_uint _ _ | exact fieldOk_sym _ _ | exact fieldOk_fun _ _ | exact h1 | trivial)
      | (split at hx)
      | (simp only [List.mem_cons, List.not_mem_nil, or_false] at hx)
      | (exact hx.elim)
      | (rcases hx with hx | hx))

/-! ## User traces -/

theorem fmt_toNat (w t : Nat) (ht : t < 16) : (fmt w t).toNat = w % 16 * 16 + t := by
  have h : (fmt w t).toNat = (w % 16) <<< 4 ||| t := by
    have e1 : w <<< 4 % 256 = (w % 16) <<< 4 := by simp only [Nat.shiftLeft_eq]; omega
    simp only [fmt, BitVec.toNat_or, BitVec.toNat_ofNat]
    rw [show (2 : Nat) ^ 8 = 256 from rfl, e1, Nat.mod_eq_of_lt (show t < 256 by omega)]
  rw [h, ← Nat.shiftLeft_add_eq_or_of_lt (by simpa using ht), Nat.shiftLeft_eq]

theorem fmt_div (w t : Nat) (ht : t < 16) : (fmt w t).toNat / 16 = w % 16 := by rw [fmt_toNat w t ht]; omega
theorem fmt_mod (w t : Nat) (ht : t < 16) : (fmt w t).toNat % 16 = t := by rw [fmt_toNat w t ht]; omega

theorem signed_toInt {n : Nat} (hn : 0 < n) (d : BitVec n) : signed n d.toNat = d.toInt := by
  have h2 : 2 ^ n = 2 * 2 ^ (n - 1) := by rw [← Nat.pow_succ']; congr 1; omega
  have h3 : ((2 ^ n : Nat) : Int) = 2 ^ n := by simp
  unfold signed
  rw [BitVec.toInt_eq_toNat_cond]
  by_cases h : d.toNat < 2 ^ (n - 1)
  · rw [if_pos h, if_pos (by omega)]
  · rw [if_neg h, if_neg (by omega), h3]

theorem parse1_n8 (d : BitVec 8) (rest : List Byte) : parse1 (.int 1) ([d] ++ rest) = some (.int d.toNat, rest) :=
  parse1_u8 d rest
theorem parse1_n16 (d : BitVec 16) (rest : List Byte) :
    parse1 (.int 2) (leBytes 2 d.toNat ++ rest) = some (.int d.toNat, rest) :=
  parse1_int 2 _ rest (by have := d.isLt; simpa using this)
theorem parse1_n32 (d : BitVec 32) (rest : List Byte) :
    parse1 (.int 4) (leBytes 4 d.toNat ++ rest) = some (.int d.toNat, rest) :=
  parse1_int 4 _ rest (by have := d.isLt; simpa using this)

theorem readItem_field {a : Announced} {k : PCfg} (ht : Tells a k) (hp : PtrOk k) (i : UItem) (hi : ItemOk i)
    (rest : List Byte) : readItem a (fieldBytes (usrField k i) ++ rest) = some (itemOf k i, rest) := by
  have hf := fun_ne hp
  have he := hp.eq
  have hq := hp.ptr
  cases i with
  | i8 w d =>
    simp only [usrField, fieldBytes, List.cons_append, readItem, fmt_mod w 0 (by decide), fmt_div w 0 (by decide)]
    rw [List.nil_append, parse1_u8, itemOf, ← signed_toInt (by decide) d]
  | ui8 w d =>
    simp only [usrField, fieldBytes, List.cons_append, readItem, fmt_mod w 1 (by decide), fmt_div w 1 (by decide)]
    rw [List.nil_append, parse1_u8, itemOf]
  | i16 w d =>
    simp only [usrField, fieldBytes, List.cons_append, readItem, fmt_mod w 2 (by decide), fmt_div w 2 (by decide)]
    rw [parse1_n16, itemOf, ← signed_toInt (by decide) d]
  | ui16 w d =>
    simp only [usrField, fieldBytes, List.cons_append, readItem, fmt_mod w 3 (by decide), fmt_div w 3 (by decide)]
    rw [parse1_n16, itemOf]
  | i32 w d =>
    simp only [usrField, fieldBytes, List.cons_append, readItem, fmt_mod w 4 (by decide), fmt_div w 4 (by decide)]
    rw [parse1_n32, itemOf, ← signed_toInt (by decide) d]
  | ui32 w d =>
    simp only [usrField, fieldBytes, List.cons_append, readItem, fmt_mod w 5 (by decide), fmt_div w 5 (by decide)]
    rw [parse1_n32, itemOf]
  | x32 w d =>
    simp only [usrField, fieldBytes, List.cons_append, readItem, fmt_mod w 6 (by decide), fmt_div w 6 (by decide)]
    rw [parse1_n32, itemOf]
  | str m =>
    have h := parse1_text m rest
    simp only [usrField, fieldBytes, List.cons_append, readItem, show STR_T.toNat % 16 = 7 from rfl]
    rw [h, itemOf]
  | mem m n =>
    have hn : (BitVec.ofNat 8 n).toNat = n := by have := hi.1; simp; omega
    have h := parse1_blob m rest (BitVec.ofNat 8 n) (by rw [hn]; exact hi.2)
    simp only [usrField, fieldBytes, List.cons_append, readItem, show MEM_T.toNat % 16 = 8 from rfl]
    rw [h, itemOf, hn]
  | obj x =>
    cases hw : k.ptr with
    | b8 => exact absurd hw hq
    | b16 =>
      have h := parse1_n16 (BitVec.ofNat 16 x) rest
      simp only [usrField, hw, fieldBytes, List.cons_append, readItem, show (9#8).toNat % 16 = 9 from rfl, ht.ptr, bytes_b16]
      rw [h, itemOf, hw]; simp [bytes_b16]
    | b32 =>
      have h := parse1_n32 (BitVec.ofNat 32 x) rest
      simp only [usrField, hw, fieldBytes, List.cons_append, readItem, show (9#8).toNat % 16 = 9 from rfl, ht.ptr, bytes_b32]
      rw [h, itemOf, hw]; simp [bytes_b32]
  | fn x =>
    cases hw : k.ptr with
    | b8 => exact absurd hw hq
    | b16 =>
      have h := parse1_n16 (BitVec.ofNat 16 x) rest
      simp only [usrField, he, hw, fieldBytes, List.cons_append, readItem, show (10#8).toNat % 16 = 10 from rfl, ht.ptr,
        bytes_b16]
      rw [h, itemOf, he, hw]; simp [bytes_b16]
    | b32 =>
      have h := parse1_n32 (BitVec.ofNat 32 x) rest
      simp only [usrField, he, hw, fieldBytes, List.cons_append, readItem, show (10#8).toNat % 16 = 10 from rfl, ht.ptr,
        bytes_b32]
      rw [h, itemOf, he, hw]; simp [bytes_b32]
  | sig x =>
    cases hw : k.evt with
    | b8 =>
      have h := parse1_u8 (BitVec.ofNat 8 x) rest
      simp only [usrField, hw, fieldBytes, List.cons_append, List.nil_append, readItem, show (11#8).toNat % 16 = 11 from rfl,
        ht.evt, bytes_b8]
      rw [h, itemOf, hw]; simp [bytes_b8]
    | b16 =>
      have h := parse1_n16 (BitVec.ofNat 16 x) rest
      simp only [usrField, hw, fieldBytes, List.cons_append, readItem, show (11#8).toNat % 16 = 11 from rfl, ht.evt, bytes_b16]
      rw [h, itemOf, hw]; simp [bytes_b16]
    | b32 =>
      have h := parse1_n32 (BitVec.ofNat 32 x) rest
      simp only [usrField, hw, fieldBytes, List.cons_append, readItem, show (11#8).toNat % 16 = 11 from rfl, ht.evt, bytes_b32]
      rw [h, itemOf, hw]; simp [bytes_b32]

theorem usr_cons (k : PCfg) (i : UItem) : ∃ b bs, fieldBytes (usrField k i) = b :: bs := by
  cases i <;> simp only [usrField, fieldBytes] <;> first | exact ⟨_, _, rfl⟩ | skip
  case obj a => cases k.ptr <;> exact ⟨_, _, rfl⟩
  case fn a => cases k.funPtr <;> exact ⟨_, _, rfl⟩
  case sig a => cases k.evt <;> exact ⟨_, _, rfl⟩

theorem readItems_fields {a : Announced} {k : PCfg} (ht : Tells a k) (hp : PtrOk k) : ∀ (items : List UItem) (n : Nat),
    (∀ i ∈ items, ItemOk i) → items.length ≤ n →
    readItems a n ((items.map (usrField k)).flatMap fieldBytes) = some (items.map (itemOf k))
  | [], n, _, _ => by cases n <;> rfl
  | i :: items, n, h, hn => by
    obtain ⟨n, rfl⟩ : ∃ m, n = m + 1 := ⟨n - 1, by simp at hn; omega⟩
    have h1 := readItem_field ht hp i (h i (by simp)) ((items.map (usrField k)).flatMap fieldBytes)
    have h2 := readItems_fields ht hp items n (fun j hj => h j (by simp [hj])) (by simpa using hn)
    obtain ⟨b, bs, hb⟩ := usr_cons k i
    rw [List.map_cons, List.flatMap_cons, hb, List.cons_append]
    rw [hb, List.cons_append] at h1
    simp only [readItems, h1, h2, List.map_cons]

theorem length_items (k : PCfg) : ∀ items : List UItem, items.length ≤ ((items.map (usrField k)).flatMap fieldBytes).length
  | [] => by simp
  | i :: items => by
    have := length_items k items
    obtain ⟨b, bs, hb⟩ := usr_cons k i
    rw [List.map_cons, List.flatMap_cons, hb]
    simp only [List.length_cons, List.length_append]; omega

/-! ## Decoding -/

theorem zip_unzip (l : List (String × Val)) : (l.map (·.1)).zip (l.map (·.2)) = l := by
  induction l with
  | nil => rfl
  | cons x l ih => simp [ih]

theorem decodeArgs_fields {a : Announced} {k : PCfg} (ht : Tells a k) (hp : PtrOk k) (p : Pt) (h : PtOk p) (ho : Ordinary p)
    (seq time : Option Nat) : decodeArgs a (says p).1 seq time ((p.fields k).flatMap fieldBytes) =
      some ⟨(says p).1, seq, time, argsOf k p, itemsOf k p⟩ := by
  by_cases hu : NotUser p
  · unfold decodeArgs
    rw [if_neg (says_group p hu), layout_says p hu ho]
    have h1 := parse_fields (p.fields k) (fields_ok p h) []
    rw [List.append_nil, fields_ty ht hp p hu ho, fields_val hp p hu ho] at h1
    have h2 : ((says p).2.map fun x => (x.1, x.2.1)).flatMap (fun x => slotTy a x.2) =
        (says p).2.flatMap fun x => slotTy a x.2.1 := by rw [List.flatMap_map]
    simp only [h2, h1]
    rw [names_args ht p, zip_unzip]
    congr 2
    cases p <;> first | rfl | exact absurd hu (by simp [NotUser])
  · cases p with
    | user e items =>
      obtain ⟨_, h1, h2, h3⟩ := h
      unfold decodeArgs
      rw [if_pos (by simp only [says]; omega)]
      simp only [Pt.fields]
      rw [readItems_fields ht hp items _ h3 (length_items k items)]
      rfl
    | _ => exact absurd trivial hu

theorem cfg_ts (k : PCfg) (ts : BitVec 32) :
    tsBytes k.cfg ts = if k.tstampEn then leBytes k.tstamp.bytes ts.toNat else [] := by
  unfold tsBytes PCfg.cfg
  cases k.tstampEn <;> cases k.tstamp <;> rfl

theorem leBytes_mod (k n : Nat) : leBytes k n = leBytes k (n % 256 ^ k) := by
  induction k generalizing n with
  | zero => rfl
  | succ k ih =>
    simp only [leBytes]
    have e : 256 ^ (k + 1) = 256 * 256 ^ k := by rw [Nat.pow_succ, Nat.mul_comm]
    congr 1
    · apply BitVec.eq_of_toNat_eq
      simp only [BitVec.toNat_ofNat]
      rw [e, show (2 : Nat) ^ 8 = 256 from rfl, Nat.mod_mul_right_mod]
    · rw [ih (n / 256), ih (n % 256 ^ (k + 1) / 256), e, Nat.mod_mul_right_div_self, Nat.mod_mod]

theorem optInt_le (k n : Nat) (b : Bool) (rest : List Byte) :
    optInt b k ((if b then leBytes k n else []) ++ rest) = some (if b then some (n % 256 ^ k) else none, rest) := by
  cases b with
  | false => rfl
  | true =>
    simp only [optInt, if_true]
    rw [leBytes_mod, parse1_int k _ rest (Nat.mod_lt _ (Nat.pow_pos (by decide)))]

/-- The part of an announcement about the header of a record and the checksum. -/
structure TellsHdr (a : Announced) (k : PCfg) : Prop where
  nseq : a.has 15 = k.nseqEn
  ts : a.has 16 = k.tstampEn
  chk : a.has 17 = k.chkEn
  tstamp : a.tstamp = k.tstamp.bytes

theorem decode_hdr {a : Announced} {k : PCfg} (ht : TellsHdr a k) (p : Pt) (h : UserOk p) (ho : Ordinary p)
    (n : Byte) (ts : BitVec 32) : decode a (raw k.cfg n ⟨false, p.eid, ts, p.fields k⟩) =
      decodeArgs a (says p).1 (if k.nseqEn then some n.toNat else none)
        (if k.tstampEn then some (ts.toNat % 256 ^ k.tstamp.bytes) else none) ((p.fields k).flatMap fieldBytes) := by
  have hc : k.cfg.chkEn = k.chkEn := rfl
  have hs : (a.has 17 && decide (sum (raw k.cfg n ⟨false, p.eid, ts, p.fields k⟩) ≠ 0#8)) = false := by
    cases hk : k.chkEn with
    | false => simp [ht.chk, hk]
    | true => simp [sum_raw (hc.trans hk)]
  have hb : (if a.has 17 = true then (raw k.cfg n ⟨false, p.eid, ts, p.fields k⟩).dropLast
      else raw k.cfg n ⟨false, p.eid, ts, p.fields k⟩) = body k.cfg n ⟨false, p.eid, ts, p.fields k⟩ := by
    rw [ht.chk]
    unfold raw
    rw [hc]
    cases k.chkEn <;> simp
  unfold decode
  rw [hs, hb]
  have hbody : body k.cfg n ⟨false, p.eid, ts, p.fields k⟩ =
      p.eid :: ((if k.nseqEn then leBytes 1 n.toNat else []) ++
        ((if k.tstampEn then leBytes k.tstamp.bytes ts.toNat else []) ++ (p.fields k).flatMap fieldBytes)) := by
    unfold body
    simp only [Bool.false_eq_true, if_false, List.cons_append, List.append_assoc, cfg_ts]
    have : k.cfg.nseqEn = k.nseqEn := rfl
    rw [this]
    cases k.nseqEn <;> simp [leBytes]
  have hid := eid_says p h
  rw [hbody]
  simp only [Bool.false_eq_true, if_false, hid, says_tcfg p h ho, ht.nseq, ht.ts, ht.tstamp]
  rw [optInt_le]
  simp only []
  rw [optInt_le]
  simp only []
  have : n.toNat % 256 ^ 1 = n.toNat := Nat.mod_eq_of_lt (by have := n.isLt; omega)
  rw [this]

theorem decode_raw {a : Announced} {k : PCfg} (ht : Tells a k) (hp : PtrOk k) (p : Pt) (h : PtOk p) (ho : Ordinary p)
    (n : Byte) (ts : BitVec 32) : decode a (raw k.cfg n ⟨false, p.eid, ts, p.fields k⟩) = some (meaning k n p ts) := by
  rw [decode_hdr ⟨ht.nseq, ht.ts, ht.chk, ht.tstamp⟩ p h.2 ho, decodeArgs_fields ht hp p h ho]
  rfl

/-! ## The announcement -/

/-- What the trace configuration record contains. -/
def announced (k : PCfg) (hz : Nat) : Announced :=
  ⟨k.version % 65536, (options k).toNat, k.evt.bytes, k.tstamp.bytes, k.ptr.bytes, k.ntimer.bytes, k.nblock.bytes,
   k.nelem.bytes, k.evtSize.bytes, (k.bsize.bytes <<< 4 ||| k.maxEvtPool) % 256 / 16,
   (k.bsize.bytes <<< 4 ||| k.maxEvtPool) % 256 % 16, hz % 65536⟩

theorem nibbles_bytes (x y : W) : (BitVec.ofNat 8 (x.bytes <<< 4 ||| y.bytes)).toNat / 16 = x.bytes ∧
    (BitVec.ofNat 8 (x.bytes <<< 4 ||| y.bytes)).toNat % 16 = y.bytes := by cases x <;> cases y <;> decide

theorem bit_getLsbD (b : Bool) (i j : Nat) (hj : j < 32) : (bit b i).getLsbD j = (b && decide (i = j)) := by
  unfold bit
  rw [BitVec.getLsbD_shiftLeft]
  cases b with
  | false => simp
  | true =>
    by_cases h : j < i
    · have : ¬ i = j := by omega
      simp [h, this]
    · have e : (1#32).getLsbD (j - i) = decide (j - i = 0) := by
        rw [show (1#32) = BitVec.ofNat 32 1 from rfl, BitVec.getLsbD_one]; simp
      simp [h, hj]; omega

theorem options_bit (k : PCfg) (j : Nat) (hj : j < 32) : (options k).toNat.testBit j =
    (k.sndrEn && decide (0 = j) || k.rtfilEn && decide (1 = j) || k.userEn && decide (2 = j) || k.allEn && decide (3 = j) ||
     k.mpEn && decide (4 = j) || k.queEn && decide (5 = j) || k.smaEn && decide (6 = j) || k.tmrEn && decide (7 = j) ||
     k.smEn && decide (8 = j) || k.fwkEn && decide (9 = j) || k.assertEn && decide (10 = j) ||
     k.queLwmEn && decide (11 = j) || k.mpLwmEn && decide (12 = j) || k.rtfilSmaEn && decide (13 = j) ||
     k.rtfilSigEn && decide (14 = j) || k.nseqEn && decide (15 = j) || k.tstampEn && decide (16 = j) ||
     k.chkEn && decide (17 = j)) := by
  rw [BitVec.testBit_toNat]
  unfold options
  simp only [BitVec.getLsbD_or, bit_getLsbD _ _ j hj]

theorem announced_hdr (k : PCfg) (hz : Nat) : TellsHdr (announced k hz) k := by
  constructor <;> first | rfl | (simp only [Announced.has, announced]; rw [options_bit k _ (by decide)]; simp)

/-- The block size survives being packed with the number of event pools. -/
def PackOk (k : PCfg) : Prop := (k.bsize.bytes <<< 4 ||| k.maxEvtPool) % 256 / 16 = k.bsize.bytes

instance (k : PCfg) : Decidable (PackOk k) := inferInstanceAs (Decidable (_ = _))

theorem announced_tells {k : PCfg} (h : PackOk k) (hz : Nat) : Tells (announced k hz) k := by
  constructor <;> first | rfl | exact h | (simp only [Announced.has, announced]; rw [options_bit k _ (by decide)]; simp)

theorem pack_small {k : PCfg} (h : k.maxEvtPool < 16) : PackOk k := by
  unfold PackOk
  rw [← Nat.shiftLeft_add_eq_or_of_lt (by simpa using h), Nat.shiftLeft_eq]
  have : k.bsize.bytes ≤ 4 := by cases k.bsize <;> decide
  omega

theorem tcfg_parse (k : PCfg) (hz : Nat) (n : Byte) (ts : BitVec 32) :
    readTcfg (raw k.cfg n ⟨true, (Pt.fwkTcfg hz).eid, ts, (Pt.fwkTcfg hz).fields k⟩) = some (announced k hz) := by
  have hr := fields_roundtrip k.cfg n ⟨true, (Pt.fwkTcfg hz).eid, ts, (Pt.fwkTcfg hz).fields k⟩
    (fields_ok (Pt.fwkTcfg hz) ⟨trivial, trivial⟩)
  have hty : hdrTy k.cfg ⟨true, (Pt.fwkTcfg hz).eid, ts, (Pt.fwkTcfg hz).fields k⟩ ++
      ((Pt.fwkTcfg hz).fields k).flatMap fieldTy =
      [.int 1, .int 2, .int 4, .int 1, .int 1, .int 1, .int 1, .int 1, .int 2] := rfl
  rw [hty] at hr
  unfold readTcfg
  rw [hr]
  have e1 := nibbles_bytes k.evt k.tstamp
  have e2 := nibbles_bytes k.ptr k.ntimer
  have e3 := nibbles_bytes k.nblock k.nelem
  have e4 : (BitVec.ofNat 8 k.evtSize.bytes).toNat = k.evtSize.bytes := by cases k.evtSize <;> rfl
  have e5 : (BitVec.ofNat 8 (k.bsize.bytes <<< 4 ||| k.maxEvtPool)).toNat = (k.bsize.bytes <<< 4 ||| k.maxEvtPool) % 256 := by
    rw [BitVec.toNat_ofNat]
  have e6 : (te 5 12).toNat = TCFG := rfl
  have hv : hdrVal k.cfg n ⟨true, (Pt.fwkTcfg hz).eid, ts, (Pt.fwkTcfg hz).fields k⟩ ++
      ((Pt.fwkTcfg hz).fields k).flatMap fieldVal =
      [.int (te 5 12).toNat, .int (BitVec.ofNat 16 k.version).toNat, .int (options k).toNat,
       .int (BitVec.ofNat 8 (k.evt.bytes <<< 4 ||| k.tstamp.bytes)).toNat,
       .int (BitVec.ofNat 8 (k.ptr.bytes <<< 4 ||| k.ntimer.bytes)).toNat,
       .int (BitVec.ofNat 8 (k.nblock.bytes <<< 4 ||| k.nelem.bytes)).toNat,
       .int (BitVec.ofNat 8 k.evtSize.bytes).toNat,
       .int (BitVec.ofNat 8 (k.bsize.bytes <<< 4 ||| k.maxEvtPool)).toNat,
       .int (BitVec.ofNat 16 hz).toNat] := rfl
  rw [hv]
  simp only [e1.1, e1.2, e2.1, e2.2, e3.1, e3.2, e4, e5, e6]
  have ha : (⟨(BitVec.ofNat 16 k.version).toNat, (options k).toNat, k.evt.bytes, k.tstamp.bytes, k.ptr.bytes, k.ntimer.bytes,
      k.nblock.bytes, k.nelem.bytes, k.evtSize.bytes, (k.bsize.bytes <<< 4 ||| k.maxEvtPool) % 256 / 16,
      (k.bsize.bytes <<< 4 ||| k.maxEvtPool) % 256 % 16, (BitVec.ofNat 16 hz).toNat⟩ : Announced) = announced k hz := by
    simp [announced]
  rw [ha, (announced_hdr k hz).chk]
  have hc : k.cfg.chkEn = k.chkEn := rfl
  rw [hc]
  cases hk : k.chkEn with
  | false => simp
  | true => simp [sum_raw (hc.trans hk)]

/-! ## Arguments that fit -/

/-- With function addresses transmitted like data addresses, the configuration may as well say so. -/
theorem fields_fun {k : PCfg} (h : k.funPtr = .b16 ↔ k.ptr = .b16) (p : Pt) :
    p.fields k = p.fields { k with funPtr := k.ptr } := by
  have h1 : ∀ a, trcFun k a = trcFun { k with funPtr := k.ptr } a := by
    intro a
    unfold trcFun
    cases hf : k.funPtr <;> cases hp : k.ptr <;> simp_all
  have h2 : ∀ i, usrField k i = usrField { k with funPtr := k.ptr } i := by
    intro i
    cases i <;> try rfl
    simp only [usrField]
    cases hf : k.funPtr <;> cases hp : k.ptr <;> simp_all
  cases p <;> first
    | rfl
    | (simp only [Pt.fields, h1]; done)
    | (simp only [Pt.fields, h1]; rfl)
    | skip
  case user e items => simp only [Pt.fields]; congr 1; funext i; exact h2 i

end Verif.Trc
