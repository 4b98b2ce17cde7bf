import Verif.Trc.PointsLemmas
/-
Properties of the trace points: what a host can make of the records (C88), which counts are reported (C89), and which
pool numbers (C90).
-/
namespace Verif.Trc
open Verif Verif.Trc.Spec

/-- An example configuration: the one of source/trc/test/rkhcfg.h has these sizes. -/
def exK : PCfg :=
  { sz := 128, version := 0x3400, sndrEn := true, rtfilEn := true, userEn := true, allEn := true, mpEn := false,
    queEn := false, smaEn := false, tmrEn := false, smEn := false, fwkEn := false, assertEn := true, queLwmEn := true,
    mpLwmEn := false, rtfilSmaEn := true, rtfilSigEn := true, nseqEn := true, tstampEn := true, chkEn := true,
    smInitEn := true, smClrhEn := true, smDchEn := true, smTrnEn := true, smStateEn := true, smEnstateEn := true,
    smExstateEn := true, smNenexEn := true, smNtrnactEn := true, smTsStateEn := true, smProcessEn := true,
    smExeActEn := true, evt := .b8, tstamp := .b32, ptr := .b32, funPtr := .b32, ntimer := .b16, nblock := .b8,
    nelem := .b8, evtSize := .b8, bsize := .b8, maxEvtPool := 3 }

/-! ## C88: the announcement is enough to read every record -/

/-- The arguments are within the configured sizes. -/
def Fits (k : PCfg) : Pt → Prop
  | .user _ items => ∀ i ∈ items, match i with
    | .obj a => a < 256 ^ k.ptr.bytes
    | .fn a => a < 256 ^ k.funPtr.bytes
    | .sig s => s < 256 ^ k.evt.bytes
    | _ => True
  | p => ∀ x ∈ (says p).2, ∀ n, x.2.2 = .int n → n < 256 ^ size k x.2.1

theorem size_fun (k : PCfg) (s : Slot) (h : s ≠ .fn) : size { k with funPtr := k.ptr } s = size k s := by
  cases s <;> first | rfl | exact absurd rfl h

theorem fits_fun {k : PCfg} (h : k.ptr ≠ .b8) (hf : k.funPtr = .b16 ↔ k.ptr = .b16) :
    256 ^ k.funPtr.bytes ≤ 256 ^ k.ptr.bytes := by
  apply Nat.pow_le_pow_right (by decide)
  revert h hf
  cases k.ptr <;> cases k.funPtr <;> simp [W.bytes]

theorem argsOf_fun {k : PCfg} (h : k.ptr ≠ .b8) (hf : k.funPtr = .b16 ↔ k.ptr = .b16) (p : Pt) (hp : Fits k p) :
    argsOf { k with funPtr := k.ptr } p = argsOf k p := by
  by_cases hu : NotUser p
  · have hp : ∀ x ∈ (says p).2, ∀ n, x.2.2 = .int n → n < 256 ^ size k x.2.1 := by
      cases p <;> first | exact hp | exact absurd hu (by simp [NotUser])
    unfold argsOf
    generalize (says p).2 = l at hp
    induction l with
    | nil => rfl
    | cons x l ih =>
      simp only [List.flatMap_cons]
      rw [ih fun y hy => hp y (by simp [hy])]
      congr 1
      obtain ⟨nm, s, v⟩ := x
      by_cases hs : s = .fn
      · subst hs
        cases v with
        | int n =>
          have h1 := hp _ (List.mem_cons_self ..) n rfl
          simp only [size] at h1
          have h2 := fits_fun h hf
          simp only [present, size, cut, if_true]
          rw [Nat.mod_eq_of_lt h1, Nat.mod_eq_of_lt (by omega)]
        | text s => rfl
        | blob s => rfl
      · simp only [size_fun k s hs]
        cases s <;> rfl
  · cases p with
    | user e items => rfl
    | _ => exact absurd trivial hu

theorem itemsOf_fun {k : PCfg} (h : k.ptr ≠ .b8) (hf : k.funPtr = .b16 ↔ k.ptr = .b16) (p : Pt) (hp : Fits k p) :
    itemsOf { k with funPtr := k.ptr } p = itemsOf k p := by
  cases p with
  | user e items =>
    simp only [itemsOf]
    apply List.map_congr_left
    intro i hi
    have := hp i hi
    cases i <;> try rfl
    simp only [] at this
    have h2 := fits_fun h hf
    simp only [itemOf]
    rw [Nat.mod_eq_of_lt this, Nat.mod_eq_of_lt (by omega)]
  | _ => rfl

/-- Configurations whose records can be read with nothing but the announcement: addresses of 16 or 32 bits, function
addresses transmitted like data addresses, and a number of event pools that leaves the neighbouring size intact. -/
def Readable (k : PCfg) : Prop := k.ptr ≠ .b8 ∧ (k.funPtr = .b16 ↔ k.ptr = .b16) ∧ PackOk k

instance (k : PCfg) : Decidable (Readable k) := inferInstanceAs (Decidable (_ ∧ _))

/-- A configuration record is always understood, except for the two numbers that share a byte. -/
theorem announcement_is_read (k : PCfg) (hz : Nat) (n : Byte) (ts : BitVec 32) :
    ∃ a, readTcfg (raw k.cfg n (recOf ((Pt.fwkTcfg hz).kind k) (Pt.fwkTcfg hz).eid ts ((Pt.fwkTcfg hz).fields k))) = some a ∧
      a.version = k.version % 65536 ∧ a.hz = hz % 65536 ∧
      [a.evt, a.tstamp, a.ptr, a.ntimer, a.nblock, a.nelem, a.evtSize] =
        [k.evt, k.tstamp, k.ptr, k.ntimer, k.nblock, k.nelem, k.evtSize].map W.bytes ∧
      (List.range 18).map a.has =
        [k.sndrEn, k.rtfilEn, k.userEn, k.allEn, k.mpEn, k.queEn, k.smaEn, k.tmrEn, k.smEn, k.fwkEn, k.assertEn, k.queLwmEn,
         k.mpLwmEn, k.rtfilSmaEn, k.rtfilSigEn, k.nseqEn, k.tstampEn, k.chkEn] ∧
      (∀ i, 18 ≤ i → a.has i = false) ∧
      (k.maxEvtPool < 16 → a.bsize = k.bsize.bytes ∧ a.maxEvtPool = k.maxEvtPool) := by
  have hk : (Pt.fwkTcfg hz).kind k = .dft := by unfold Pt.kind; cases k.rtfilEn <;> rfl
  rw [hk]
  refine ⟨announced k hz, tcfg_parse k hz n ts, rfl, rfl, rfl, ?_, ?_, ?_⟩
  · have hb : ∀ i, i < 18 → (announced k hz).has i = _ := fun i hi => options_bit k i (by omega)
    simp [List.range_succ, hb]
  · intro i hi
    by_cases h : i < 32
    · show (options k).toNat.testBit i = false
      rw [options_bit k i h]
      have : ∀ j, j < 18 → decide (j = i) = false := fun j hj => by simp; omega
      simp [this]
    · exact Nat.testBit_lt_two_pow (Nat.lt_of_lt_of_le (options k).isLt (Nat.pow_le_pow_right (by decide) (by omega)))
  · intro h
    refine ⟨pack_small h, ?_⟩
    show (k.bsize.bytes <<< 4 ||| k.maxEvtPool) % 256 % 16 = k.maxEvtPool
    rw [← Nat.shiftLeft_add_eq_or_of_lt (by simpa using h), Nat.shiftLeft_eq]
    omega

example : (readTcfg (raw exK.cfg 0#8 ⟨true, 172, 0, (Pt.fwkTcfg 1000).fields exK⟩)).map
    (fun a => ([a.has 0, a.has 12], [a.tstamp, a.ntimer, a.bsize, a.maxEvtPool, a.hz])) =
    some ([true, false], [4, 2, 1, 3, 1000]) := by decide +kernel

/-- `k.ptr = 8` bits: the host looks for one byte, the records carry four. -/
theorem unreadable_ptr {k : PCfg} (h : k.ptr = .b8) (hz : Nat) (n : Byte) (ts : BitVec 32) :
    decode (announced k hz) (raw k.cfg n ⟨false, (Pt.queFull 0).eid, ts, (Pt.queFull 0).fields k⟩) = none := by
  rw [decode_hdr (announced_hdr k hz) (.queFull 0) trivial (by intro hz; simp)]
  have hl : layout (says (.queFull 0)).1 = some [("queue", .sym)] := by decide
  have h6 : ¬ (says (.queFull 0)).1 / 32 = 6 := by decide
  unfold decodeArgs
  rw [if_neg h6, hl]
  simp [announced, slotTy, h, bytes_b8, Pt.fields, trcSym, ui32, fieldBytes, leBytes, parse, parse1]

/-- Different sizes of function and data addresses: the host looks for the size of data addresses. -/
theorem unreadable_fun {k : PCfg} (h1 : k.ptr ≠ .b8) (h : ¬ (k.funPtr = .b16 ↔ k.ptr = .b16)) (hz : Nat) (n : Byte) (ts : BitVec 32) :
    decode (announced k hz) (raw k.cfg n ⟨false, (Pt.fwkExeFun 0).eid, ts, (Pt.fwkExeFun 0).fields k⟩) = none := by
  rw [decode_hdr (announced_hdr k hz) (.fwkExeFun 0) trivial (by intro hz; simp)]
  have hl : layout (says (.fwkExeFun 0)).1 = some [("function", .fn)] := by decide
  have h6 : ¬ (says (.fwkExeFun 0)).1 / 32 = 6 := by decide
  unfold decodeArgs
  rw [if_neg h6, hl]
  have hcase : (k.ptr = .b16 ∧ k.funPtr ≠ .b16) ∨ (k.ptr = .b32 ∧ k.funPtr = .b16) := by
    revert h1 h
    cases k.ptr <;> cases k.funPtr <;> simp
  rcases hcase with ⟨hp, hf⟩ | ⟨hp, hf⟩
  · have hw : trcFun k 0 = ui32 0 := by
      unfold trcFun
      cases hf' : k.funPtr <;> first | rfl | exact absurd hf' hf
    simp [announced, slotTy, hp, bytes_b16, Pt.fields, hw, ui32, fieldBytes, leBytes, parse, parse1]
  · simp [announced, slotTy, hp, bytes_b32, Pt.fields, trcFun, hf, ui16, fieldBytes, leBytes, parse, parse1]

/-- The number of event pools spoils the size of block sizes. -/
theorem unreadable_pack {k : PCfg} (h1 : k.ptr ≠ .b8) (h : ¬ PackOk k) (hz : Nat) (n : Byte) (ts : BitVec 32) :
    decode (announced k hz) (raw k.cfg n ⟨false, (Pt.mpInit 0 0 0).eid, ts, (Pt.mpInit 0 0 0).fields k⟩) = none := by
  rw [decode_hdr (announced_hdr k hz) (.mpInit 0 0 0) trivial (by intro hz; simp)]
  have hl : layout (says (.mpInit 0 0 0)).1 = some [("memPool", .sym), ("nBlocks", .nblk), ("blockSize", .bsize)] := by decide
  have h6 : ¬ (says (.mpInit 0 0 0)).1 / 32 = 6 := by decide
  unfold decodeArgs
  rw [if_neg h6, hl]
  have hb : ∀ w : W, fieldBytes (uint w 0) = leBytes w.bytes 0 := by intro w; cases w <;> rfl
  have hf : ((Pt.mpInit 0 0 0).fields k).flatMap fieldBytes =
      leBytes k.ptr.bytes 0 ++ (leBytes k.nblock.bytes 0 ++ leBytes k.bsize.bytes 0) := by
    simp [Pt.fields, trcSym_uint h1, trcNblk, trcBsize, hb]
  rw [hf]
  have p1 : ∀ (w : W) rest, parse1 (.int w.bytes) (leBytes w.bytes 0 ++ rest) = some (.int 0, rest) := fun w rest =>
    parse1_int w.bytes 0 rest (Nat.pow_pos (by decide))
  have hne : (announced k hz).bsize ≠ k.bsize.bytes := h
  have hlen := length_leBytes k.bsize.bytes 0
  have e1 : slotTy (announced k hz) .sym = [.int k.ptr.bytes] := rfl
  have e2 : slotTy (announced k hz) .nblk = [.int k.nblock.bytes] := rfl
  have e3 : slotTy (announced k hz) .bsize = [.int (announced k hz).bsize] := rfl
  simp only [List.flatMap_cons, List.flatMap_nil, e1, e2, e3, List.cons_append, List.nil_append,
    List.append_nil, parse, p1]
  simp only [parse1]
  by_cases hle : (announced k hz).bsize ≤ (leBytes k.bsize.bytes 0).length
  · rw [if_pos hle]
    have : (leBytes k.bsize.bytes 0).drop (announced k hz).bsize ≠ [] := by
      intro hd
      have := List.drop_eq_nil_iff.1 hd
      omega
    simp only []
    generalize (leBytes k.bsize.bytes 0).drop (announced k hz).bsize = r at this
    cases r with
    | nil => exact absurd rfl this
    | cons x r => rfl
  · rw [if_neg hle]

/-- A host that has read the announcement decodes every record to what the program passed, exactly in the configurations
`Readable`. -/
theorem announcement_suffices_iff (k : PCfg) (hz : Nat) (a : Announced)
    (ha : readTcfg (raw k.cfg 0#8 (recOf .dft (Pt.fwkTcfg hz).eid 0 ((Pt.fwkTcfg hz).fields k))) = some a) :
    (∀ p n ts, PtOk p → Ordinary p → Fits k p →
      decode a (raw k.cfg n ⟨false, p.eid, ts, p.fields k⟩) = some (meaning k n p ts)) ↔ Readable k := by
  have hr : recOf .dft (Pt.fwkTcfg hz).eid 0 ((Pt.fwkTcfg hz).fields k) =
      ⟨true, (Pt.fwkTcfg hz).eid, 0, (Pt.fwkTcfg hz).fields k⟩ := rfl
  rw [hr, tcfg_parse k hz 0#8 0] at ha
  cases ha
  constructor
  · intro h
    by_cases h1 : k.ptr = .b8
    · have := h (.queFull 0) 0 0 ⟨trivial, trivial⟩ (by intro hz; simp)
        (by intro x hx m hm; simp [says] at hx; subst hx; cases hm; exact Nat.pow_pos (by decide))
      rw [unreadable_ptr h1 hz 0 0] at this
      cases this
    · refine ⟨h1, ?_⟩
      by_cases h2 : k.funPtr = .b16 ↔ k.ptr = .b16
      · refine ⟨h2, ?_⟩
        by_cases h3 : PackOk k
        · exact h3
        · have := h (.mpInit 0 0 0) 0 0 ⟨trivial, trivial⟩ (by intro hz; simp)
            (by intro x hx m hm; simp [says] at hx; rcases hx with rfl | rfl | rfl <;> cases hm <;> exact Nat.pow_pos (by decide))
          rw [unreadable_pack h1 h3 hz 0 0] at this
          cases this
      · have := h (.fwkExeFun 0) 0 0 ⟨trivial, trivial⟩ (by intro hz; simp)
          (by intro x hx m hm; simp [says] at hx; subst hx; cases hm; exact Nat.pow_pos (by decide))
        rw [unreadable_fun h1 h2 hz 0 0] at this
        cases this
  · rintro ⟨h1, h2, h3⟩ p n ts hp ho hfit
    have hd := decode_raw (k := { k with funPtr := k.ptr }) (a := announced k hz)
      (by have := announced_tells h3 hz; exact ⟨this.1, this.2, this.3, this.4, this.5, this.6, this.7, this.8, this.9, this.10,
        this.11, this.12, this.13, this.14⟩) ⟨h1, rfl⟩ p hp ho n ts
    rw [← fields_fun h2 p] at hd
    have hm : meaning { k with funPtr := k.ptr } n p ts = meaning k n p ts := by
      unfold meaning
      rw [argsOf_fun h1 h2 p hfit, itemsOf_fun h1 h2 p hfit]
    rw [hm] at hd
    exact hd

example : Readable exK ∧ Fits exK (.smaFifo ⟨0x20000000, 3⟩ ⟨7, 1, 2⟩ 0x20000010 1 2 4 1) := by
  refine ⟨by decide, ?_⟩
  intro x hx n hn
  simp [says] at hx
  rcases hx with rfl | rfl | rfl | rfl | rfl | rfl | rfl <;> cases hn <;> decide

/-- With 64 event pools and 8-bit block sizes the announcement claims 5-byte block sizes. -/
example : ¬ Readable { exK with maxEvtPool := 64 } ∧
    (announced { exK with maxEvtPool := 64 } 0).bsize = 5 ∧ (announced { exK with maxEvtPool := 64 } 0).maxEvtPool = 0 := by decide

/-- 16-bit function addresses with 32-bit data addresses. -/
example : ¬ Readable { exK with funPtr := .b16 } := by decide

/-! ### From the program to the host -/

theorem legal_pt {f : FCfg} {k : PCfg} (p : Pt) (ts : BitVec 32) (h : PtOk p) (hk : KindOk f (p.kind k)) :
    Legal f (p.op k ts) := by
  refine ⟨?_, hk, fields_ok p h⟩
  refine .inr (.inr ?_)
  rw [eid_says p h.2]
  cases p <;> first | (simp only [says]; decide) | skip
  case fwkState ao s r nm => cases r <;> simp only [says] <;> decide
  case user e items =>
    obtain ⟨_, h1, h2, _⟩ := h
    simp only [says, Used]
    have : e / 32 = 6 := by omega
    rw [this]
    exact ⟨by omega, by show e % 32 < 32; omega⟩

theorem kind_ordinary {k : PCfg} (p : Pt) (h : Ordinary p) : (p.kind k == Kind.dft) = false := by
  unfold Pt.kind
  cases k.rtfilEn <;> cases p <;> first | rfl | exact absurd rfl (h _)

/-- The macros filter as documented. -/
theorem leaves_eq {f : FCfg} {k : PCfg} {on : On} (p : Pt) (h : PtOk p) :
    (p.compiled k && emits f on (p.kind k) (says p).1) = leaves f k on p := by
  by_cases hr : k.rtfilEn = true
  · cases p
    case user e items =>
      have h1 := h.2
      simp only [UserOk] at h1
      have : e / 32 = 6 := by omega
      have h2 : isSymbol e = false := by simp [isSymbol]; omega
      simp [leaves, Pt.compiled, Pt.kind, hr, emits, says, included, this, h2, aoOf, sigOf]
    case fwkState ao s r nm => cases r <;> simp [leaves, Pt.compiled, Pt.kind, hr, emits, says, included, isSymbol]
    all_goals simp [leaves, Pt.compiled, Pt.kind, hr, emits, says, included, isSymbol, aoOf, sigOf, smSwitch, Bool.and_assoc]
  · have hr : k.rtfilEn = false := by simpa using hr
    cases p
    case user e items =>
      have h1 := h.2
      simp only [UserOk] at h1
      have : e / 32 = 6 := by omega
      have h2 : isSymbol e = false := by simp [isSymbol]; omega
      simp [leaves, Pt.compiled, Pt.kind, hr, emits, says, included, this, h2, aoOf, sigOf]
    case fwkState ao s r nm => cases r <;> simp [leaves, Pt.compiled, Pt.kind, hr, emits, says, included, isSymbol]
    all_goals simp [leaves, Pt.compiled, Pt.kind, hr, emits, says, included, smSwitch]

theorem kind_ok {f : FCfg} {k : PCfg} (p : Pt) (h : k.rtfilEn → FilterOk f p) : KindOk f (p.kind k) := by
  by_cases hr : k.rtfilEn = true
  · have h := h hr
    obtain ⟨h1, h2⟩ := h
    cases p <;> simp only [Pt.kind, hr, KindOk] <;> first | trivial | exact h1 _ rfl | exact ⟨h1 _ rfl, h2 _ rfl⟩
  · have hr : k.rtfilEn = false := by simpa using hr
    cases p <;> simp [Pt.kind, hr, KindOk]

theorem emitted_shown {f : FCfg} {k : PCfg} : ∀ (acts : List Act) (on : On), (∀ x ∈ acts, ActOk f k x) →
    emitted f on (acts.flatMap (calls k)) =
      (shown f k on acts).map fun x => ⟨false, x.1.eid, x.2, x.1.fields k⟩
  | [], on, _ => rfl
  | .pt p ts :: acts, on, h => by
    have ih := emitted_shown acts on fun x hx => h x (by simp [hx])
    have hp := h (.pt p ts) (by simp)
    simp only [List.flatMap_cons, calls, shown, ← leaves_eq p hp.1]
    cases hc : p.compiled k with
    | false => simpa using ih
    | true =>
      simp only [if_true, Pt.op, List.cons_append, List.nil_append, emitted, onAfter, Bool.true_and, List.map_append]
      rw [ih, eid_says p hp.1.2]
      congr 1
      split
      · simp [recOf, kind_ordinary p hp.2.2]
      · rfl
  | .ctl op :: acts, on, h => by
    have ih := emitted_shown acts (onAfter on op) fun x hx => h x (by simp [hx])
    have hp := (h (.ctl op) (by simp)).2
    simp only [List.flatMap_cons, calls, shown, List.cons_append, List.nil_append, emitted]
    cases op <;> first | (simpa using ih) | exact absurd rfl (hp _ _ _ _)

theorem decodeAll_raws {a : Announced} {k : PCfg} (ht : Tells a k) (hp : PtrOk k) : ∀ (l : List (Pt × BitVec 32)) (n : Byte),
    (∀ x ∈ l, PtOk x.1 ∧ Ordinary x.1) →
    decodeAll a (raws k.cfg n (l.map fun x => ⟨false, x.1.eid, x.2, x.1.fields k⟩)) = some (meanings k n l)
  | [], _, _ => rfl
  | (p, ts) :: l, n, h => by
    have h1 := h (p, ts) (by simp)
    have hd := decode_raw ht hp p h1.1 h1.2 n ts
    have hseq : nextSeq k.cfg n ⟨false, p.eid, ts, p.fields k⟩ = if k.nseqEn then n + 1#8 else n := by
      simp only [nextSeq, Bool.false_or]
      have : k.cfg.nseqEn = k.nseqEn := rfl
      rw [this]
      cases k.nseqEn <;> rfl
    have hm : ∀ (l : List (Pt × BitVec 32)) (m m' : Byte), k.nseqEn = false → meanings k m l = meanings k m' l := by
      intro l
      induction l with
      | nil => intros; rfl
      | cons x l ih =>
        intro m m' hk
        obtain ⟨q, t⟩ := x
        simp only [meanings]
        rw [ih (m + 1#8) (m' + 1#8) hk]
        simp [meaning, hk]
    simp only [List.map_cons, raws, decodeAll, hd]
    rw [decodeAll_raws ht hp l _ fun x hx => h x (by simp [hx])]
    simp only [meanings, hseq]
    cases hk : k.nseqEn with
    | true => rfl
    | false => simp only [Bool.false_eq_true, if_false]; rw [hm l n (n + 1#8) hk]

theorem shown_ok {f : FCfg} {k : PCfg} : ∀ (acts : List Act) (on : On), (∀ x ∈ acts, ActOk f k x) →
    ∀ x ∈ shown f k on acts, PtOk x.1 ∧ Ordinary x.1
  | [], _, _, x, hx => by simp [shown] at hx
  | .pt p ts :: acts, on, h, x, hx => by
    simp only [shown, List.mem_append] at hx
    rcases hx with hx | hx
    · split at hx
      · simp only [List.mem_singleton] at hx
        subst hx
        have := h (.pt p ts) (by simp)
        exact ⟨this.1, this.2.2⟩
      · simp at hx
    · exact shown_ok acts on (fun y hy => h y (by simp [hy])) x hx
  | .ctl op :: acts, on, h, x, hx => shown_ok acts _ (fun y hy => h y (by simp [hy])) x hx

/-- The program announces its configuration and then executes trace points, controls the filters and lets the reader fetch
bytes, in any order. If the reader keeps up, a host that knows nothing but the documentation and the bytes decodes exactly
the trace points let through, in order, with the arguments the program passed. Partial: needs a configuration where
function and data addresses have the same size of 16 or 32 bits and where the number of event pools does not spoil the
announcement; `announcement_suffices_iff` shows that without this it is false. -/
theorem host_sees_what_the_program_did_partial {f : FCfg} {k : PCfg} (hc : CfgOk k.cfg f) (hk : k.ptr ≠ .b8 ∧ k.funPtr = k.ptr)
    (hm : k.maxEvtPool < 16) (hen : k.allEn || k.fwkEn) (mem : List Byte) (hmem : mem.length = k.sz) (hz : Nat) (ts : BitVec 32)
    (acts : List Act) (h : ∀ x ∈ acts, ActOk f k x) :
    let ops := calls k (.pt (.fwkTcfg hz) ts) ++ acts.flatMap (calls k)
    ∃ w0 outs w', start k.cfg f mem = .ok w0 ∧ runOps (step k.cfg f) w0 ops = (outs, .ok w') ∧
      ((∀ i, i ≤ ops.length →
          (wire k.cfg (emitted f On.none (ops.take i))).length ≤ k.sz + ((outs.take i).flatMap readBytes).length) →
        ∃ unread a,
          (∀ d, d.length = k.sz → ∃ w'' n b, step k.cfg f w' (.whole d k.sz) = .ok (w'', .buffer n b) ∧ b.take n = unread) ∧
          host (receive (outs.flatMap readBytes ++ unread)) = some (a, meanings k 0#8 (shown f k On.none acts))) := by
  intro ops
  have hkind : (Pt.fwkTcfg hz).kind k = .dft := by unfold Pt.kind; cases k.rtfilEn <;> rfl
  have hops : ops = .trace .dft (Pt.fwkTcfg hz).eid ts ((Pt.fwkTcfg hz).fields k) :: acts.flatMap (calls k) := by
    show calls k (.pt (.fwkTcfg hz) ts) ++ _ = _
    have : (Pt.fwkTcfg hz).compiled k = true := hen
    simp only [calls, this, if_true, Pt.op, hkind, List.cons_append, List.nil_append]
  have hl : ∀ op ∈ ops, Legal f op := by
    intro op hop
    rw [hops, List.mem_cons, List.mem_flatMap] at hop
    rcases hop with rfl | ⟨x, hx, hop⟩
    · exact ⟨.inr (.inl rfl), trivial, fields_ok (.fwkTcfg hz) ⟨trivial, trivial⟩⟩
    · have hx := h x hx
      cases x with
      | pt p t =>
        simp only [calls] at hop
        split at hop
        · simp only [List.mem_singleton] at hop
          subst hop
          exact legal_pt p t hx.1 (kind_ok p hx.2.1)
        · simp at hop
      | ctl o =>
        simp only [calls, List.mem_singleton] at hop
        subst hop
        exact hx.1
  obtain ⟨w0, outs, w', h1, h2, h3⟩ := reader_keeping_up_loses_nothing hc mem hmem ops hl
  refine ⟨w0, outs, w', h1, h2, fun hup => ?_⟩
  obtain ⟨unread, e1, e2⟩ := h3 hup
  refine ⟨unread, announced k hz, e2, ?_⟩
  have hf := framing_roundtrip k.cfg (emitted f On.none ops)
  have he : emitted f On.none ops = ⟨true, (Pt.fwkTcfg hz).eid, ts, (Pt.fwkTcfg hz).fields k⟩ ::
      (shown f k On.none acts).map fun x => ⟨false, x.1.eid, x.2, x.1.fields k⟩ := by
    rw [hops, emitted]
    simp only [onAfter]
    rw [emitted_shown acts On.none h]
    rfl
  rw [e1, hf.1, he]
  simp only [raws, host, tcfg_parse]
  have ht := announced_tells (pack_small hm) hz
  have hn : nextSeq k.cfg 0#8 ⟨true, (Pt.fwkTcfg hz).eid, ts, (Pt.fwkTcfg hz).fields k⟩ = 0#8 := rfl
  rw [hn, decodeAll_raws ht ⟨hk.1, by rw [hk.2]⟩ _ _ (shown_ok acts On.none h)]
  rfl

/-- A run with two trace points let through and one filtered, the reader fetching everything at the end. -/
def exActs : List Act :=
  [.ctl (.event true 36), .pt (.queFull 0x20001000) 7, .pt (.queDpt 0x20001000) 8, .pt (.fwkSig 5 [101, 0]) 9]

example : CfgOk exK.cfg exF ∧ (∀ x ∈ exActs, ActOk exF exK x) ∧
    (meanings exK 0#8 (shown exF exK On.none exActs)).map (fun d => (d.id, d.seq, d.args)) =
      [(36, some 0, [("queue", .int 0x20001000)]), (167, some 1, [("sig", .int 5), ("name", .text [101])])] := by
  refine ⟨by constructor <;> decide, ?_, by decide +kernel⟩
  intro x hx
  simp only [exActs, List.mem_cons, List.not_mem_nil, or_false] at hx
  rcases hx with rfl | rfl | rfl | rfl
  · exact ⟨.inr (by decide), by simp⟩
  · exact ⟨⟨trivial, trivial⟩, fun _ => by simp [FilterOk, aoOf, sigOf], by intro hz; simp⟩
  · exact ⟨⟨trivial, trivial⟩, fun _ => by simp [FilterOk, aoOf, sigOf], by intro hz; simp⟩
  · exact ⟨⟨by simp [StrOk], trivial⟩, fun _ => by simp [FilterOk, aoOf, sigOf], by intro hz; simp⟩

/-! ## C89: reported counts -/

/-- Every host that has read the announcement finds the value `v` under `name` in the record of the trace point. -/
def Sees (k : PCfg) (p : Pt) (name : String) (v : Nat) : Prop :=
  ∀ hz n ts a, readTcfg (raw k.cfg 0#8 (recOf .dft (Pt.fwkTcfg hz).eid 0 ((Pt.fwkTcfg hz).fields k))) = some a →
    (decode a (raw k.cfg n ⟨false, p.eid, ts, p.fields k⟩)).bind (fun d => d.args.lookup name) = some (.int v)

theorem sees_of {k : PCfg} (hk : k.ptr ≠ .b8 ∧ k.funPtr = k.ptr) (hm : k.maxEvtPool < 16) {p : Pt} (hp : PtOk p)
    (ho : Ordinary p) {name : String} {v : Nat} (h : (argsOf k p).lookup name = some (.int v)) : Sees k p name v := by
  intro hz n ts a ha
  have hr : recOf .dft (Pt.fwkTcfg hz).eid 0 ((Pt.fwkTcfg hz).fields k) =
      ⟨true, (Pt.fwkTcfg hz).eid, 0, (Pt.fwkTcfg hz).fields k⟩ := rfl
  rw [hr, tcfg_parse k hz 0#8 0] at ha
  cases ha
  rw [decode_raw (announced_tells (pack_small hm) hz) ⟨hk.1, by rw [hk.2]⟩ p hp ho n ts]
  exact h

/-- A host never sees two values. -/
theorem Sees.unique {k : PCfg} {p : Pt} {name : String} {v v' : Nat} (h : Sees k p name v) (h' : Sees k p name v') : v = v' := by
  have h1 := h 0 0 0 _ (tcfg_parse k 0 0#8 0)
  have h2 := h' 0 0 0 _ (tcfg_parse k 0 0#8 0)
  rw [h1] at h2
  simpa using h2

theorem pow_bytes (w : W) : 256 ≤ 256 ^ w.bytes := by cases w <;> decide
theorem pow_le (w : W) : 2 ^ 32 % 256 ^ w.bytes = 0 := by cases w <;> decide

theorem gcr_count (w : W) (u : Nat) (h : 0 < u) (hu : u < 256) : (u + (2 ^ 32 - 1)) % 256 ^ w.bytes = u - 1 := by
  cases w <;> simp only [W.bytes] <;> omega

/-- The counts in the records about event pools: total number of blocks at registration, blocks in use after an allocation,
blocks in use after a recycling, the low-water mark, the size of an activated object's queue, and the number of events in
the queue after a post. Partial: for pools of fewer than 256 blocks and queues of fewer than 256 elements. -/
theorem reported_counts_partial {k : PCfg} (hk : k.ptr ≠ .b8 ∧ k.funPtr = k.ptr) (hm : k.maxEvtPool < 16) (P : Pool)
    (hP : P.nblocks < 256 ∧ P.nfree < P.nblocks ∧ P.nmin ≤ P.nfree) (id ssize esize sig i sender qsize qty nmin : Nat) (e : Ev)
    (ao : Ao) (hq : qsize < 256 ∧ qty ≤ qsize ∧ nmin ≤ qsize) :
    Sees k (epregPt id ssize esize P) "poolSize" P.nblocks ∧
    Sees k (aePt esize sig i P sender) "nUsed" (P.nblocks - P.nfree) ∧
    Sees k (gcrPt e P sender) "nUsed" (P.nblocks - P.nfree - 1) ∧
    (k.mpLwmEn → Sees k (aePt esize sig i P sender) "nMin" P.nmin ∧ Sees k (gcrPt e P sender) "nMin" P.nmin) ∧
    Sees k (actPt ao qsize) "queSize" qsize ∧
    Sees k (fifoPt ao e sender qty nmin) "nElem" qty ∧
    (k.queLwmEn → Sees k (fifoPt ao e sender qty nmin) "nMin" nmin) := by
  obtain ⟨h1, h2, h3⟩ := hP
  obtain ⟨q1, q2, q3⟩ := hq
  have hb := pow_bytes k.nblock
  have hn := pow_bytes k.nelem
  have hu : P.numUsed = P.nblocks - P.nfree := Nat.mod_eq_of_lt (by omega)
  have hmin : P.numMin = P.nmin := Nat.mod_eq_of_lt (by omega)
  have hnb : P.numBlock = P.nblocks := Nat.mod_eq_of_lt (by omega)
  refine ⟨sees_of hk hm (by exact ⟨trivial, trivial⟩) (by intro hz; simp [epregPt]) ?_,
    sees_of hk hm (by exact ⟨trivial, trivial⟩) (by intro hz; simp [aePt]) ?_,
    sees_of hk hm (by exact ⟨trivial, trivial⟩) (by intro hz; simp [gcrPt]) ?_, fun hl => ⟨?_, ?_⟩,
    sees_of hk hm (by exact ⟨trivial, trivial⟩) (by intro hz; simp [actPt]) ?_,
    sees_of hk hm (by exact ⟨trivial, trivial⟩) (by intro hz; simp [fifoPt]) ?_, fun hl => ?_⟩
  · have : P.nblocks % 256 ^ k.nblock.bytes = P.nblocks := Nat.mod_eq_of_lt (by omega)
    simp [epregPt, argsOf, says, present, size, cut, hnb, this, List.lookup]
  · have : (P.nblocks - P.nfree) % 256 ^ k.nblock.bytes = P.nblocks - P.nfree := Nat.mod_eq_of_lt (by omega)
    simp [aePt, argsOf, says, present, size, cut, hu, this, List.lookup]
  · have := gcr_count k.nblock (P.nblocks - P.nfree) (by omega) (by omega)
    simp only [Nat.reducePow, Nat.reduceSub] at this
    simp [gcrPt, argsOf, says, present, size, cut, hu, List.lookup, this]
  · refine sees_of hk hm (by exact ⟨trivial, trivial⟩) (by intro hz; simp [aePt]) ?_
    have : P.nmin % 256 ^ k.nblock.bytes = P.nmin := Nat.mod_eq_of_lt (by omega)
    simp [aePt, argsOf, says, present, size, cut, hmin, this, List.lookup, hl]
  · refine sees_of hk hm (by exact ⟨trivial, trivial⟩) (by intro hz; simp [gcrPt]) ?_
    have : P.nmin % 256 ^ k.nblock.bytes = P.nmin := Nat.mod_eq_of_lt (by omega)
    simp [gcrPt, argsOf, says, present, size, cut, hmin, this, List.lookup, hl]
  · have : qsize % 256 = qsize := Nat.mod_eq_of_lt q1
    simp [actPt, argsOf, says, present, size, cut, this, List.lookup]
  · have : qty % 256 ^ k.nelem.bytes = qty := Nat.mod_eq_of_lt (by omega)
    cases hs : k.sndrEn <;> simp [fifoPt, argsOf, says, present, size, cut, this, List.lookup, hs]
  · refine sees_of hk hm (by exact ⟨trivial, trivial⟩) (by intro hz; simp [fifoPt]) ?_
    have : nmin % 256 ^ k.nelem.bytes = nmin := Nat.mod_eq_of_lt (by omega)
    cases hs : k.sndrEn <;> simp [fifoPt, argsOf, says, present, size, cut, this, List.lookup, hs, hl]

example : (exK.ptr ≠ .b8 ∧ exK.funPtr = exK.ptr) ∧ exK.maxEvtPool < 16 ∧
    ((⟨8, 5, 3⟩ : Pool).nblocks < 256 ∧ (⟨8, 5, 3⟩ : Pool).nfree < 8 ∧ (3 : Nat) ≤ 5) := by decide

/-- A larger pool reports its counts modulo 256, even where the configuration provides for 16 or 32 bits. -/
theorem reported_counts_wrap {k : PCfg} (hk : k.ptr ≠ .b8 ∧ k.funPtr = k.ptr) (hm : k.maxEvtPool < 16) (P : Pool)
    (id ssize esize sig i sender : Nat) :
    Sees k (epregPt id ssize esize P) "poolSize" (P.nblocks % 256) ∧
    Sees k (aePt esize sig i P sender) "nUsed" ((P.nblocks - P.nfree) % 256) := by
  have hb := pow_bytes k.nblock
  have hlt : ∀ x, x % 256 % 256 ^ k.nblock.bytes = x % 256 := fun x =>
    Nat.mod_eq_of_lt (by have := Nat.mod_lt x (show 0 < 256 by decide); omega)
  refine ⟨sees_of hk hm (by exact ⟨trivial, trivial⟩) (by intro hz; simp [epregPt]) ?_,
    sees_of hk hm (by exact ⟨trivial, trivial⟩) (by intro hz; simp [aePt]) ?_⟩
  · simp [epregPt, argsOf, says, present, size, cut, Pool.numBlock, hlt, List.lookup]
  · simp [aePt, argsOf, says, present, size, cut, Pool.numUsed, hlt, List.lookup]

/-- So with 16-bit block counts, an allocation that leaves 300 blocks in use is not reported as such. -/
theorem reported_counts_are_wrong {k : PCfg} (hk : k.ptr ≠ .b8 ∧ k.funPtr = k.ptr) (hm : k.maxEvtPool < 16) (P : Pool)
    (hP : 256 ≤ P.nblocks - P.nfree) (esize sig i sender : Nat) :
    ¬ Sees k (aePt esize sig i P sender) "nUsed" (P.nblocks - P.nfree) := by
  intro h
  have := h.unique (reported_counts_wrap hk hm P 0 0 esize sig i sender).2
  omega

example : (256 : Nat) ≤ (⟨400, 100, 100⟩ : Pool).nblocks - (⟨400, 100, 100⟩ : Pool).nfree := by decide

/-- The activation of an active object whose queue has more than 255 elements reports another size. -/
theorem reported_queue_size_is_wrong {k : PCfg} (hk : k.ptr ≠ .b8 ∧ k.funPtr = k.ptr) (hm : k.maxEvtPool < 16) (ao : Ao)
    (qsize : Nat) (hq : 256 ≤ qsize) : ¬ Sees k (actPt ao qsize) "queSize" qsize := by
  intro h
  have h2 : Sees k (actPt ao qsize) "queSize" (qsize % 256) :=
    sees_of hk hm (by exact ⟨trivial, trivial⟩) (by intro hz; simp [actPt])
      (by simp [actPt, argsOf, says, present, size, cut, List.lookup])
  have := h.unique h2
  omega

/-! ## C90: pool numbers -/

/-- The pool at index `i` is registered under the number `i + 1`, and posting an event allocated from it or releasing a
reference to it reports that number. Partial: the allocation and the recycling of the event report `i`, see
`pool_numbers_disagree`. -/
theorem pool_numbers_partial {k : PCfg} (hk : k.ptr ≠ .b8 ∧ k.funPtr = k.ptr) (hm : k.maxEvtPool < 16) (P : Pool)
    (i : Nat) (hi : i < 255) (ssize esize sig nref sender qty nmin : Nat) (ao : Ao) :
    Sees k (epregPt (i + 1) ssize esize P) "evtPool" (i + 1) ∧
    Sees k (fifoPt ao ⟨sig, i + 1, nref⟩ sender qty nmin) "poolID" (i + 1) ∧
    Sees k (gcPt ⟨sig, i + 1, nref⟩) "pool" (i + 1) := by
  have : (i + 1) % 256 = i + 1 := Nat.mod_eq_of_lt (by omega)
  refine ⟨sees_of hk hm (by exact ⟨trivial, trivial⟩) (by intro hz; simp [epregPt]) ?_,
    sees_of hk hm (by exact ⟨trivial, trivial⟩) (by intro hz; simp [fifoPt]) ?_,
    sees_of hk hm (by exact ⟨trivial, trivial⟩) (by intro hz; simp [gcPt]) ?_⟩
  · simp [epregPt, argsOf, says, present, size, cut, this]
  · cases hs : k.sndrEn <;> simp [fifoPt, argsOf, says, present, size, cut, this, List.lookup, hs]
  · simp [gcPt, argsOf, says, present, size, cut, this, List.lookup]

/-- The allocation and the recycling of the same event name the pool `i`. -/
theorem pool_numbers_disagree {k : PCfg} (hk : k.ptr ≠ .b8 ∧ k.funPtr = k.ptr) (hm : k.maxEvtPool < 16) (P : Pool)
    (i : Nat) (hi : i < 255) (esize sig nref sender : Nat) :
    (Sees k (aePt esize sig i P sender) "pool" i ∧ Sees k (gcrPt ⟨sig, i + 1, nref⟩ P sender) "pool" i) ∧
    ¬ Sees k (aePt esize sig i P sender) "pool" (i + 1) ∧ ¬ Sees k (gcrPt ⟨sig, i + 1, nref⟩ P sender) "pool" (i + 1) := by
  have h1 : ((i + 1) % 256 + 255) % 256 = i := by omega
  have h2 : (i + 1 + 255) % 256 = i := by omega
  have e1 : Sees k (aePt esize sig i P sender) "pool" i :=
    sees_of hk hm (by exact ⟨trivial, trivial⟩) (by intro hz; simp [aePt])
      (by simp only [aePt, argsOf, says, present, size, cut]; simp [List.lookup, h2])
  have e2 : Sees k (gcrPt ⟨sig, i + 1, nref⟩ P sender) "pool" i :=
    sees_of hk hm (by exact ⟨trivial, trivial⟩) (by intro hz; simp [gcrPt])
      (by simp only [gcrPt, argsOf, says, present, size, cut]; simp [List.lookup, h2])
  exact ⟨⟨e1, e2⟩, fun h => by have := h.unique e1; omega, fun h => by have := h.unique e2; omega⟩

end Verif.Trc
