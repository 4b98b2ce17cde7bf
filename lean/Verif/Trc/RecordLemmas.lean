import Verif.Trc.StreamLemmas
namespace Verif.Trc
open Verif Spec

/-! ### Sums of bytes -/

theorem sum_append (a b : List Byte) : sum (a ++ b) = sum a + sum b := by
  induction a with
  | nil => simp [sum]
  | cons x a ih => simp [sum, ih, BitVec.add_assoc]

/-! ### Writers -/

/-- `w` appends the stuffed form of `bytes` to the stream, adds them to the checksum and keeps the sequence number. -/
def Emits (c : Cfg) (w : Rec → Res Rec) (bytes : List Byte) : Prop :=
  ∀ (r : Rec) (u : List Byte), Rep c.sz r.stm u →
    ∃ r', w r = .ok r' ∧ Rep c.sz r'.stm (lastN c.sz (u ++ bytes.flatMap escape)) ∧ r'.chk = r.chk + sum bytes ∧
      r'.nseq = r.nseq

theorem emits_nil (c : Cfg) : Emits c (fun r => .ok r) [] := by
  intro r u h
  refine ⟨r, rfl, ?_, by simp [sum], rfl⟩
  rw [lastN_le (by simpa using h.le)]
  simpa using h

theorem emits_bind {c : Cfg} {w v : Rec → Res Rec} {a b : List Byte} (hw : Emits c w a) (hv : Emits c v b) :
    Emits c (fun r => (w r).bind v) (a ++ b) := by
  intro r u h
  obtain ⟨r1, h1, h2, h3, h4⟩ := hw r u h
  obtain ⟨r2, g1, g2, g3, g4⟩ := hv r1 _ h2
  refine ⟨r2, by simp [h1, g1], ?_, by rw [g3, h3, sum_append, BitVec.add_assoc], by rw [g4, h4]⟩
  rwa [lastN_append, List.append_assoc, ← List.flatMap_append] at g2

theorem rput_rep {c : Cfg} {r : Rec} {u : List Byte} (hsz : c.sz ≤ 2048) (h : Rep c.sz r.stm u) (b : Byte) :
    ∃ s', rput c r b = .ok { r with stm := s' } ∧ Rep c.sz s' (lastN c.sz (u ++ [b])) := by
  obtain ⟨s', h1, h2⟩ := put_rep hsz h b
  exact ⟨s', by simp [rput, h1, Res.map'], h2⟩

theorem emits_u8 {c : Cfg} (hsz : c.sz ≤ 2048) (d : Byte) : Emits c (fun r => u8 c r d) [d] := by
  intro r u h
  simp only [u8, List.flatMap_cons, List.flatMap_nil, List.append_nil, escape, sum, BitVec.add_zero]
  by_cases hd : d = FLG ∨ d = ESC
  · rw [if_pos hd, if_pos hd]
    obtain ⟨s1, h1, h2⟩ := rput_rep (c := c) (r := { r with chk := r.chk + d }) hsz h ESC
    obtain ⟨s2, g1, g2⟩ := rput_rep (c := c) (r := { r with chk := r.chk + d, stm := s1 }) hsz h2 (d ^^^ XOR)
    refine ⟨{ r with chk := r.chk + d, stm := s2 }, by rw [h1]; exact g1, ?_, rfl, rfl⟩
    rw [lastN_append, List.append_assoc] at g2
    exact g2
  · rw [if_neg hd, if_neg hd]
    obtain ⟨s1, h1, h2⟩ := rput_rep (c := c) (r := { r with chk := r.chk + d }) hsz h d
    exact ⟨_, h1, h2, rfl, rfl⟩

theorem le16 (d : BitVec 16) : [d.setWidth 8, (d >>> 8).setWidth 8] = leBytes 2 d.toNat := by
  simp only [leBytes, List.cons.injEq, and_true]
  refine ⟨by apply BitVec.eq_of_toNat_eq; simp, by apply BitVec.eq_of_toNat_eq; simp [Nat.shiftRight_eq_div_pow]⟩

theorem le32 (d : BitVec 32) : [d.setWidth 8, (d >>> 8).setWidth 8, (d >>> 8 >>> 8).setWidth 8,
    (d >>> 8 >>> 8 >>> 8).setWidth 8] = leBytes 4 d.toNat := by
  simp only [leBytes, List.cons.injEq, and_true]
  refine ⟨?_, ?_, ?_, ?_⟩ <;> apply BitVec.eq_of_toNat_eq <;>
    simp [Nat.shiftRight_eq_div_pow, Nat.div_div_eq_div_mul]

theorem emits_u16 {c : Cfg} (hsz : c.sz ≤ 2048) (d : BitVec 16) : Emits c (fun r => u16 c r d) (leBytes 2 d.toNat) := by
  rw [← le16]
  exact emits_bind (emits_u8 hsz _) (emits_u8 hsz _)

theorem emits_u32 {c : Cfg} (hsz : c.sz ≤ 2048) (d : BitVec 32) : Emits c (fun r => u32 c r d) (leBytes 4 d.toNat) := by
  rw [← le32]
  exact emits_bind (emits_u8 hsz _) (emits_bind (emits_u8 hsz _) (emits_bind (emits_u8 hsz _) (emits_u8 hsz _)))

theorem emits_str {c : Cfg} (hsz : c.sz ≤ 2048) : ∀ mem : List Byte, 0#8 ∈ mem → Emits c (fun r => str c r mem) (cstr mem ++ [0#8])
  | [], h => by simp at h
  | b :: mem, h => by
    by_cases hb : b = 0#8
    · subst hb
      have : cstr (0#8 :: mem) = [] := by simp [cstr]
      rw [this]
      have h8 := emits_u8 hsz (c := c) 0#8
      intro r u hr
      simpa [str] using h8 r u hr
    · have hm : 0#8 ∈ mem := by
        rcases List.mem_cons.mp h with h | h
        · exact absurd h.symm hb
        · exact h
      have : cstr (b :: mem) = b :: cstr mem := by simp [cstr, hb]
      rw [this]
      have h1 := emits_bind (emits_u8 hsz (c := c) b) (emits_str hsz mem hm)
      intro r u hr
      have := h1 r u hr
      simpa [str, hb] using this

theorem emits_mem {c : Cfg} (hsz : c.sz ≤ 2048) : ∀ (n : Nat) (mem : List Byte), n ≤ mem.length →
    Emits c (fun r => memLoop c r mem n) (mem.take n)
  | 0, mem, _ => by
    have := emits_nil c
    intro r u hr
    simpa [memLoop] using this r u hr
  | n + 1, [], h => by simp at h
  | n + 1, b :: mem, h => by
    have h1 := emits_bind (emits_u8 hsz (c := c) b) (emits_mem hsz n mem (by simpa using h))
    intro r u hr
    exact h1 r u hr

theorem emits_field {c : Cfg} (hsz : c.sz ≤ 2048) (f : Field) (hf : FieldOk f) : Emits c (fun r => field c r f) (fieldBytes f) := by
  cases f with
  | u8 d => exact emits_u8 hsz d
  | u16 d => exact emits_u16 hsz d
  | u32 d => exact emits_u32 hsz d
  | str mem => exact emits_str hsz mem hf
  | fmtU8 f d => exact emits_bind (emits_u8 hsz f) (emits_u8 hsz d)
  | fmtU16 f d => exact emits_bind (emits_u8 hsz f) (emits_u16 hsz d)
  | fmtU32 f d => exact emits_bind (emits_u8 hsz f) (emits_u32 hsz d)
  | fmtStr mem => exact emits_bind (emits_u8 hsz STR_T) (emits_str hsz mem hf)
  | fmtMem mem size => exact emits_bind (emits_u8 hsz MEM_T) (emits_bind (emits_u8 hsz size) (emits_mem hsz _ mem hf))

theorem emits_fields {c : Cfg} (hsz : c.sz ≤ 2048) : ∀ fs : List Field, (∀ f ∈ fs, FieldOk f) →
    Emits c (fun r => fields c r fs) (fs.flatMap fieldBytes)
  | [], _ => emits_nil c
  | f :: fs, h => by
    have := emits_bind (emits_field hsz f (h f (by simp))) (emits_fields hsz fs (fun g hg => h g (by simp [hg])))
    intro r u hr
    exact this r u hr

theorem emits_ts {c : Cfg} (hsz : c.sz ≤ 2048) (ts : BitVec 32) : Emits c (fun r => tstamp c r ts) (tsBytes c ts) := by
  unfold tstamp tsBytes
  cases c.ts with
  | off => exact emits_nil c
  | b8 =>
    have : leBytes 1 ts.toNat = [ts.setWidth 8] := by
      simp only [leBytes, List.cons.injEq, and_true]; apply BitVec.eq_of_toNat_eq; simp
    simp only [this]
    exact emits_u8 hsz _
  | b16 =>
    have : leBytes 2 ts.toNat = leBytes 2 (ts.setWidth 16).toNat := by
      simp only [leBytes, List.cons.injEq, and_true]
      refine ⟨by apply BitVec.eq_of_toNat_eq; simp, by apply BitVec.eq_of_toNat_eq; simp; omega⟩
    simp only [this]
    exact emits_u16 hsz _
  | b32 => exact emits_u32 hsz _

/-- `rkh_trc_end`: checksum and flag. -/
theorem endRec_rep {c : Cfg} (hsz : c.sz ≤ 2048) {r : Rec} {u : List Byte} (h : Rep c.sz r.stm u) :
    ∃ r', endRec c r = .ok r' ∧
      Rep c.sz r'.stm (lastN c.sz (u ++ ((if c.chkEn then [-r.chk] else []).flatMap escape ++ [FLG]))) ∧ r'.nseq = r.nseq := by
  have hneg : ~~~r.chk + 1#8 = -r.chk := (BitVec.neg_eq_not_add _).symm
  unfold endRec
  cases hc : c.chkEn with
  | true =>
    simp only [if_true]
    obtain ⟨r1, h1, h2, _, h4⟩ := emits_u8 (c := c) hsz (~~~r.chk + 1#8) { r with chk := ~~~r.chk + 1#8 } u h
    obtain ⟨s2, g1, g2⟩ := rput_rep (c := c) (r := r1) hsz h2 FLG
    refine ⟨{ r1 with stm := s2 }, ?_, ?_, by rw [← h4]⟩
    · simp only at h1; rw [h1]; exact g1
    · rw [lastN_append, List.append_assoc, hneg] at g2; exact g2
  | false =>
    simp only [Bool.false_eq_true, if_false, Res.bind'_ok, List.flatMap_nil, List.nil_append]
    obtain ⟨s2, g1, g2⟩ := rput_rep (c := c) (r := r) hsz h FLG
    exact ⟨{ r with stm := s2 }, g1, g2, rfl⟩

/-- Finishing a record whose body has been written. -/
theorem finish {c : Cfg} (hsz : c.sz ≤ 2048) {r : Rec} {u b : List Byte} {w : Rec → Res Rec}
    (h : Rep c.sz r.stm u) (hw : Emits c w b) :
    ∃ r', (w { r with chk := 0#8 }).bind (endRec c) = .ok r' ∧
      Rep c.sz r'.stm (lastN c.sz (u ++ frame (b ++ (if c.chkEn then [-(sum b)] else [])))) ∧ r'.nseq = r.nseq := by
  obtain ⟨r1, h1, h2, h3, h4⟩ := hw { r with chk := 0#8 } u h
  obtain ⟨r2, g1, g2, g3⟩ := endRec_rep hsz h2
  refine ⟨r2, by rw [h1]; exact g1, ?_, by rw [g3, h4]⟩
  have hchk : r1.chk = sum b := by rw [h3]; simp
  rw [lastN_append, List.append_assoc, hchk] at g2
  rw [frame, List.flatMap_append, List.append_assoc]
  exact g2

theorem bind_assoc {α β γ : Type} (r : Res α) (f : α → Res β) (g : β → Res γ) :
    Res.bind (Res.bind r f) g = Res.bind r fun a => Res.bind (f a) g := by cases r <;> rfl

theorem record_rep {c : Cfg} (hsz : c.sz ≤ 2048) {r : Rec} {u : List Byte} (h : Rep c.sz r.stm u) (eid : Byte)
    (ts : BitVec 32) (fs : List Field) (hf : ∀ f ∈ fs, FieldOk f) :
    ∃ r', record c r eid ts fs = .ok r' ∧
      Rep c.sz r'.stm (lastN c.sz (u ++ frame (raw c r.nseq ⟨false, eid, ts, fs⟩))) ∧
      r'.nseq = nextSeq c r.nseq ⟨false, eid, ts, fs⟩ := by
  cases hn : c.nseqEn with
  | false =>
    have hw : Emits c (fun r => (u8 c r eid).bind fun r => (tstamp c r ts).bind fun r => fields c r fs)
        ([eid] ++ (tsBytes c ts ++ fs.flatMap fieldBytes)) :=
      emits_bind (emits_u8 hsz eid) (emits_bind (emits_ts hsz ts) (emits_fields hsz fs hf))
    obtain ⟨r', h1, h2, h3⟩ := finish hsz h hw
    refine ⟨r', ?_, ?_, ?_⟩
    · rw [← h1]
      simp only [record, beginRec, hn, Bool.false_eq_true, if_false, Res.bind'_ok, bind_assoc]
    · simpa [raw, body, hn] using h2
    · simpa [nextSeq, hn] using h3
  | true =>
    -- the sequence number is bumped in the middle of the header
    obtain ⟨r1, a1, a2, a3, a4⟩ := emits_bind (emits_u8 (c := c) hsz eid) (emits_u8 hsz r.nseq) { r with chk := 0#8 } u h
    simp only at a1 a4
    obtain ⟨r2, b1, b2, b3, b4⟩ :=
      emits_bind (emits_ts (c := c) hsz ts) (emits_fields hsz fs hf) { r1 with nseq := r1.nseq + 1#8 } _ a2
    obtain ⟨r3, c1, c2, c3⟩ := endRec_rep hsz b2
    refine ⟨r3, ?_, ?_, ?_⟩
    · simp only [record, beginRec, hn, if_true, bind_assoc]
      rw [← c1]
      have e1 : ∃ q, u8 c { r with chk := 0#8 } eid = .ok q ∧ q.nseq = r.nseq ∧ u8 c q r.nseq = .ok r1 := by
        obtain ⟨q, q1, _, _, q4⟩ := emits_u8 (c := c) hsz eid { r with chk := 0#8 } u h
        refine ⟨q, q1, q4, ?_⟩
        simpa [q1] using a1
      obtain ⟨q, q1, q2, q3⟩ := e1
      rw [q1]
      simp only [Res.bind'_ok, q2, q3, Res.map', b1]
      simp only at b1
      rw [← bind_assoc, b1]
      rfl
    · rw [lastN_append, List.append_assoc, lastN_append] at c2
      have hchk : r2.chk = sum ([eid] ++ [r.nseq] ++ (tsBytes c ts ++ fs.flatMap fieldBytes)) := by
        rw [b3]
        simp only [a3, sum_append]
        simp
      rw [hchk] at c2
      simpa [raw, body, hn, frame, List.flatMap_append, List.append_assoc] using c2
    · rw [c3, b4]
      simp [a4, nextSeq, hn]

theorem recordDft_rep {c : Cfg} (hsz : c.sz ≤ 2048) {r : Rec} {u : List Byte} (h : Rep c.sz r.stm u) (eid : Byte)
    (ts : BitVec 32) (fs : List Field) (hf : ∀ f ∈ fs, FieldOk f) :
    ∃ r', recordDft c r eid fs = .ok r' ∧
      Rep c.sz r'.stm (lastN c.sz (u ++ frame (raw c r.nseq ⟨true, eid, ts, fs⟩))) ∧
      r'.nseq = nextSeq c r.nseq ⟨true, eid, ts, fs⟩ := by
  have hw : Emits c (fun r => (u8 c r eid).bind fun r => fields c r fs) ([eid] ++ fs.flatMap fieldBytes) :=
    emits_bind (emits_u8 hsz eid) (emits_fields hsz fs hf)
  obtain ⟨r', h1, h2, h3⟩ := finish hsz h hw
  refine ⟨r', ?_, ?_, ?_⟩
  · rw [← h1]; simp only [recordDft, bind_assoc]
  · simpa [raw, body] using h2
  · simpa [nextSeq] using h3

/-! ### The receiver undoes the framing -/

theorem escape_clean (b : Byte) : FLG ∉ escape b := by
  unfold escape
  split
  · rename_i h
    rcases h with rfl | rfl <;> decide
  · rename_i h
    simp only [List.mem_singleton]
    intro hb
    exact h (Or.inl hb.symm)

theorem collect_escape (b : Byte) (cur rest : List Byte) :
    collect cur false (escape b ++ rest) = collect (cur ++ [b]) false rest := by
  unfold escape
  split
  · rename_i h
    rcases h with rfl | rfl
    · simp [collect, show ESC ≠ FLG by decide, show FLG ^^^ XOR ≠ FLG by decide, show FLG ^^^ XOR ^^^ XOR = FLG by decide]
    · simp [collect, show ESC ≠ FLG by decide, show ESC ^^^ XOR ≠ FLG by decide, show ESC ^^^ XOR ^^^ XOR = ESC by decide]
  · rename_i h
    simp only [not_or] at h
    simp [collect, h.1, h.2]

theorem collect_frame (raw cur rest : List Byte) :
    collect cur false (frame raw ++ rest) = (cur ++ raw) :: collect [] false rest := by
  induction raw generalizing cur with
  | nil => simp [frame, collect]
  | cons b raw ih =>
    have : frame (b :: raw) ++ rest = escape b ++ (frame raw ++ rest) := by simp [frame]
    rw [this, collect_escape, ih]
    simp

theorem collect_frames (rs : List (List Byte)) (rest : List Byte) :
    collect [] false (rs.flatMap frame ++ rest) = rs ++ collect [] false rest := by
  induction rs with
  | nil => rfl
  | cons r rs ih =>
    rw [List.flatMap_cons, List.append_assoc, collect_frame, ih]
    simp

theorem receive_flag (bs : List Byte) : receive (FLG :: bs) = collect [] false bs := by simp [receive]

theorem receive_skip (x rest : List Byte) (h : FLG ∉ x) : receive (x ++ FLG :: rest) = collect [] false rest := by
  induction x with
  | nil => simp [receive]
  | cons b x ih =>
    simp only [List.mem_cons, not_or] at h
    rw [List.cons_append, receive, if_neg (fun hb => h.1 hb.symm), ih h.2]

theorem frame_clean (raw : List Byte) : FLG ∉ raw.flatMap escape := by
  intro h
  obtain ⟨b, _, hb⟩ := List.mem_flatMap.mp h
  exact escape_clean b hb

/-- A suffix of a frame sequence: part of one frame (with its flag), then whole frames. -/
theorem receive_suffix (rs : List (List Byte)) (w : List Byte) (h : w <:+ rs.flatMap frame) :
    receive w <:+ rs := by
  induction rs with
  | nil =>
    simp only [List.flatMap_nil, List.suffix_nil] at h
    subst h; exact List.suffix_refl _
  | cons r rs ih =>
    rw [List.flatMap_cons] at h
    obtain ⟨t, ht⟩ := h
    rcases List.append_eq_append_iff.mp ht with ⟨x, hx1, hx2⟩ | ⟨x, hx1, hx2⟩
    · -- the window starts inside the first frame
      by_cases hx : x = []
      · subst hx
        exact List.IsSuffix.trans (ih (by rw [hx2]; exact List.suffix_refl _)) (List.suffix_cons _ _)
      · obtain ⟨y, z, hyz⟩ : ∃ y z, x = y ++ [z] := by
          rcases List.eq_nil_or_concat x with h0 | ⟨y, z, h0⟩
          · exact absurd h0 hx
          · exact ⟨y, z, by rw [h0, List.concat_eq_append]⟩
        rw [hyz, ← List.append_assoc, frame] at hx1
        obtain ⟨hy, hz⟩ := List.append_inj' hx1 rfl
        simp only [List.cons.injEq, and_true] at hz
        subst hz
        have hclean : FLG ∉ y := by
          intro hm
          exact frame_clean r (by rw [hy]; simp [hm])
        rw [hx2, hyz, List.append_assoc]
        rw [List.singleton_append, receive_skip y _ hclean]
        have := collect_frames rs []
        simp only [List.append_nil, collect] at this
        rw [this]
        exact List.suffix_cons _ _
    · exact List.IsSuffix.trans (ih ⟨x, hx2.symm⟩) (List.suffix_cons _ _)

/-- The receiver of anything that contains a flag followed by whole frames ends with those records. -/
theorem collect_ends (x rest : List Byte) (cur : List Byte) (esc : Bool) :
    ∃ l, collect cur esc (x ++ FLG :: rest) = l ++ collect [] false rest := by
  induction x generalizing cur esc with
  | nil => exact ⟨[cur], by simp [collect]⟩
  | cons b x ih =>
    rw [List.cons_append, collect]
    split
    · obtain ⟨l, hl⟩ := ih [] false
      exact ⟨cur :: l, by rw [hl]; rfl⟩
    · split
      · exact ih _ _
      · split
        · exact ih _ _
        · exact ih _ _

theorem receive_ends (x rest : List Byte) : ∃ l, receive (x ++ FLG :: rest) = l ++ collect [] false rest := by
  induction x with
  | nil => exact ⟨[], by simp [receive]⟩
  | cons b x ih =>
    rw [List.cons_append, receive]
    split
    · exact collect_ends x rest [] false
    · exact ih

theorem raws_append (c : Cfg) (rs1 : List Record) : ∀ (n : Byte) (rs2 : List Record),
    ∃ m, raws c n (rs1 ++ rs2) = raws c n rs1 ++ raws c m rs2 := by
  induction rs1 with
  | nil => intro n rs2; exact ⟨n, rfl⟩
  | cons r rs1 ih =>
    intro n rs2
    obtain ⟨m, hm⟩ := ih (nextSeq c n r) rs2
    exact ⟨m, by simp [raws, hm]⟩

theorem length_raws (c : Cfg) (rs : List Record) : ∀ n, (raws c n rs).length = rs.length := by
  induction rs with
  | nil => intro n; rfl
  | cons r rs ih => intro n; simp [raws, ih]

/-! ### Reading values back -/

theorem le_leBytes (k n : Nat) : le (leBytes k n) = n % 256 ^ k := by
  induction k generalizing n with
  | zero => simp [leBytes, le, Nat.mod_one]
  | succ k ih =>
    simp only [leBytes, le, BitVec.toNat_ofNat, ih]
    rw [show 256 ^ (k + 1) = 256 * 256 ^ k by rw [Nat.pow_succ, Nat.mul_comm], Nat.mod_mul]

theorem length_leBytes (k n : Nat) : (leBytes k n).length = k := by
  induction k generalizing n with
  | zero => rfl
  | succ k ih => simp [leBytes, ih]

theorem parse1_int (k n : Nat) (rest : List Byte) (h : n < 256 ^ k) :
    parse1 (.int k) (leBytes k n ++ rest) = some (.int n, rest) := by
  have hl := length_leBytes k n
  simp only [parse1]
  rw [if_pos (by simp [hl])]
  have h1 : (leBytes k n ++ rest).take k = leBytes k n := by
    rw [List.take_append, List.take_of_length_le (by omega), hl, Nat.sub_self]; simp
  have h2 : (leBytes k n ++ rest).drop k = rest := by
    rw [List.drop_append, List.drop_of_length_le (by omega), hl, Nat.sub_self]; simp
  rw [h1, h2, le_leBytes, Nat.mod_eq_of_lt h]

theorem parse1_u8 (d : Byte) (rest : List Byte) : parse1 (.int 1) (d :: rest) = some (.int d.toNat, rest) := by
  have := d.isLt
  simp [parse1, le]

theorem cstr_append (mem rest : List Byte) : cstr (cstr mem ++ 0#8 :: rest) = cstr mem := by
  unfold cstr
  rw [List.takeWhile_append_of_pos]
  · simp
  · intro a ha
    exact (List.all_eq_true.mp List.all_takeWhile) a ha

theorem parse1_text (mem rest : List Byte) :
    parse1 .text ((cstr mem ++ [0#8]) ++ rest) = some (.text (cstr mem), rest) := by
  simp only [parse1]
  rw [if_pos (by simp)]
  rw [List.append_assoc, List.singleton_append, cstr_append]
  simp [List.drop_append]

theorem parse1_blob (mem rest : List Byte) (size : Byte) (h : size.toNat ≤ mem.length) :
    parse1 .blob (size :: (mem.take size.toNat ++ rest)) = some (.blob (mem.take size.toNat), rest) := by
  have hl : (mem.take size.toNat).length = size.toNat := by simp; omega
  simp only [parse1]
  rw [if_pos (by simp; omega)]
  rw [List.take_append, List.take_of_length_le (by omega), hl, Nat.sub_self, List.drop_append,
    List.drop_of_length_le (by omega), hl, Nat.sub_self]
  simp

theorem parse_cons {t : Ty} {ts : List Ty} {bs rest rest' : List Byte} {v : Val} {vs : List Val}
    (h1 : parse1 t bs = some (v, rest)) (h2 : parse ts rest = some (vs, rest')) :
    parse (t :: ts) bs = some (v :: vs, rest') := by simp [parse, h1, h2]

theorem parse_append {ts ts' : List Ty} {bs rest rest' : List Byte} {vs vs' : List Val}
    (h1 : parse ts bs = some (vs, rest)) (h2 : parse ts' rest = some (vs', rest')) :
    parse (ts ++ ts') bs = some (vs ++ vs', rest') := by
  induction ts generalizing bs vs with
  | nil => simp [parse] at h1; obtain ⟨rfl, rfl⟩ := h1; simpa using h2
  | cons t ts ih =>
    simp only [parse] at h1
    cases hp : parse1 t bs with
    | none => simp [hp] at h1
    | some p =>
      obtain ⟨v, bs1⟩ := p
      simp only [hp] at h1
      cases hq : parse ts bs1 with
      | none => simp [hq] at h1
      | some q =>
        obtain ⟨vs1, bs2⟩ := q
        simp only [hq, Option.some.injEq, Prod.mk.injEq] at h1
        obtain ⟨rfl, rfl⟩ := h1
        have := ih hq
        simp [parse, hp, this]

theorem parse_field (f : Field) (hf : FieldOk f) (rest : List Byte) :
    parse (fieldTy f) (fieldBytes f ++ rest) = some (fieldVal f, rest) := by
  have nil : ∀ bs, parse [] bs = some ([], bs) := fun _ => rfl
  cases f with
  | u8 d => exact parse_cons (parse1_u8 d rest) (nil _)
  | u16 d => exact parse_cons (parse1_int 2 _ rest (by have := d.isLt; simpa using this)) (nil _)
  | u32 d => exact parse_cons (parse1_int 4 _ rest (by have := d.isLt; simpa using this)) (nil _)
  | str mem => exact parse_cons (parse1_text mem rest) (nil _)
  | fmtU8 f d => exact parse_cons (parse1_u8 f _) (parse_cons (parse1_u8 d rest) (nil _))
  | fmtU16 f d =>
    exact parse_cons (parse1_u8 f _) (parse_cons (parse1_int 2 _ rest (by have := d.isLt; simpa using this)) (nil _))
  | fmtU32 f d =>
    exact parse_cons (parse1_u8 f _) (parse_cons (parse1_int 4 _ rest (by have := d.isLt; simpa using this)) (nil _))
  | fmtStr mem => exact parse_cons (parse1_u8 STR_T _) (parse_cons (parse1_text mem rest) (nil _))
  | fmtMem mem size => exact parse_cons (parse1_u8 MEM_T _) (parse_cons (parse1_blob mem rest size hf) (nil _))

theorem parse_fields : ∀ (fs : List Field), (∀ f ∈ fs, FieldOk f) → ∀ rest : List Byte,
    parse (fs.flatMap fieldTy) (fs.flatMap fieldBytes ++ rest) = some (fs.flatMap fieldVal, rest)
  | [], _, rest => rfl
  | f :: fs, h, rest => by
    rw [List.flatMap_cons, List.flatMap_cons, List.flatMap_cons, List.append_assoc]
    exact parse_append (parse_field f (h f (by simp)) _) (parse_fields fs (fun g hg => h g (by simp [hg])) rest)

end Verif.Trc
