import Verif.Host.TzLemmas
import Verif.Trc.Props
/-
C147-C150: the receiver of the unit-test link.
-/
namespace Verif.Tz
open Verif Trc Trc.Spec Spec

/-- The receiver waits for the first byte of a record: it has been initialised, or the last byte was a flag. -/
theorem trazerInit_mid : Mid (trazerInit st0) false [] :=
  ⟨rfl, List.length_replicate, rfl, by simp, rfl, rfl⟩

/-! ## C148 -/

/-- Ready for a new record. -/
def Ready (s : St) : Prop := s.state = .collect ∧ s.ptr = 0 ∧ s.trix = 0 ∧ s.tr.length = bufSize

/-- The receiver is ready when `tz_init` returns. -/
theorem ready_after_init : Ready (trazerInit st0) := ⟨rfl, rfl, rfl, List.length_replicate⟩

theorem ready_mid {s : St} : Ready s ↔ Mid s false [] :=
  ⟨fun h => ⟨h.1, h.2.2.2, h.2.1, by simp, h.2.2.1, rfl⟩, fun h => ⟨h.state, h.ptr, h.trix, h.len⟩⟩

/-- **C148** What the receiver makes of any bytes `m` sent as one frame, exactly. More than 512 bytes overflow its buffer. Otherwise it
looks at the first `|m| mod 256` bytes only: if there are none the frame is ignored; if their sum is not zero, a checksum error is
reported; if it is, they are handed on. In all cases that do not overflow it is ready for the next frame. -/
theorem frame_exact {s : St} (h : Ready s) (o : Out) (m : List Byte) :
    (bufSize < m.length → feed s o (frame m) = .ub) ∧
    (m.length ≤ bufSize → ∃ tr s', tr.take m.length = m ∧ Ready s' ∧
      feed s o (frame m) = match verdict m with
        | none => .ok (s', o, [])
        | some .bad => .ok (s', utProcFail o, [.bad])
        | some (.got k) => (parser tr o).map' fun o => (s', o, [.got k])) := by
  have hm := ready_mid.1 h
  obtain ⟨k1, k2⟩ := mid_stuffed m hm o
  simp only [List.length_nil, Nat.zero_add, List.nil_append] at k1 k2
  unfold frame
  rw [feed_append]
  constructor
  · intro hl
    rw [k2 hl]; rfl
  · intro hl
    obtain ⟨s', j1, j2⟩ := k1 hl
    refine ⟨s'.tr, parserInit s', j2.tr, ready_mid.2 (mid_init' j2), ?_⟩
    rw [j1]
    simp only [Res.bind, feed, mid_flag j2 o]
    cases hv : verdict m with
    | none => rfl
    | some e =>
      cases e with
      | bad => rfl
      | got k =>
        simp only
        cases parser s'.tr o <;> rfl

/-- **C148** A correct record that is neither a success nor a failure leaves the result of the test as it is. -/
theorem other_record_changes_nothing {s : St} (h : Ready s) (o : Out) {b : Byte} {m : List Byte} (hl : (b :: m).length ≤ 255)
    (hs : sum (b :: m) = 0#8) (hb : b ≠ UT_FAIL ∧ b ≠ UT_SUCCESS) :
    ∃ s', feed s o (frame (b :: m)) = .ok (s', o, [.got (b :: m)]) ∧ Ready s' := by
  obtain ⟨tr, s', ht, hr, hf⟩ := (frame_exact h o (b :: m)).2 (by unfold bufSize; omega)
  have hv : verdict (b :: m) = some (.got (b :: m)) := by
    unfold verdict
    rw [Nat.mod_eq_of_lt (by omega), if_neg (by simp), List.take_length, if_pos hs]
  have h0 : RdyGrp.ix tr 0 = .ok b := ix_of_take ht (i := 0) (by simp)
  rw [hv] at hf
  simp only [parser, h0, Res.bind, if_neg hb.1, if_neg hb.2, Res.map'] at hf
  exact ⟨s', hf, hr⟩

theorem got_frame {s : St} (h : Ready s) (o : Out) {m : List Byte} (hm : m ≠ []) (hl : m.length ≤ 255) (hs : sum m = 0#8) (hw : WellFormed m) :
    ∃ s' o', feed s o (frame m) = .ok (s', o', [.got m]) ∧ Ready s' := by
  obtain ⟨tr, s', ht, hr, hf⟩ := (frame_exact h o m).2 (by unfold bufSize; omega)
  have hpos : 0 < m.length := List.length_pos_iff.mpr hm
  have hmod : m.length % 256 = m.length := Nat.mod_eq_of_lt (by omega)
  have hv : verdict m = some (.got m) := by
    unfold verdict
    rw [hmod, if_neg (by omega), List.take_length, if_pos hs]
  obtain ⟨o', ho⟩ := parser_ok ht hm hw o
  rw [hv] at hf
  simp only [ho, Res.map'] at hf
  exact ⟨s', o', hf, hr⟩

theorem got_frames : ∀ (ms : List (List Byte)) {s : St} (_ : Ready s) (o : Out),
    (∀ m ∈ ms, m ≠ [] ∧ m.length ≤ 255 ∧ sum m = 0#8 ∧ WellFormed m) →
    ∃ s' o', feed s o (ms.flatMap frame) = .ok (s', o', ms.map .got) ∧ Ready s' := by
  intro ms
  induction ms with
  | nil => intro s h o _; exact ⟨s, o, rfl, h⟩
  | cons m ms ih =>
    intro s h o hall
    obtain ⟨h1, h2, h3, h4⟩ := hall m (by simp)
    obtain ⟨s1, o1, k1, k2⟩ := got_frame h o h1 h2 h3 h4
    obtain ⟨s2, o2, j1, j2⟩ := ih k2 o1 (fun x hx => hall x (by simp [hx]))
    exact ⟨s2, o2, by simp [List.flatMap_cons, feed_append, k1, j1, Res.bind, Res.map'], j2⟩

theorem ready_flag {s : St} (h : Ready s) (o : Out) : ∃ s', feed s o [FLG] = .ok (s', o, []) ∧ Ready s' := by
  have := mid_flag (ready_mid.1 h) o
  exact ⟨parserInit s, by simp [feed, this, verdict, Res.bind, Res.map'], ready_mid.2 (mid_init' (ready_mid.1 h))⟩

/-! ## C147 -/

/-- **C147** (part) The receiver is given everything the trace facility writes for any list of records with checksums, each of at most 255
bytes (checksum included): it hands on exactly these records, in order, and reports no error. Missing: longer records (lost, or worse:
`record_of_256_is_lost`, `long_record_overflows`) and failure records with a text of 16 characters or more (`long_text_overflows`). -/
theorem receiver_gets_records_partial (c : Cfg) (hc : c.chkEn = true) (rs : List Record) (o : Out)
    (hl : ∀ m ∈ raws c 0#8 rs, m.length ≤ 255) (hw : ∀ m ∈ raws c 0#8 rs, WellFormed m) :
    ∃ s' o', feed (trazerInit st0) o (wire c rs) = .ok (s', o', (raws c 0#8 rs).map .got) := by
  have key : ∀ (rs : List Record) (n : Byte), ∀ m ∈ raws c n rs, m ≠ [] ∧ sum m = 0#8 := by
    intro rs
    induction rs with
    | nil => intro n m hm; simp [raws] at hm
    | cons r rs ih =>
      intro n m hm
      simp only [raws, List.mem_cons] at hm
      rcases hm with rfl | hm
      · exact ⟨by simp [raw, body], sum_raw hc n r⟩
      · exact ih _ m hm
  obtain ⟨s1, k1, k2⟩ := ready_flag (ready_mid.2 trazerInit_mid) o
  obtain ⟨s2, o2, j1, _⟩ := got_frames (raws c 0#8 rs) k2 o (fun m hm => ⟨(key rs 0#8 m hm).1, hl m hm, (key rs 0#8 m hm).2, hw m hm⟩)
  refine ⟨s2, o2, ?_⟩
  rw [wire, show FLG :: (raws c 0#8 rs).flatMap frame = [FLG] ++ (raws c 0#8 rs).flatMap frame from rfl, feed_append, k1]
  simp [j1, Res.bind, Res.map']

/-- **C147** fails: a record of 256 bytes (or 512) leaves no trace at all, whatever its contents. -/
theorem record_of_256_is_lost {s : St} (h : Ready s) (o : Out) {m : List Byte} (hl : m.length = 256 ∨ m.length = 512) :
    ∃ s', feed s o (frame m) = .ok (s', o, []) ∧ Ready s' := by
  obtain ⟨tr, s', ht, hr, hf⟩ := (frame_exact h o m).2 (by unfold bufSize; omega)
  have hv : verdict m = none := by unfold verdict; rw [if_pos (by rcases hl with h | h <;> rw [h])]
  rw [hv] at hf
  exact ⟨s', hf, hr⟩

/-- **C147** fails: a record of more than 512 bytes writes beyond the buffer, because the test that was to prevent it compares an 8-bit
counter with 512. -/
theorem long_record_overflows {s : St} (h : Ready s) (o : Out) {m : List Byte} (hl : 512 < m.length) : feed s o (frame m) = .ub :=
  (frame_exact h o m).1 hl

theorem assembleStr_long (tr : List Byte) : ∀ (text : List Byte) (room p : Nat) (acc : List Byte),
    (∀ i (hi : i < text.length), RdyGrp.ix tr (p + i) = .ok text[i]) → 0#8 ∉ text → room ≤ text.length → assembleStr tr room p acc = .ub := by
  intro text
  induction text with
  | nil => intro room p acc _ _ hr; simp at hr; subst hr; rfl
  | cons b text ih =>
    intro room p acc hix hn hr
    cases room with
    | zero => rfl
    | succ room =>
      have hb := hix 0 (by simp)
      simp only [Nat.add_zero, List.getElem_cons_zero] at hb
      have hb0 : b ≠ 0#8 := fun h => hn (by simp [h])
      simp only [assembleStr, hb, Res.bind, if_neg hb0]
      exact ih room (p + 1) (acc ++ [b]) (by
        intro i hi
        have := hix (i + 1) (by simp; omega)
        rw [show p + 1 + i = p + (i + 1) by omega, this]; simp) (fun h => hn (by simp [h])) (by simpa using hr)

/-- **C147** fails: a failure whose text has 16 characters or more writes beyond the buffer for the text. -/
theorem long_text_overflows {s : St} (h : Ready s) (o : Out) {line : Nat} {text : List Byte} (hl : line < 2 ^ 31) (hn : 0#8 ∉ text)
    (h16 : symSize ≤ text.length) (h248 : text.length ≤ 248) : feed s o (frame (checked (failRec line text))) = .ub := by
  have hb4 := length_leBytes 4 line
  have hlen : (checked (failRec line text)).length = text.length + 7 := by
    simp [checked, failRec, length_leBytes]; omega
  obtain ⟨tr, s', ht, hr, hf⟩ := (frame_exact h o (checked (failRec line text))).2 (by unfold bufSize; omega)
  have hs : sum (checked (failRec line text)) = 0#8 := by
    rw [checked, sum_append]; simp [sum, BitVec.add_right_neg]
  have hv : verdict (checked (failRec line text)) = some (.got (checked (failRec line text))) := by
    unfold verdict
    rw [Nat.mod_eq_of_lt (by omega), if_neg (by omega), List.take_length, if_pos hs]
  rw [hv] at hf
  simp only at hf
  rw [hf]
  have hget : ∀ i b, (checked (failRec line text))[i]? = some b → RdyGrp.ix tr i = .ok b := by
    intro i b hb
    obtain ⟨hi, hb⟩ := List.getElem?_eq_some_iff.mp hb
    rw [ix_of_take ht hi, hb]
  have h1 : RdyGrp.ix tr 0 = .ok UT_FAIL := hget _ _ rfl
  have ha : assemble tr 4 1 0 0 = .ok (line, 5) := by
    have := assemble_le tr (leBytes 4 line) 1 0 0 (by
      intro i hi
      apply hget
      rw [show 1 + i = i + 1 by omega]
      simp only [checked, failRec, List.cons_append, List.getElem?_cons_succ, List.append_assoc]
      rw [List.getElem?_append_left hi, List.getElem?_eq_getElem hi]) (by decide) (by
      rw [le_leBytes, Nat.shiftLeft_eq]; omega)
    rw [hb4, le_leBytes, Nat.shiftLeft_eq] at this
    rw [this]
    simp only [Nat.zero_add, Nat.pow_zero, Nat.mul_one]
    rw [Nat.mod_eq_of_lt (by omega)]
  have hs : assembleStr tr symSize 5 [] = .ub := by
    apply assembleStr_long tr text symSize 5 [] _ hn h16
    intro i hi
    apply hget
    rw [show 5 + i = 4 + i + 1 by omega]
    simp only [checked, failRec, List.cons_append, List.getElem?_cons_succ, List.append_assoc]
    rw [List.getElem?_append_right (by omega), hb4, show 4 + i - 4 = i by omega, List.getElem?_append_left hi, List.getElem?_eq_getElem hi]
  unfold parser
  rw [h1]
  simp only [Res.bind, if_true, utFail, ha, hs, Res.map']

/-! ## C149 -/

/-- The buffer keeps its size, and outside escape sequences at a flag the receiver becomes ready. -/
theorem parse_len {s s' : St} {o o' : Out} {d : Byte} {es : List Ev} (h : parse s o d = .ok (s', o', es)) (hl : s.tr.length = bufSize) :
    s'.tr.length = bufSize ∧ (d = FLG → Ready s') := by
  have hcoll : ∀ {s s' : St} {d : Byte}, parserCollect s d = .ok s' → s.tr.length = bufSize → s'.tr.length = bufSize := by
    intro s s' d h hl
    rw [parserCollect_eq, Res.map'_eq_ok] at h
    obtain ⟨tr, h1, rfl⟩ := h
    unfold wr at h1
    split at h1
    · cases h1; simpa using hl
    · cases h1
  unfold parse at h
  cases hs : s.state with
  | wflag =>
    rw [hs] at h
    simp only at h
    split at h
    · cases h; exact ⟨hl, fun _ => ⟨rfl, rfl, rfl, hl⟩⟩
    · rename_i hd; cases h; exact ⟨hl, fun h => absurd h hd⟩
  | collect =>
    rw [hs] at h
    simp only at h
    split at h
    · split at h
      · split at h
        · rw [Res.map'_eq_ok] at h
          obtain ⟨o1, _, h⟩ := h
          cases h; exact ⟨hl, fun _ => ⟨hs, rfl, rfl, hl⟩⟩
        · cases h; exact ⟨hl, fun _ => ⟨hs, rfl, rfl, hl⟩⟩
      · cases h; exact ⟨hl, fun _ => ⟨hs, rfl, rfl, hl⟩⟩
    · rename_i hd
      split at h
      · cases h; exact ⟨hl, fun h => absurd h hd⟩
      · rw [Res.map'_eq_ok] at h
        obtain ⟨s1, h1, h⟩ := h
        cases h; exact ⟨hcoll h1 hl, fun h => absurd h hd⟩
  | escaping =>
    rw [hs] at h
    simp only at h
    split at h
    · cases h; exact ⟨hl, fun _ => ⟨rfl, rfl, rfl, hl⟩⟩
    · rename_i hd
      rw [Res.map'_eq_ok] at h
      obtain ⟨s1, h1, h⟩ := h
      have := hcoll h1 hl
      cases h; exact ⟨this, fun h => absurd h hd⟩

theorem feed_len : ∀ (l : List Byte) {s s' : St} {o o' : Out} {es : List Ev}, feed s o l = .ok (s', o', es) → s.tr.length = bufSize →
    s'.tr.length = bufSize := by
  intro l
  induction l with
  | nil => intro s s' o o' es h hl; cases h; exact hl
  | cons d l ih =>
    intro s s' o o' es h hl
    simp only [feed] at h
    obtain ⟨⟨s1, o1, e1⟩, h1, h2⟩ := Res.bind'_eq_ok.1 h
    rw [Res.map'_eq_ok] at h2
    obtain ⟨⟨s2, o2, e2⟩, h2, h3⟩ := h2
    cases h3
    exact ih h2 (parse_len h1 hl).1

/-- **C149** Whatever bytes came before, from a receiver just initialised or one that never was: if they did not overflow a buffer, then from
the next flag on all records are received as if nothing had happened. -/
theorem receiver_recovers (s : St) (hs : s = st0 ∨ s = trazerInit st0) (o o1 : Out) (noise : List Byte) {s1 : St} {es : List Ev}
    (hn : feed s o (noise ++ [FLG]) = .ok (s1, o1, es)) (ms : List (List Byte))
    (hm : ∀ m ∈ ms, m ≠ [] ∧ m.length ≤ 255 ∧ sum m = 0#8 ∧ WellFormed m) :
    ∃ s' o', feed s o (noise ++ [FLG] ++ ms.flatMap frame) = .ok (s', o', es ++ ms.map .got) := by
  have hl : s.tr.length = bufSize := by rcases hs with rfl | rfl <;> exact List.length_replicate
  have hready : Ready s1 := by
    rw [feed_append] at hn
    obtain ⟨⟨s2, o2, e2⟩, h1, h2⟩ := Res.bind'_eq_ok.1 hn
    rw [Res.map'_eq_ok] at h2
    obtain ⟨⟨s3, o3, e3⟩, h2, h3⟩ := h2
    cases h3
    simp only [feed] at h2
    obtain ⟨⟨s4, o4, e4⟩, h4, h5⟩ := Res.bind'_eq_ok.1 h2
    simp only [Res.map', Res.ok.injEq, Prod.mk.injEq] at h5
    obtain ⟨rfl, rfl, rfl⟩ := h5
    exact (parse_len h4 (feed_len _ h1 hl)).2 rfl
  obtain ⟨s', o', k, _⟩ := got_frames ms hready o1 hm
  exact ⟨s', o', by rw [feed_append, hn]; simp [Res.bind, k, Res.map']⟩

theorem sum_oneOff {m m' : List Byte} (h : OneByteOff m m') (hs : sum m = 0#8) : sum m' ≠ 0#8 := by
  obtain ⟨a, x, y, b, rfl, rfl, hne⟩ := h
  rw [sum_append, sum] at hs ⊢
  intro h'
  apply hne
  rw [← h'] at hs
  exact (BitVec.add_left_inj _).mp ((BitVec.add_right_inj _).mp hs)

/-- **C149** A record of at most 255 bytes of which one byte has changed is reported as an error and not handed on; the receiver is ready
for the next one. -/
theorem corrupted_record_is_reported {s : St} (h : Ready s) (o : Out) {m m' : List Byte} (hl : m.length ≤ 255) (hs : sum m = 0#8)
    (hoff : OneByteOff m m') :
    ∃ s' o', feed s o (frame m') = .ok (s', o', [.bad]) ∧ o'.status = .fail ∧ Ready s' := by
  have hlen : m'.length = m.length := by obtain ⟨a, x, y, b, rfl, rfl, _⟩ := hoff; simp
  have hpos : 0 < m'.length := by obtain ⟨a, x, y, b, _, rfl, _⟩ := hoff; simp; omega
  obtain ⟨tr, s', ht, hr, hf⟩ := (frame_exact h o m').2 (by unfold bufSize; omega)
  have hv : verdict m' = some .bad := by
    unfold verdict
    rw [Nat.mod_eq_of_lt (by omega), if_neg (by omega), List.take_length, if_neg (sum_oneOff hoff hs)]
  rw [hv] at hf
  exact ⟨s', _, hf, rfl, hr⟩

/-! ## C150 -/

theorem recv_skip : ∀ (a b : List Byte) {s s' : St} {o o' : Out} {es : List Ev}, FLG ∉ a → o.status = .busy →
    feed s o a = .ok (s', o', es) → o' = o ∧ recvLoop s o (a ++ b) = recvLoop s' o b := by
  intro a b
  induction a with
  | nil => intro s s' o o' es _ _ h; cases h; exact ⟨rfl, rfl⟩
  | cons d a ih =>
    intro s s' o o' es hf hb h
    simp only [List.mem_cons, not_or] at hf
    simp only [feed] at h
    obtain ⟨⟨s1, o1, e1⟩, h1, h2⟩ := Res.bind'_eq_ok.1 h
    rw [Res.map'_eq_ok] at h2
    obtain ⟨⟨s2, o2, e2⟩, h2, h3⟩ := h2
    cases h3
    have ho : o1 = o := by
      unfold parse at h1
      have hd : d ≠ FLG := fun h => hf.1 h.symm
      cases hs : s.state with
      | wflag => rw [hs] at h1; simp only [if_neg hd] at h1; cases h1; rfl
      | collect =>
        rw [hs] at h1; simp only [if_neg hd] at h1
        split at h1
        · cases h1; rfl
        · rw [Res.map'_eq_ok] at h1
          obtain ⟨_, _, h1⟩ := h1
          cases h1; rfl
      | escaping =>
        rw [hs] at h1; simp only [if_neg hd] at h1
        rw [Res.map'_eq_ok] at h1
        obtain ⟨_, _, h1⟩ := h1
        cases h1; rfl
    subst ho
    obtain ⟨k1, k2⟩ := ih hf.2 hb h2
    refine ⟨k1, ?_⟩
    simp only [List.cons_append, recvLoop, h1, Res.bind]
    rw [if_neg (by simp [hb]), k2]

theorem resp_sum (r : Resp) : sum r.bytes = 0#8 := by
  cases r <;> (simp only [Resp.bytes, checked]; rw [sum_append]; simp [sum, BitVec.add_right_neg])

/-- One call of `ut_process` reads exactly one response. -/
theorem process_one {s : St} (h : Ready s) (o : Out) {r : Resp} (hr : r.Ok) (rest : List Byte) :
    ∃ s' o', utProcess s o (frame r.bytes ++ rest) = .ok (s', o', rest) ∧ Ready s' ∧ r.Told o' := by
  have hlen : 0 < r.bytes.length ∧ r.bytes.length ≤ 255 := by
    cases r with
    | success => simp [Resp.bytes, checked, okRec]
    | failure line text =>
      obtain ⟨_, h2, _⟩ := hr
      unfold symSize at h2
      simp [Resp.bytes, checked, failRec, length_leBytes]; omega
  obtain ⟨k1, _⟩ := mid_stuffed r.bytes (ready_mid.1 h) { o with status := .busy }
  obtain ⟨s1, j1, j2⟩ := k1 (by simp [bufSize]; omega)
  simp only [List.nil_append] at j2
  obtain ⟨_, hskip⟩ := recv_skip (r.bytes.flatMap escape) (FLG :: rest) (frame_clean _) rfl j1
  have hv : verdict r.bytes = some (.got r.bytes) := by
    unfold verdict
    rw [Nat.mod_eq_of_lt (by omega), if_neg (by omega), List.take_length, if_pos (resp_sum r)]
  have hflag := mid_flag j2 { o with status := .busy }
  rw [hv] at hflag
  simp only at hflag
  obtain ⟨o', ho, htold, hnb⟩ : ∃ o', parser s1.tr { o with status := .busy } = .ok o' ∧ r.Told o' ∧ o'.status ≠ .busy := by
    cases r with
    | success =>
      refine ⟨{ o with status := .success }, ?_, rfl, by simp⟩
      unfold parser
      rw [ix_of_take j2.tr hlen.1]
      have e0 : (Resp.success.bytes)[0]'hlen.1 = UT_SUCCESS := rfl
      rw [e0]
      simp only [Res.bind]
      rw [if_neg (by decide)]
      simp
    | failure line text =>
      obtain ⟨h1, h2, h3⟩ := hr
      exact ⟨_, parser_failure j2.tr (rest := [-(sum (failRec line text))]) rfl h1 h2 h3 _, ⟨rfl, rfl, rfl⟩, by simp⟩
  refine ⟨parserInit s1, o', ?_, ready_mid.2 (mid_init' j2), htold⟩
  unfold utProcess utrzRecv
  rw [show frame r.bytes ++ rest = r.bytes.flatMap escape ++ FLG :: rest by simp [frame], hskip]
  simp only [recvLoop, hflag, ho, Res.map', Res.bind]
  rw [if_pos hnb]
  simp

/-- `n` calls of `ut_process`, one for each trace event; the results as the program sees them. -/
def processMany : Nat → St → Out → List Byte → Res (List Out × List Byte)
  | 0, _, _, bytes => .ok ([], bytes)
  | n + 1, s, o, bytes =>
    (utProcess s o bytes).bind fun (s, o, bytes) => (processMany n s o bytes).map' fun (os, bytes) => (o :: os, bytes)

/-- **C150** The host answers every trace event with one response. Then the `i`-th call of `ut_process` tells the program the `i`-th
response, and reads nothing of the next one. -/
theorem responses_in_step (rs : List Resp) (hr : ∀ r ∈ rs, r.Ok) (o : Out) (tail : List Byte) :
    ∃ os, processMany rs.length (trazerInit st0) o (rs.flatMap (fun r => frame r.bytes) ++ tail) = .ok (os, tail) ∧ os.length = rs.length ∧
      ∀ (i : Nat) (r : Resp) (o' : Out), rs[i]? = some r → os[i]? = some o' → r.Told o' := by
  have key : ∀ (rs : List Resp) (s : St) (o : Out), Ready s → (∀ r ∈ rs, r.Ok) →
      ∃ os, processMany rs.length s o (rs.flatMap (fun r => frame r.bytes) ++ tail) = .ok (os, tail) ∧ os.length = rs.length ∧
        ∀ (i : Nat) (r : Resp) (o' : Out), rs[i]? = some r → os[i]? = some o' → r.Told o' := by
    intro rs
    induction rs with
    | nil => intro s o _ _; exact ⟨[], rfl, rfl, by simp⟩
    | cons r rs ih =>
      intro s o h hr
      obtain ⟨s1, o1, k1, k2, k3⟩ := process_one h o (hr r (by simp)) (rs.flatMap (fun r => frame r.bytes) ++ tail)
      obtain ⟨os, j1, j2, j3⟩ := ih s1 o1 k2 (fun x hx => hr x (by simp [hx]))
      refine ⟨o1 :: os, ?_, by simp [j2], ?_⟩
      · simp only [List.length_cons, processMany, List.flatMap_cons, List.append_assoc, k1, Res.bind, j1, Res.map']
      · intro i r' o' h1 h2
        cases i with
        | zero => simp only [List.getElem?_cons_zero, Option.some.injEq] at h1 h2; subst h1; subst h2; exact k3
        | succ i => simp only [List.getElem?_cons_succ] at h1 h2; exact j3 i r' o' h1 h2
  exact key rs _ o (ready_mid.2 trazerInit_mid) hr

/-- **C150** If the connection is closed before a response is complete, the program is told a failure. -/
theorem closed_connection_fails {s : St} (h : Ready s) (o : Out) {m : List Byte} (hl : m.length ≤ bufSize) :
    ∃ s' o', utProcess s o (m.flatMap escape) = .ok (s', o', []) ∧ o'.status = .fail := by
  obtain ⟨k1, _⟩ := mid_stuffed m (ready_mid.1 h) { o with status := .busy }
  obtain ⟨s1, j1, _⟩ := k1 (by simpa using hl)
  obtain ⟨_, hskip⟩ := recv_skip (m.flatMap escape) [] (frame_clean _) rfl j1
  rw [List.append_nil] at hskip
  exact ⟨s1, { o with status := .fail }, by simp [utProcess, utrzRecv, hskip, recvLoop, Res.map'], rfl⟩

/-! ## Concrete cases -/

def out0 : Out := ⟨.init, List.replicate msgSize 0#8, 0⟩

/-- The hypotheses are met: three responses, one of them a failure at line 126 (the value of the flag) with text "no". -/
example : ∀ r ∈ [Resp.success, .failure 126 [110, 111], .success], r.Ok := by
  intro r hr
  simp only [List.mem_cons, List.not_mem_nil, or_false] at hr
  rcases hr with rfl | rfl | rfl <;> simp [Resp.Ok, symSize]

/-- The bytes of that failure, with the flag stuffed. -/
example : frame (Resp.failure 126 [110, 111]).bytes = [233, 125, 94, 0, 0, 0, 110, 111, 0, 188, 126] := by decide +kernel

/-- Noise, then a failure record: the noise is reported as an error (its checksum is wrong), the record is received. -/
example : (feed (trazerInit st0) out0 ([1, 2, 125] ++ [125, 5] ++ [FLG] ++ frame (Resp.failure 126 [110, 111]).bytes)).map' (fun x => x.2.2) =
    .ok [.bad, .got (Resp.failure 126 [110, 111]).bytes] := by decide +kernel

/-- Records as the trace facility writes them, with checksum and without sequence number and time stamp. -/
def linkCfg : Cfg := { exCfg with nseqEn := false, ts := .off }

/-- The hypotheses of `receiver_gets_records_partial` are met. -/
example : linkCfg.chkEn = true ∧ raws linkCfg 0#8 [⟨false, 33, 0, [.u16 0x7D7E]⟩, ⟨false, UT_SUCCESS, 0, []⟩] = [[33, 0x7E, 0x7D, 228], [232, 24]] ∧
    (feed (trazerInit st0) out0 (wire linkCfg [⟨false, 33, 0, [.u16 0x7D7E]⟩, ⟨false, UT_SUCCESS, 0, []⟩])).map' (fun x => (x.2.1.status, x.2.2)) =
      .ok (.success, [.got [33, 0x7E, 0x7D, 228], .got [232, 24]]) := by decide +kernel

example : ∀ m ∈ raws linkCfg 0#8 [⟨false, 33, 0, [.u16 0x7D7E]⟩, ⟨false, UT_SUCCESS, 0, []⟩], m.length ≤ 255 ∧ WellFormed m := by
  have h : raws linkCfg 0#8 [⟨false, 33, 0, [.u16 0x7D7E]⟩, ⟨false, UT_SUCCESS, 0, []⟩] = [[33, 0x7E, 0x7D, 228], [232, 24]] := by decide +kernel
  rw [h]
  intro m hm
  simp only [List.mem_cons, List.not_mem_nil, or_false] at hm
  rcases hm with rfl | rfl
  · exact ⟨by decide, fun h => absurd h (by decide)⟩
  · exact ⟨by decide, fun h => absurd h (by decide)⟩

end Verif.Tz
