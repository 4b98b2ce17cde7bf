import Verif.Host.TzSpec
import Verif.Trc.RecordLemmas
namespace Verif.Tz
open Verif Trc Trc.Spec Spec

theorem foldl_sum (l : List Byte) : ∀ a : Byte, l.foldl (· + ·) a = a + sum l := by
  induction l with
  | nil => intro a; simp [sum]
  | cons b l ih => intro a; rw [List.foldl_cons, ih, sum, BitVec.add_assoc]

/-- The receiver is in the middle of a frame (or at its beginning) and has collected `cur`. -/
structure Mid (s : St) (esc : Bool) (cur : List Byte) : Prop where
  state : s.state = if esc then .escaping else .collect
  len : s.tr.length = bufSize
  ptr : s.ptr = cur.length
  le : cur.length ≤ bufSize
  trix : s.trix = cur.length % 256
  tr : s.tr.take cur.length = cur

theorem parserCollect_eq (s : St) (d : Byte) :
    parserCollect s d = (wr s.tr s.ptr d).map' fun tr => { s with trix := (s.trix + 1) % 256, tr := tr, ptr := s.ptr + 1 } := by
  unfold parserCollect
  have : ¬ bufSize < (s.trix + 1) % 256 := by
    have := Nat.mod_lt (s.trix + 1) (show 0 < 256 by decide)
    unfold bufSize; omega
  simp only [this, if_false]

theorem mid_collect {s : St} {esc : Bool} {cur : List Byte} (h : Mid s esc cur) (d : Byte) :
    (cur.length < bufSize → ∃ s', parserCollect s d = .ok s' ∧ Mid { s' with state := .collect } false (cur ++ [d]) ∧ s'.state = s.state) ∧
    (cur.length = bufSize → parserCollect s d = .ub) := by
  rw [parserCollect_eq]
  unfold wr
  rw [h.len, h.ptr]
  constructor
  · intro hl
    rw [if_pos hl]
    refine ⟨_, rfl, ⟨rfl, by simp [h.len], by simp, by simp; omega, ?_, ?_⟩, rfl⟩
    · simp only [h.trix, List.length_append, List.length_singleton]; omega
    · have hlen := h.len
      have htr := h.tr
      simp only [List.length_append, List.length_singleton]
      have : (s.tr.set cur.length d).take (cur.length + 1) = (s.tr.set cur.length d).take cur.length ++ [d] := by
        rw [List.take_add_one, List.getElem?_set, if_pos rfl, if_pos (by omega)]
        rfl
      rw [this, List.take_set_of_le (Nat.le_refl _), htr]
  · intro hl
    rw [if_neg (by omega)]; rfl

theorem feed_append (a b : List Byte) : ∀ (s : St) (o : Out), feed s o (a ++ b) =
    (feed s o a).bind fun (s, o, es) => (feed s o b).map' fun (s, o, es') => (s, o, es ++ es') := by
  induction a with
  | nil =>
    intro s o
    simp only [List.nil_append, feed, Res.bind]
    cases feed s o b <;> simp [Res.map']
  | cons d a ih =>
    intro s o
    simp only [List.cons_append, feed]
    cases hp : parse s o d with
    | ok x =>
      obtain ⟨s1, o1, e1⟩ := x
      simp only [Res.bind, ih]
      cases hf : feed s1 o1 a with
      | ok y =>
        obtain ⟨s2, o2, e2⟩ := y
        simp only [Res.bind, Res.map']
        cases feed s2 o2 b <;> simp
      | assert => rfl
      | ub => rfl
    | assert => rfl
    | ub => rfl

/-- The stuffed bytes of one byte. -/
theorem mid_escape {s : St} {cur : List Byte} (h : Mid s false cur) (o : Out) (d : Byte) :
    (cur.length < bufSize → ∃ s', feed s o (escape d) = .ok (s', o, []) ∧ Mid s' false (cur ++ [d])) ∧
    (cur.length = bufSize → feed s o (escape d) = .ub) := by
  have hs : s.state = .collect := h.state
  unfold escape
  split
  · rename_i hd
    have hd' : d ^^^ XOR ≠ FLG := by rcases hd with rfl | rfl <;> decide
    have hx : d ^^^ XOR ^^^ XOR = d := by rw [BitVec.xor_assoc, BitVec.xor_self, BitVec.xor_zero]
    have h1 : parse s o ESC = .ok ({ s with state := .escaping }, o, []) := by
      unfold parse; rw [hs]; simp only; rw [if_neg (by decide)]; simp
    have hm : Mid { s with state := .escaping } true cur := ⟨rfl, h.len, h.ptr, h.le, h.trix, h.tr⟩
    have h2 : parse { s with state := .escaping } o (d ^^^ XOR) =
        (parserCollect { s with state := .escaping } d).map' fun s => ({ s with state := .collect }, o, []) := by
      unfold parse; simp only; rw [if_neg hd', hx]
    constructor
    · intro hl
      obtain ⟨s', k1, k2, _⟩ := (mid_collect hm d).1 hl
      exact ⟨_, by simp [feed, h1, h2, k1, Res.bind, Res.map'], k2⟩
    · intro hl
      simp [feed, h1, h2, (mid_collect hm d).2 hl, Res.bind, Res.map']
  · rename_i hd
    have hd1 : d ≠ FLG := fun h => hd (.inl h)
    have hd2 : d ≠ ESC := fun h => hd (.inr h)
    have h2 : parse s o d = (parserCollect s d).map' fun s => (s, o, []) := by
      unfold parse; rw [hs]; simp only; rw [if_neg hd1, if_neg hd2]
    constructor
    · intro hl
      obtain ⟨s', k1, k2, k3⟩ := (mid_collect h d).1 hl
      refine ⟨s', by simp [feed, h2, k1, Res.bind, Res.map'], ?_⟩
      rw [hs] at k3
      rw [← k3] at k2
      exact k2
    · intro hl
      simp [feed, h2, (mid_collect h d).2 hl, Res.bind, Res.map']

theorem mid_stuffed (m : List Byte) : ∀ {s : St} {cur : List Byte}, Mid s false cur → ∀ o : Out,
    (cur.length + m.length ≤ bufSize → ∃ s', feed s o (m.flatMap escape) = .ok (s', o, []) ∧ Mid s' false (cur ++ m)) ∧
    (bufSize < cur.length + m.length → feed s o (m.flatMap escape) = .ub) := by
  induction m with
  | nil =>
    intro s cur h o
    exact ⟨fun _ => ⟨s, rfl, by simpa using h⟩, fun hl => by have := h.le; simp at hl; omega⟩
  | cons d m ih =>
    intro s cur h o
    simp only [List.flatMap_cons, feed_append, List.length_cons]
    have hle := h.le
    by_cases hl : cur.length < bufSize
    · obtain ⟨s1, k1, k2⟩ := (mid_escape h o d).1 hl
      obtain ⟨i1, i2⟩ := ih k2 o
      simp only [List.length_append, List.length_singleton] at i1 i2
      constructor
      · intro hb
        obtain ⟨s', j1, j2⟩ := i1 (by omega)
        exact ⟨s', by simp [k1, j1, Res.bind, Res.map'], by simpa using j2⟩
      · intro hb
        simp [k1, i2 (by omega), Res.bind, Res.map']
    · have he : cur.length = bufSize := by omega
      refine ⟨fun hb => by omega, fun _ => ?_⟩
      simp [(mid_escape h o d).2 he, Res.bind]

/-- What happens at the flag. -/
theorem mid_flag {s : St} {cur : List Byte} (h : Mid s false cur) (o : Out) :
    parse s o FLG = match verdict cur with
      | none => .ok (parserInit s, o, [])
      | some .bad => .ok (parserInit s, utProcFail o, [.bad])
      | some (.got m) => (parser s.tr o).map' fun o => (parserInit s, o, [.got m]) := by
  have hs : s.state = .collect := h.state
  have hk : cur.length % 256 ≤ cur.length := Nat.mod_le _ _
  have ht : s.tr.take s.trix = cur.take (cur.length % 256) := by
    rw [h.trix, show s.tr.take (cur.length % 256) = (s.tr.take cur.length).take (cur.length % 256) by
      rw [List.take_take, Nat.min_eq_left hk], h.tr]
  have hc : parserChk s = (sum (cur.take (cur.length % 256)) == 0#8) := by
    unfold parserChk; rw [ht, foldl_sum]; simp
  unfold parse verdict
  rw [hs]
  have ht' : s.tr.take (cur.length % 256) = cur.take (cur.length % 256) := by rw [← h.trix, ht, h.trix]
  simp only [if_true, hc, h.trix, ht']
  by_cases h0 : cur.length % 256 = 0
  · rw [if_pos h0, if_neg (by omega)]
  · rw [if_neg h0, if_pos (by omega)]
    by_cases hz : sum (cur.take (cur.length % 256)) = 0#8
    · simp [hz]
    · simp [hz]

theorem mid_init {s : St} {esc : Bool} {cur : List Byte} (h : Mid s esc cur) : Mid { parserInit s with state := .collect } false [] :=
  ⟨rfl, h.len, rfl, by simp, rfl, rfl⟩

theorem mid_init' {s : St} {cur : List Byte} (h : Mid s false cur) : Mid (parserInit s) false [] :=
  ⟨h.state, h.len, rfl, by simp, rfl, rfl⟩

theorem ix_of_take {tr cur : List Byte} (h : tr.take cur.length = cur) {i : Nat} (hi : i < cur.length) : RdyGrp.ix tr i = .ok cur[i] := by
  have : tr[i]? = some cur[i] := by
    have h1 : cur[i]? = some cur[i] := List.getElem?_eq_getElem hi
    have h2 : (tr.take cur.length)[i]? = tr[i]? := by rw [List.getElem?_take, if_pos hi]
    rw [← h2, h]; exact h1
  unfold RdyGrp.ix; rw [this]

theorem assemble_le (tr : List Byte) : ∀ (l : List Byte) (p sh d : Nat), (∀ i (hi : i < l.length), RdyGrp.ix tr (p + i) = .ok l[i]) →
    d < 2 ^ sh → le l <<< sh < 2 ^ 31 → assemble tr l.length p sh d = .ok (d + (le l) <<< sh, p + l.length) := by
  intro l
  induction l with
  | nil => intro p sh d _ _ _; simp [assemble, le]
  | cons b l ih =>
    intro p sh d hix hd hl
    have hb := hix 0 (by simp)
    simp only [Nat.add_zero, List.getElem_cons_zero] at hb
    simp only [List.length_cons, assemble, hb, Res.bind]
    simp only [le, Nat.shiftLeft_eq] at hl ⊢
    have hp : 0 < 2 ^ sh := Nat.pow_pos (by decide)
    have e : (b.toNat + 256 * le l) * 2 ^ sh = b.toNat * 2 ^ sh + le l * 2 ^ (sh + 8) := by
      rw [Nat.pow_add, Nat.add_mul]; 
      rw [show (256 : Nat) = 2 ^ 8 from rfl, Nat.mul_comm (2 ^ 8) (le l), Nat.mul_assoc, Nat.mul_comm (2 ^ 8) (2 ^ sh)]
    rw [e] at hl
    rw [if_neg (by omega)]
    have hor : d ||| b.toNat * 2 ^ sh = d + b.toNat * 2 ^ sh := by
      rw [Nat.or_comm, ← Nat.shiftLeft_eq, ← Nat.shiftLeft_add_eq_or_of_lt hd, Nat.add_comm]
    rw [hor]
    have hlt : d + b.toNat * 2 ^ sh < 2 ^ (sh + 8) := by
      have hb' := b.isLt
      have : (b.toNat + 1) * 2 ^ sh ≤ 2 ^ 8 * 2 ^ sh := Nat.mul_le_mul_right _ (by omega)
      rw [Nat.pow_add, Nat.mul_comm (2 ^ sh)]
      rw [Nat.add_mul] at this
      omega
    rw [ih (p + 1) (sh + 8) _ (by
      intro i hi
      have := hix (i + 1) (by simp; omega)
      rw [show p + 1 + i = p + (i + 1) by omega, this]; simp) hlt (by rw [Nat.shiftLeft_eq]; omega)]
    simp only [Nat.shiftLeft_eq, e]
    congr 2 <;> omega

theorem assembleStr_ok (tr : List Byte) : ∀ (text : List Byte) (room p : Nat) (acc : List Byte),
    (∀ i (hi : i < text.length), RdyGrp.ix tr (p + i) = .ok text[i]) → RdyGrp.ix tr (p + text.length) = .ok 0#8 → 0#8 ∉ text →
    text.length < room → assembleStr tr room p acc = .ok (acc ++ text) := by
  intro text
  induction text with
  | nil =>
    intro room p acc _ h0 _ hr
    cases room with
    | zero => simp at hr
    | succ room =>
      simp only [List.length_nil, Nat.add_zero] at h0
      simp [assembleStr, h0, Res.bind]
  | cons b text ih =>
    intro room p acc hix h0 hn hr
    cases room with
    | zero => simp at hr
    | succ room =>
      have hb := hix 0 (by simp)
      simp only [Nat.add_zero, List.getElem_cons_zero] at hb
      have hb0 : b ≠ 0#8 := fun h => hn (by simp [h])
      simp only [assembleStr, hb, Res.bind, if_neg hb0]
      rw [ih room (p + 1) (acc ++ [b]) (by
        intro i hi
        have := hix (i + 1) (by simp; omega)
        rw [show p + 1 + i = p + (i + 1) by omega, this]; simp) (by
        rw [show p + 1 + text.length = p + (b :: text).length by simp; omega]; exact h0) (fun h => hn (by simp [h])) (by simpa using hr)]
      simp

theorem strncpy_eq {s : List Byte} (h : s.length ≤ msgSize) : strncpy s = s ++ List.replicate (msgSize - s.length) 0#8 := by
  unfold strncpy
  rw [List.take_append, List.take_of_length_le h, List.take_replicate, Nat.min_eq_left (by omega)]

theorem parser_failure {tr cur : List Byte} (h : tr.take cur.length = cur) {line : Nat} {text rest : List Byte} (hm : cur = failRec line text ++ rest)
    (hl : line < 2 ^ 31) (ht : text.length < symSize) (h0 : 0#8 ∉ text) (o : Out) :
    parser tr o = .ok { status := .fail, line := line, msg := text ++ List.replicate (msgSize - text.length) 0#8 } := by
  have hlen : cur.length = 1 + 4 + text.length + 1 + rest.length := by
    rw [hm]; simp [failRec, length_leBytes]; omega
  have hb4 := length_leBytes 4 line
  have hix : ∀ i (hi : i < cur.length), RdyGrp.ix tr i = .ok cur[i] := fun i hi => ix_of_take h hi
  have hget : ∀ i b, cur[i]? = some b → RdyGrp.ix tr i = .ok b := by
    intro i b hb
    obtain ⟨hi, hb⟩ := List.getElem?_eq_some_iff.mp hb
    rw [hix i hi, hb]
  have h1 : RdyGrp.ix tr 0 = .ok UT_FAIL := hget _ _ (by rw [hm]; rfl)
  have ha : assemble tr 4 1 0 0 = .ok (line, 5) := by
    have := assemble_le tr (leBytes 4 line) 1 0 0 (by
      intro i hi
      apply hget
      rw [hm, show 1 + i = i + 1 by omega]
      simp only [failRec, List.cons_append, List.getElem?_cons_succ, List.append_assoc]
      rw [List.getElem?_append_left hi, List.getElem?_eq_getElem hi]) (by decide) (by
      rw [le_leBytes, Nat.shiftLeft_eq]; omega)
    rw [hb4, le_leBytes, Nat.shiftLeft_eq] at this
    rw [this]
    simp only [Nat.zero_add, Nat.pow_zero, Nat.mul_one]
    rw [Nat.mod_eq_of_lt (by omega)]
  have hs : assembleStr tr symSize 5 [] = .ok text := by
    have := assembleStr_ok tr text symSize 5 [] (by
      intro i hi
      apply hget
      rw [hm, show 5 + i = 4 + i + 1 by omega]
      simp only [failRec, List.cons_append, List.getElem?_cons_succ, List.append_assoc]
      rw [List.getElem?_append_right (by omega), hb4, show 4 + i - 4 = i by omega, List.getElem?_append_left hi,
        List.getElem?_eq_getElem hi]) (by
      apply hget
      rw [hm, show 5 + text.length = 4 + text.length + 1 by omega]
      simp only [failRec, List.cons_append, List.getElem?_cons_succ, List.append_assoc]
      rw [List.getElem?_append_right (by omega), hb4, show 4 + text.length - 4 = text.length by omega,
        List.getElem?_append_right (Nat.le_refl _), Nat.sub_self]
      rfl) h0 ht
    simpa using this
  unfold parser
  rw [h1]
  simp only [Res.bind, if_true, utFail, ha, hs, Res.map']
  rw [strncpy_eq (by unfold symSize at ht; unfold msgSize; omega)]

theorem parser_ok {tr cur : List Byte} (h : tr.take cur.length = cur) (hc : cur ≠ []) (hw : WellFormed cur) (o : Out) :
    ∃ o', parser tr o = .ok o' := by
  have hpos : 0 < cur.length := by
    cases cur with
    | nil => exact absurd rfl hc
    | cons => simp
  by_cases hf : cur.head? = some UT_FAIL
  · obtain ⟨line, text, rest, hm, hl, ht, h0⟩ := hw hf
    exact ⟨_, parser_failure h hm hl ht h0 o⟩
  · unfold parser
    rw [ix_of_take h hpos]
    have : cur[0] ≠ UT_FAIL := by
      intro he
      apply hf
      rw [List.head?_eq_getElem?, List.getElem?_eq_getElem hpos, he]
    simp only [Res.bind, if_neg this]
    split
    · exact ⟨_, rfl⟩
    · exact ⟨_, rfl⟩

end Verif.Tz
