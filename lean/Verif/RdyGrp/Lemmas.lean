import Verif.RdyGrp.Model
namespace Verif.RdyGrp
open Verif

/-- Fold a fallible callback over a list. -/
def foldRes {S : Type} (cb : S → Nat → Res S) : S → List Nat → Res S
  | s, [] => .ok s
  | s, p :: ps => (cb s p).bind fun s' => foldRes cb s' ps

theorem foldRes_append {S : Type} (cb : S → Nat → Res S) (s : S) (l m : List Nat) :
    foldRes cb s (l ++ m) = (foldRes cb s l).bind fun s' => foldRes cb s' m := by
  induction l generalizing s with
  | nil => rfl
  | cons p l ih =>
    simp only [List.cons_append, foldRes]
    cases cb s p with
    | ok s' => simp [ih]
    | assert => rfl
    | ub => rfl

/-- The bits of a byte from position `nBit` on, when the byte has been shifted by `nBit`. -/
def colBits (row : Nat) (column : BitVec 8) (nBit k : Nat) : List Nat :=
  ((List.range' nBit k).filter fun b => column.getLsbD (b - nBit)).map fun b => 8 * row + b

theorem or_eq_add (row b : Nat) (h : b < 8) : (row <<< 3) ||| b = 8 * row + b := by
  rw [← Nat.shiftLeft_add_eq_or_of_lt (by simpa using h), Nat.shiftLeft_eq]
  omega

theorem lsb0 : ∀ b : BitVec 8, (b &&& 1#8 ≠ 0#8) ↔ b.getLsbD 0 = true := by decide +kernel

theorem colBits_zero (row n k : Nat) : colBits row 0#8 n k = [] := by simp [colBits]

theorem colBits_succ (row : Nat) (c : BitVec 8) (n k : Nat) :
    colBits row c n (k + 1) = (if c.getLsbD 0 = true then [8 * row + n] else []) ++ colBits row (c >>> 1) (n + 1) k := by
  have key : ∀ b ∈ List.range' (n + 1) k, c.getLsbD (b - n) = (c >>> 1).getLsbD (b - (n + 1)) := by
    intro b hb
    simp only [List.mem_range'_1] at hb
    rw [BitVec.getLsbD_ushiftRight]
    congr 1
    omega
  simp only [colBits, List.range'_succ, List.filter_cons, Nat.sub_self]
  rw [List.filter_congr key]
  split <;> simp

theorem colLoop_eq {S : Type} (cb : S → Nat → Res S) (row k nBit : Nat) (hk : nBit + k = 8) (column : BitVec 8)
    (s : S) (n : Nat) (hn : n < 256) :
    colLoop cb row column nBit s n =
      (foldRes cb s (colBits row column nBit k)).map' fun s' => (s', (n + (colBits row column nBit k).length) % 256) := by
  induction k generalizing nBit column s n with
  | zero =>
    rw [colLoop]
    simp [show ¬ nBit < 8 by omega, colBits, foldRes, Res.map', Nat.mod_eq_of_lt hn]
  | succ k ih =>
    rw [colLoop]
    by_cases h0 : column = 0#8
    · subst h0
      rw [colBits_zero]
      simp [foldRes, Res.map', Nat.mod_eq_of_lt hn]
    · rw [if_pos ⟨h0, by omega⟩, colBits_succ, or_eq_add row nBit (by omega)]
      by_cases hb : column.getLsbD 0 = true
      · rw [if_pos ((lsb0 column).mpr hb), if_pos hb]
        simp only [List.singleton_append, foldRes]
        cases cb s (8 * row + nBit) with
        | ok s' =>
          simp only [Res.bind'_ok]
          rw [ih (nBit + 1) (by omega) _ _ _ (Nat.mod_lt _ (by omega))]
          congr 1
          funext s'
          simp only [List.length_cons, Nat.mod_add_mod]
          rw [show n + 1 + (colBits row (column >>> 1) (nBit + 1) k).length = n + ((colBits row (column >>> 1) (nBit + 1) k).length + 1) by omega]
        | assert => rfl
        | ub => rfl
      · rw [if_neg (fun h => hb ((lsb0 column).mp h)), if_neg hb]
        simp only [List.nil_append]
        exact ih (nBit + 1) (by omega) _ _ _ hn

/-- Members of the rows `tbl`, the first row having number `row`. -/
def rowBits : Nat → List (BitVec 8) → List Nat
  | _, [] => []
  | row, c :: tbl => colBits row c 0 8 ++ rowBits (row + 1) tbl

theorem rowLoop_eq {S : Type} (cb : S → Nat → Res S) (row : Nat) (tbl : List (BitVec 8)) (s : S) (n : Nat) (hn : n < 256) :
    rowLoop cb row tbl s n =
      (foldRes cb s (rowBits row tbl)).map' fun s' => (s', (n + (rowBits row tbl).length) % 256) := by
  induction tbl generalizing row s n with
  | nil => simp [rowLoop, rowBits, foldRes, Res.map', Nat.mod_eq_of_lt hn]
  | cons c tbl ih =>
    simp only [rowLoop, rowBits, foldRes_append]
    rw [colLoop_eq cb row 8 0 (by omega) c s n hn]
    cases foldRes cb s (colBits row c 0 8) with
    | ok s' =>
      simp only [Res.map', Res.bind'_ok]
      rw [ih _ _ _ (Nat.mod_lt _ (by omega))]
      simp only [List.length_append, Nat.mod_add_mod]
      rw [show n + (colBits row c 0 8).length + (rowBits (row + 1) tbl).length = n + ((colBits row c 0 8).length + (rowBits (row + 1) tbl).length) by omega]
      cases foldRes cb s' (rowBits (row + 1) tbl) <;> rfl
    | assert => rfl
    | ub => rfl

theorem mem_colBits (row : Nat) (c : BitVec 8) (p : Nat) : p ∈ colBits row c 0 8 ↔ p / 8 = row ∧ c.getLsbD (p % 8) = true := by
  simp only [colBits, List.mem_map, List.mem_filter, List.mem_range'_1, Nat.sub_zero]
  constructor
  · rintro ⟨b, ⟨h1, h2⟩, rfl⟩
    refine ⟨by omega, ?_⟩
    rw [show (8 * row + b) % 8 = b by omega]; exact h2
  · rintro ⟨rfl, h⟩
    exact ⟨p % 8, ⟨by omega, h⟩, by omega⟩

theorem mem_rowBits (row : Nat) (tbl : List (BitVec 8)) (p : Nat) :
    p ∈ rowBits row tbl ↔ row ≤ p / 8 ∧ ∃ c, tbl[p / 8 - row]? = some c ∧ c.getLsbD (p % 8) = true := by
  induction tbl generalizing row with
  | nil => simp [rowBits]
  | cons c tbl ih =>
    simp only [rowBits, List.mem_append, mem_colBits, ih]
    constructor
    · rintro (⟨rfl, h⟩ | ⟨h1, c', h2, h3⟩)
      · exact ⟨by omega, c, by simp, h⟩
      · refine ⟨by omega, c', ?_, h3⟩
        rw [show p / 8 - row = (p / 8 - (row + 1)) + 1 by omega, List.getElem?_cons_succ]; exact h2
    · rintro ⟨h1, c', h2, h3⟩
      by_cases hr : p / 8 = row
      · left
        rw [hr, Nat.sub_self] at h2
        simp only [List.getElem?_cons_zero, Option.some.injEq] at h2
        subst h2
        exact ⟨hr, h3⟩
      · right
        refine ⟨by omega, c', ?_, h3⟩
        rw [show p / 8 - row = (p / 8 - (row + 1)) + 1 by omega, List.getElem?_cons_succ] at h2; exact h2

theorem sorted_colBits (row : Nat) (c : BitVec 8) : (colBits row c 0 8).Pairwise (· < ·) := by
  simp only [colBits]
  rw [List.pairwise_map]
  refine List.Pairwise.imp ?_ ((List.pairwise_lt_range' (s := 0) (n := 8)).filter _)
  intro a b h
  omega

theorem sorted_rowBits (row : Nat) (tbl : List (BitVec 8)) : (rowBits row tbl).Pairwise (· < ·) := by
  induction tbl generalizing row with
  | nil => exact List.Pairwise.nil
  | cons c tbl ih =>
    simp only [rowBits]
    rw [List.pairwise_append]
    refine ⟨sorted_colBits row c, ih (row + 1), ?_⟩
    intro a ha b hb
    have h1 := ((mem_colBits row c a).mp ha).1
    have h2 := ((mem_rowBits (row + 1) tbl b).mp hb).1
    omega

/-- Is priority `p` set in the second-level table? -/
def bit (g : Grp) (p : Nat) : Bool :=
  match g.tbl[p / 8]? with
  | some c => c.getLsbD (p % 8)
  | none => false

/-- Representation invariant. -/
structure Inv (maxSma : Nat) (g : Grp) : Prop where
  len : g.tbl.length = numRows maxSma
  grp : ∀ r, r < 8 → (g.grp.getLsbD r = true ↔ ∃ c, g.tbl[r]? = some c ∧ c ≠ 0#8)
  range : ∀ p, bit g p = true → p < maxSma

theorem bit_iff_mem (g : Grp) (p : Nat) : p ∈ rowBits 0 g.tbl ↔ bit g p = true := by
  rw [mem_rowBits]
  simp only [Nat.zero_le, true_and, Nat.sub_zero, bit]
  cases g.tbl[p / 8]? <;> simp

theorem rows_enough {maxSma p : Nat} (h : p < maxSma) (hm : maxSma ≤ 64) : p / 8 < numRows maxSma := by
  unfold numRows; repeat' split
  all_goals omega

theorem rows_le (maxSma : Nat) : numRows maxSma ≤ 8 := by
  unfold numRows; repeat' split
  all_goals omega

theorem inv_init (maxSma : Nat) : Inv maxSma (init maxSma) := by
  constructor
  · simp [init]
  · intro r hr
    simp only [init, List.getElem?_replicate]
    constructor
    · intro h; simp at h
    · rintro ⟨c, h, hc⟩
      split at h <;> simp_all
  · intro p h
    simp only [bit, init, List.getElem?_replicate] at h
    split at h
    · rename_i c hc
      split at hc <;> simp only [Option.some.injEq, reduceCtorEq] at hc
      subst hc
      simp at h
    · simp at h

theorem bit_init (maxSma p : Nat) : bit (init maxSma) p = false := by
  simp only [bit, init, List.getElem?_replicate]
  split
  · rename_i c hc
    split at hc <;> simp only [Option.some.injEq, reduceCtorEq] at hc
    subst hc
    simp
  · rfl

theorem mask_ok (i : Nat) (h : i < 8) : getBitMask i = .ok (1#8 <<< i) := by
  have : i = 0 ∨ i = 1 ∨ i = 2 ∨ i = 3 ∨ i = 4 ∨ i = 5 ∨ i = 6 ∨ i = 7 := by omega
  rcases this with rfl | rfl | rfl | rfl | rfl | rfl | rfl | rfl <;> rfl

theorem mask_bit (i j : Nat) (hi : i < 8) (hj : j < 8) : (1#8 <<< i).getLsbD j = decide (i = j) := by
  simp only [BitVec.getLsbD_shiftLeft, BitVec.getLsbD_one]
  by_cases h : i = j
  · subst h; simp [hj]
  · by_cases h2 : j < i
    · simp [h2, hj, h]
    · simp [hj, h]; omega

theorem shr3 (p : Nat) : p >>> 3 = p / 8 := by rw [Nat.shiftRight_eq_div_pow]
theorem and7 (p : Nat) : p &&& 7 = p % 8 := Nat.and_two_pow_sub_one_eq_mod p 3

theorem zero_iff (c : BitVec 8) : c = 0#8 ↔ ∀ j, j < 8 → c.getLsbD j = false := by
  constructor
  · rintro rfl j _; simp
  · intro h
    apply BitVec.eq_of_getLsbD_eq
    intro i hi
    simp [h i hi]

theorem setReady_ok {en : Bool} {maxSma : Nat} {g : Grp} {p : Nat} (hm : maxSma ≤ 64) (h : Inv maxSma g)
    (hp : p < maxSma) :
    ∃ g', setReady en maxSma g p = .ok g' ∧ Inv maxSma g' ∧ ∀ q, bit g' q = (decide (q = p) || bit g q) := by
  have hrow := rows_enough hp hm
  have hrl := rows_le maxSma
  have hlen := h.len
  have hix : ∃ c, g.tbl[p / 8]? = some c := ⟨g.tbl[p/8]'(by omega), List.getElem?_eq_getElem (by omega)⟩
  obtain ⟨c, hc⟩ := hix
  refine ⟨{ grp := g.grp ||| (1#8 <<< (p / 8)), tbl := g.tbl.set (p / 8) (c ||| (1#8 <<< (p % 8))) }, ?_, ?_, ?_⟩
  · simp only [setReady, hp, decide_true, assertIf_true, Res.bind_ok, shr3, and7]
    rw [mask_ok _ (by omega), mask_ok _ (by omega)]
    simp [ix, hc]
  all_goals
    have hbit : ∀ q, bit { grp := g.grp ||| (1#8 <<< (p / 8)), tbl := g.tbl.set (p / 8) (c ||| (1#8 <<< (p % 8))) } q =
        (decide (q = p) || bit g q) := by
      intro q
      simp only [bit]
      by_cases hq : q / 8 = p / 8
      · rw [hq, List.getElem?_set_self (by omega), hc]
        simp only [BitVec.getLsbD_or]
        rw [mask_bit _ _ (by omega) (by omega)]
        rw [show decide (q = p) = decide (p % 8 = q % 8) by rw [decide_eq_decide]; omega]
        rw [Bool.or_comm]
      · rw [List.getElem?_set_ne (fun h => hq h.symm)]
        have : q ≠ p := by rintro rfl; exact hq rfl
        simp [this]
  · constructor
    · simpa using hlen
    · intro r hr
      simp only [BitVec.getLsbD_or, Bool.or_eq_true]
      rw [mask_bit _ _ (by omega) hr, h.grp r hr]
      by_cases hq : r = p / 8
      · subst hq
        rw [List.getElem?_set_self (by omega)]
        simp only [decide_true, or_true, true_iff]
        refine ⟨_, rfl, ?_⟩
        rw [Ne, zero_iff]
        intro hz
        have := hz (p % 8) (by omega)
        rw [BitVec.getLsbD_or, mask_bit _ _ (by omega) (by omega)] at this
        simp at this
      · rw [List.getElem?_set_ne (fun h => hq h.symm)]
        simp [show ¬ p / 8 = r from fun h => hq h.symm]
    · intro q hq
      rw [hbit] at hq
      simp only [Bool.or_eq_true, decide_eq_true_eq] at hq
      rcases hq with rfl | hq
      · exact hp
      · exact h.range q hq
  · exact hbit

theorem setUnready_ok {en : Bool} {maxSma : Nat} {g : Grp} {p : Nat} (hm : maxSma ≤ 64) (h : Inv maxSma g)
    (hp : p < maxSma) :
    ∃ g', setUnready en maxSma g p = .ok g' ∧ Inv maxSma g' ∧ ∀ q, bit g' q = (!decide (q = p) && bit g q) := by
  have hrow := rows_enough hp hm
  have hrl := rows_le maxSma
  have hlen := h.len
  have hix : ∃ c, g.tbl[p / 8]? = some c := ⟨g.tbl[p/8]'(by omega), List.getElem?_eq_getElem (by omega)⟩
  obtain ⟨c, hc⟩ := hix
  refine ⟨{ grp := if (c &&& ~~~(1#8 <<< (p % 8)) == 0#8) = true then g.grp &&& ~~~(1#8 <<< (p / 8)) else g.grp,
            tbl := g.tbl.set (p / 8) (c &&& ~~~(1#8 <<< (p % 8))) }, ?_, ?_, ?_⟩
  · simp only [setUnready, hp, decide_true, assertIf_true, Res.bind_ok, shr3, and7]
    rw [mask_ok _ (by omega), mask_ok _ (by omega)]
    simp [ix, hc]
  all_goals
    generalize hgrp : (if (c &&& ~~~(1#8 <<< (p % 8)) == 0#8) = true then g.grp &&& ~~~(1#8 <<< (p / 8)) else g.grp) = G
    have hbit : ∀ q, bit { grp := G, tbl := g.tbl.set (p / 8) (c &&& ~~~(1#8 <<< (p % 8))) } q =
        (!decide (q = p) && bit g q) := by
      intro q
      simp only [bit]
      by_cases hq : q / 8 = p / 8
      · rw [hq, List.getElem?_set_self (by omega), hc]
        simp only [BitVec.getLsbD_and, BitVec.getLsbD_not]
        rw [mask_bit _ _ (by omega) (by omega)]
        rw [show decide (q = p) = decide (p % 8 = q % 8) by rw [decide_eq_decide]; omega]
        rw [Bool.and_comm]
        simp [show q % 8 < 8 by omega]
      · rw [List.getElem?_set_ne (fun h => hq h.symm)]
        have : q ≠ p := by rintro rfl; exact hq rfl
        simp [this]
  · constructor
    · simpa using hlen
    · intro r hr
      show G.getLsbD r = true ↔ _
      rw [← hgrp]
      by_cases hq : r = p / 8
      · subst hq
        rw [List.getElem?_set_self (by omega)]
        by_cases hz : c &&& ~~~(1#8 <<< (p % 8)) = 0#8
        · simp only [hz, beq_self_eq_true, if_true]
          rw [BitVec.getLsbD_and, BitVec.getLsbD_not, mask_bit _ _ (by omega) (by omega)]
          simp
        · rw [if_neg (by simpa using hz), h.grp _ hr]
          have hcne : c ≠ 0#8 := by rintro rfl; simp at hz
          constructor
          · intro _; exact ⟨_, rfl, hz⟩
          · intro _; exact ⟨c, hc, hcne⟩
      · rw [List.getElem?_set_ne (fun h => hq h.symm), ← h.grp r hr]
        split
        · rw [BitVec.getLsbD_and, BitVec.getLsbD_not, mask_bit _ _ (by omega) hr]
          simp [show ¬ p / 8 = r from fun h => hq h.symm, hr]
        · exact Iff.rfl
    · intro q hq
      rw [hbit] at hq
      simp only [Bool.and_eq_true] at hq
      exact h.range q hq.2
  · exact hbit

/-- The whole table, checked entry by entry by the kernel. -/
theorem leastBit_table : ∀ b : BitVec 8, b ≠ 0#8 →
    ∃ n, n < 8 ∧ getLeastBitSetPos b = .ok n ∧ b.getLsbD n = true ∧ ∀ m, m < n → b.getLsbD m = false := by
  decide +kernel

theorem isReady_iff {maxSma : Nat} {g : Grp} (h : Inv maxSma g) : isReady g = true ↔ ∃ p, bit g p = true := by
  have hrl := rows_le maxSma
  have hlen := h.len
  simp only [isReady, bne_iff_ne, ne_eq]
  constructor
  · intro hne
    rw [zero_iff] at hne
    have : ∃ r, r < 8 ∧ g.grp.getLsbD r = true := by
      apply Classical.byContradiction
      intro hn
      apply hne
      intro j hj
      cases hb : g.grp.getLsbD j
      · rfl
      · exact absurd ⟨j, hj, hb⟩ hn
    obtain ⟨r, hr, hb⟩ := this
    obtain ⟨c, hc, hcz⟩ := (h.grp r hr).mp hb
    obtain ⟨n, hn, _, hbn, _⟩ := leastBit_table c hcz
    refine ⟨8 * r + n, ?_⟩
    simp only [bit]
    rw [show (8 * r + n) / 8 = r by omega, show (8 * r + n) % 8 = n by omega, hc]
    exact hbn
  · rintro ⟨p, hp⟩ hz
    simp only [bit] at hp
    split at hp
    · rename_i c hc
      have hlt : p / 8 < g.tbl.length := by
        rcases List.getElem?_eq_some_iff.mp hc with ⟨hh, _⟩; exact hh
      have hr : p / 8 < 8 := by omega
      have := (h.grp (p / 8) hr).mpr ⟨c, hc, by rintro rfl; simp at hp⟩
      rw [hz] at this
      simp at this
    · simp at hp

end Verif.RdyGrp
