import Verif.Trc.Spec
namespace Verif.Trc
open Verif Spec

/-- Ring index. -/
def idx (sz o i : Nat) : Nat := if o + i < sz then o + i else o + i - sz

/-- The stream `s` holds the unread bytes `u`. -/
structure Rep (sz : Nat) (s : Stream) (u : List Byte) : Prop where
  len : s.mem.length = sz
  tout : s.tout < sz
  tin : s.tin = idx sz s.tout u.length
  qty : s.qty = u.length
  le : u.length ≤ sz
  val : ∀ i, i < u.length → s.mem[idx sz s.tout i]? = u[i]?

theorem idx_lt {sz o i : Nat} (ho : o < sz) (hi : i ≤ sz) : idx sz o i < sz := by unfold idx; split <;> omega

theorem idx_inj {sz o i j : Nat} (ho : o < sz) (hi : i < sz) (hj : j < sz) (h : idx sz o i = idx sz o j) : i = j := by
  unfold idx at h; split at h <;> split at h <;> omega

theorem lastN_le {α : Type} {n : Nat} {u : List α} (h : u.length ≤ n) : lastN n u = u := by
  unfold lastN; rw [show u.length - n = 0 by omega]; rfl

theorem length_lastN {α : Type} (n : Nat) (u : List α) : (lastN n u).length = min n u.length := by
  simp [lastN]; omega

theorem lastN_append {α : Type} (n : Nat) (u v : List α) : lastN n (lastN n u ++ v) = lastN n (u ++ v) := by
  by_cases h : u.length ≤ n
  · rw [lastN_le h]
  · have hlen := length_lastN n u
    apply List.ext_getElem?
    intro i
    simp only [lastN, List.length_append, List.getElem?_drop, List.length_drop, List.getElem?_append]
    split <;> split
    · congr 1; omega
    · omega
    · omega
    · congr 1; omega

theorem qtyMod_gt {sz : Nat} (h : sz ≤ 2048) : sz + 1 < qtyMod sz ∨ sz + 1 = 255 ∧ qtyMod sz = 256 := by
  unfold qtyMod; split <;> omega

theorem put_rep {sz : Nat} {s : Stream} {u : List Byte} (hsz : sz ≤ 2048) (h : Rep sz s u) (b : Byte) :
    ∃ s', put sz s b = .ok s' ∧ Rep sz s' (lastN sz (u ++ [b])) := by
  have hin : s.tin < sz := by rw [h.tin]; exact idx_lt h.tout h.le
  have hq := h.qty
  have hle := h.le
  have hto := h.tout
  have hmod : (s.qty + 1) % qtyMod sz = s.qty + 1 := by
    apply Nat.mod_eq_of_lt
    rcases qtyMod_gt hsz with h1 | h1 <;> omega
  have hw : wr s.mem s.tin b = .ok (s.mem.set s.tin b) := by unfold wr; rw [if_pos (by rw [h.len]; exact hin)]
  refine ⟨_, by rw [put, hw]; rfl, ?_⟩
  simp only [hmod]
  by_cases hfull : u.length = sz
  · -- overwrite
    have htin : s.tin = s.tout := by rw [h.tin, hfull]; unfold idx; split <;> omega
    have hl : (lastN sz (u ++ [b])).length = sz := by rw [length_lastN]; simp; omega
    have hlast : lastN sz (u ++ [b]) = u.drop 1 ++ [b] := by
      unfold lastN
      rw [show (u ++ [b]).length - sz = 1 by simp; omega, List.drop_append, show 1 - u.length = 0 by omega]
      rfl
    rw [if_pos (by omega)]
    obtain ⟨t', ht'⟩ : ∃ t', t' = (if s.tin + 1 = sz then 0 else s.tin + 1) := ⟨_, rfl⟩
    rw [← ht']
    have ht2 : t' = idx sz s.tout 1 := by rw [ht', htin]; unfold idx; split <;> split <;> omega
    have ht3 : t' < sz := by rw [ht2]; exact idx_lt hto (by omega)
    refine ⟨by simp [h.len], ht3, ?_, by simp [hl], by omega, ?_⟩
    · simp only [hl]; unfold idx; split <;> omega
    · intro i hi
      rw [hl] at hi
      simp only [htin]
      rw [hlast, List.getElem?_append, List.getElem?_set]
      by_cases hi2 : i + 1 < sz
      · have hne : s.tout ≠ idx sz t' i := by rw [ht2]; unfold idx; split <;> split <;> omega
        have hii : idx sz t' i = idx sz s.tout (1 + i) := by rw [ht2]; unfold idx; split <;> split <;> split <;> omega
        have hlt : i < (u.drop 1).length := by simp; omega
        rw [if_neg hne, if_pos hlt, List.getElem?_drop, ← h.val (1 + i) (by omega), hii]
      · have heq : s.tout = idx sz t' i := by rw [ht2]; unfold idx; split <;> split <;> omega
        have hlt : ¬ i < (u.drop 1).length := by simp; omega
        have hl2 : i - (u.drop 1).length = 0 := by simp; omega
        rw [if_pos heq, if_pos (by rw [h.len]; omega), if_neg hlt, hl2]
        rfl
  · have hl : lastN sz (u ++ [b]) = u ++ [b] := lastN_le (by simp; omega)
    rw [hl]
    have key : ∀ tout', tout' = s.tout → Rep sz
        { mem := s.mem.set s.tin b, tin := if s.tin + 1 = sz then 0 else s.tin + 1, tout := tout', qty := u.length + 1 }
        (u ++ [b]) := by
      intro tout' ht
      subst ht
      refine ⟨by simp [h.len], h.tout, ?_, by simp, by simp; omega, ?_⟩
      · simp only [List.length_append, List.length_singleton]
        rw [h.tin]; unfold idx; split <;> split <;> split <;> omega
      · intro i hi
        simp only [List.length_append, List.length_singleton] at hi
        simp only
        rw [List.getElem?_set, h.tin, List.getElem?_append]
        by_cases hi2 : i < u.length
        · rw [if_neg (fun he => by have := idx_inj hto (by omega) (by omega) he; omega), if_pos hi2]
          exact h.val i hi2
        · have : i = u.length := by omega
          subst this
          rw [if_pos rfl, if_pos (by rw [h.len]; exact idx_lt hto hle), if_neg hi2]
          simp
    split
    · have h1 : u.length + 1 = sz := by omega
      have h2 := key (if s.tin + 1 = sz then 0 else s.tin + 1) (by
        rw [h.tin]; unfold idx; split <;> split <;> omega)
      rw [h1] at h2
      exact h2
    · have h2 := key s.tout rfl
      rw [hq]
      exact h2

theorem rep_empty {sz : Nat} (h : 0 < sz) (mem : List Byte) (hm : mem.length = sz) : Rep sz ⟨mem, 0, 0, 0⟩ [] :=
  ⟨hm, h, by simp [idx, h], rfl, by simp, by intro i hi; simp at hi⟩

theorem streamInit_rep {sz : Nat} (h : 0 < sz ∧ sz ≤ 2048) (mem : List Byte) (hm : mem.length = sz) :
    ∃ s, streamInit sz mem = .ok s ∧ Rep sz s [FLG] := by
  obtain ⟨s, h1, h2⟩ := put_rep h.2 (rep_empty h.1 mem hm) FLG
  refine ⟨s, h1, ?_⟩
  rwa [lastN_le (by simp; omega)] at h2

/-- Dropping the oldest `k` bytes. -/
theorem rep_drop {sz k : Nat} {s : Stream} {u : List Byte} (h : Rep sz s u) (hk : k ≤ u.length) (tout' : Nat)
    (ht : tout' = idx sz s.tout k) (hlt : tout' < sz) :
    Rep sz { s with tout := tout', qty := s.qty - k } (u.drop k) := by
  have hto := h.tout
  have hle := h.le
  refine ⟨h.len, hlt, ?_, by simp [h.qty], by simp; omega, ?_⟩
  · simp only [List.length_drop]
    rw [h.tin, ht]; unfold idx; split <;> split <;> split <;> omega
  · intro i hi
    simp only [List.length_drop] at hi
    simp only [List.getElem?_drop]
    rw [← h.val (k + i) (by omega), ht]
    congr 1
    unfold idx; split <;> split <;> split <;> omega

theorem get_rep {sz : Nat} {s : Stream} {u : List Byte} (h : Rep sz s u) :
    ∃ s' o u', get sz s = .ok (s', o) ∧ Rep sz s' u' ∧ Step sz u .get (.byte o) u' := by
  have hto := h.tout
  cases u with
  | nil =>
    refine ⟨s, none, [], ?_, h, .getNone⟩
    have hq := h.qty
    simp only [List.length_nil] at hq
    unfold get; rw [if_pos hq]
  | cons b u =>
    have hv := h.val 0 (by simp)
    have h0 : idx sz s.tout 0 = s.tout := by unfold idx; rw [if_pos (by omega)]; rfl
    rw [h0] at hv
    refine ⟨{ s with tout := if sz ≤ s.tout + 1 then 0 else s.tout + 1, qty := s.qty - 1 }, some b, u, ?_, ?_, .get b u⟩
    · unfold get
      rw [if_neg (by rw [h.qty]; simp), RdyGrp.ix, hv]
      rfl
    · have := rep_drop (k := 1) h (by simp) (if sz ≤ s.tout + 1 then 0 else s.tout + 1)
        (by unfold idx; split <;> split <;> omega) (by split <;> omega)
      exact this

/-- A contiguous stretch of the ring. -/
theorem slice_rep {sz n : Nat} {s : Stream} {u : List Byte} (h : Rep sz s u) (hn : n ≤ u.length) (hc : s.tout + n ≤ sz) :
    slice s.mem s.tout n = .ok (u.take n) := by
  have hto := h.tout
  unfold slice
  rw [if_pos (by rw [h.len]; omega)]
  congr 1
  apply List.ext_getElem?
  intro i
  simp only [List.getElem?_take, List.getElem?_drop]
  split
  · rename_i hi
    rw [← h.val i (by omega)]
    congr 1
    unfold idx; rw [if_pos (by omega)]
  · rfl

theorem getBlock_rep {sz : Nat} {s : Stream} {u : List Byte} (h : Rep sz s u) (n : Nat) :
    ∃ s' o u', getBlock sz s n = .ok (s', o) ∧ Rep sz s' u' ∧ Step sz u (.block n) (.bytes o) u' := by
  have hto := h.tout
  have hq := h.qty
  have hle := h.le
  by_cases h0 : s.qty = 0
  · have hu : u = [] := List.length_eq_zero_iff.mp (by omega)
    subst hu
    refine ⟨s, [], [], ?_, h, ?_⟩
    · unfold getBlock; rw [if_pos h0]
    · have := Step.block (sz := sz) [] n 0 (by omega) (by simp) (by simp)
      simpa using this
  · obtain ⟨k, hk⟩ : ∃ k, k = (if n < (if s.qty < sz - s.tout then s.qty else sz - s.tout) then n
        else (if s.qty < sz - s.tout then s.qty else sz - s.tout)) := ⟨_, rfl⟩
    have hk1 : k ≤ n ∧ k ≤ u.length ∧ s.tout + k ≤ sz ∧ (0 < n → 0 < k) := by
      rw [hk]; refine ⟨?_, ?_, ?_, ?_⟩ <;> (split <;> split <;> omega)
    refine ⟨{ s with tout := if sz ≤ s.tout + k then 0 else s.tout + k, qty := s.qty - k }, u.take k, u.drop k, ?_, ?_, ?_⟩
    · unfold getBlock
      rw [if_neg h0]
      simp only [← hk]
      rw [slice_rep h hk1.2.1 hk1.2.2.1]
      rfl
    · exact rep_drop h hk1.2.1 _ (by unfold idx; split <;> split <;> omega) (by split <;> omega)
    · exact .block u n k hk1.1 hk1.2.1 (fun a _ => hk1.2.2.2 a)

theorem copyTo_ok {dest src : List Byte} {off : Nat} (h : off + src.length ≤ dest.length) :
    copyTo dest off src = .ok (dest.take off ++ src ++ dest.drop (off + src.length)) := by
  unfold copyTo; rw [if_pos h]

theorem getWholeBlock_rep {sz : Nat} {s : Stream} {u : List Byte} (h : Rep sz s u) (d : List Byte) (n : Nat) (hd : n ≤ d.length) :
    ∃ s' m d' u', getWholeBlock sz s d n = .ok (s', d', m) ∧ Rep sz s' u' ∧ Step sz u (.whole d n) (.buffer m d') u' := by
  have hto := h.tout
  have hq := h.qty
  have hle := h.le
  by_cases h0 : s.qty = 0
  · have hu : u = [] := List.length_eq_zero_iff.mp (by omega)
    subst hu
    refine ⟨s, 0, d, [], ?_, h, ?_⟩
    · unfold getWholeBlock; rw [if_neg (by simp [h0])]
    · have := Step.whole (sz := sz) [] d n
      simpa using this
  · -- t = number of bytes to move, k = first stretch
    obtain ⟨t, ht⟩ : ∃ t, t = (if s.qty ≤ n then s.qty else n) := ⟨_, rfl⟩
    obtain ⟨k, hk⟩ : ∃ k, k = (if n < (if s.qty < sz - s.tout then s.qty else sz - s.tout) then n
        else (if s.qty < sz - s.tout then s.qty else sz - s.tout)) := ⟨_, rfl⟩
    have ht1 : t = min n u.length := by rw [ht]; split <;> omega
    have hk1 : k ≤ t ∧ s.tout + k ≤ sz ∧ (k < t → s.tout + k = sz) := by
      rw [hk, ht1]; refine ⟨?_, ?_, ?_⟩ <;> (split <;> split <;> omega)
    have hrep1 : Rep sz { s with tout := if sz ≤ s.tout + k then 0 else s.tout + k, qty := s.qty - k } (u.drop k) :=
      rep_drop h (by omega) _ (by unfold idx; split <;> split <;> omega) (by split <;> omega)
    have htake : ∀ x : List Byte, (u.take n).length = t := by intro _; simp; omega
    unfold getWholeBlock
    rw [if_pos h0]
    simp only [← ht, ← hk]
    rw [wholeLoop, slice_rep h (by omega) hk1.2.1]
    simp only [Res.bind'_ok]
    rw [copyTo_ok (by simp; omega)]
    simp only [Res.bind'_ok, List.take_zero, List.nil_append, Nat.zero_add]
    have hlk : (u.take k).length = k := by simp; omega
    by_cases hkt : k = t
    · rw [if_neg (by simp; omega)]
      refine ⟨_, _, _, _, rfl, hrep1, ?_⟩
      have := Step.whole (sz := sz) u d n
      have e1 : u.take n = u.take k := by
        rw [hkt, ht1]; simp [List.take_eq_take_iff]
      have e2 : u.drop n = u.drop k := by
        rw [hkt, ht1]
        by_cases hnu : n ≤ u.length
        · rw [Nat.min_eq_left hnu]
        · rw [Nat.min_eq_right (by omega), List.drop_length, List.drop_of_length_le (by omega)]
      rw [e1, e2, hlk] at this
      rw [hlk]
      exact this
    · rw [if_pos (by omega)]
      rw [wholeLoop]
      have htout : (if sz ≤ s.tout + k then 0 else s.tout + k) = 0 := by rw [if_pos (by omega)]
      rw [slice_rep hrep1 (n := t - k) (by simp; omega) (by simp only [htout]; omega)]
      simp only [Res.bind'_ok]
      rw [copyTo_ok (by simp; omega)]
      simp only [Res.bind'_ok]
      rw [if_neg (by omega)]
      have hrep2 := rep_drop (k := t - k) hrep1 (by simp; omega)
        (if sz ≤ 0 + (t - k) then 0 else 0 + (t - k))
        (by simp only [htout]; unfold idx; split <;> split <;> omega) (by split <;> omega)
      have hlt : (u.take t).length = t := by simp; omega
      have hl2 : ((u.drop k).take (t - k)).length = t - k := by simp; omega
      have e2 : u.drop n = (u.drop k).drop (t - k) := by
        rw [List.drop_drop, show k + (t - k) = t by omega, ht1]
        by_cases hnu : n ≤ u.length
        · rw [Nat.min_eq_left hnu]
        · rw [Nat.min_eq_right (by omega), List.drop_length, List.drop_of_length_le (by omega)]
      have e1 : u.take n = u.take t := by
        rw [ht1]; simp [List.take_eq_take_iff]
      have e4 : u.take t = u.take k ++ (u.drop k).take (t - k) := by
        have := List.take_add (l := u) (i := k) (j := t - k)
        rwa [show k + (t - k) = t by omega] at this
      have e5 : List.take k (List.take k u ++ List.drop (List.take k u).length d) ++ List.take (t - k) (List.drop k u) ++
            List.drop (k + (List.take (t - k) (List.drop k u)).length)
              (List.take k u ++ List.drop (List.take k u).length d) = u.take t ++ d.drop t := by
        rw [hl2, show k + (t - k) = t by omega, e4]
        have h1 : List.take k (List.take k u ++ List.drop (List.take k u).length d) = u.take k := by
          rw [List.take_append, List.take_of_length_le (by omega), hlk, Nat.sub_self, List.take_zero, List.append_nil]
        have h2 : List.drop t (List.take k u ++ List.drop (List.take k u).length d) = d.drop t := by
          rw [List.drop_append, List.drop_of_length_le (by omega), hlk, List.nil_append, List.drop_drop,
            show k + (t - k) = t by omega]
        rw [h1, h2]
      refine ⟨_, k + (t - k), u.take t ++ d.drop t, (u.drop k).drop (t - k), by rw [e5], ?_, ?_⟩
      · simp only [htout] at hrep2 ⊢
        exact hrep2
      · have := Step.whole (sz := sz) u d n
        rw [e2, e1, hlt] at this
        rw [show k + (t - k) = t by omega]
        exact this

/-- Every call on a represented stream returns what the specification allows. -/
theorem sstep_rep {sz : Nat} {s : Stream} {u : List Byte} (hsz : sz ≤ 2048) (h : Rep sz s u) (op : SOp) (hl : SLegal op) :
    ∃ s' o u', sstep sz s op = .ok (s', o) ∧ Rep sz s' u' ∧ Step sz u op o u' := by
  cases op with
  | put b =>
    obtain ⟨s', h1, h2⟩ := put_rep hsz h b
    exact ⟨s', .unit, _, by simp [sstep, h1, Res.map'], h2, .put u b⟩
  | get =>
    obtain ⟨s', o, u', h1, h2, h3⟩ := get_rep h
    exact ⟨s', .byte o, u', by simp [sstep, h1, Res.map'], h2, h3⟩
  | block n =>
    obtain ⟨s', o, u', h1, h2, h3⟩ := getBlock_rep h n
    exact ⟨s', .bytes o, u', by simp [sstep, h1, Res.map'], h2, h3⟩
  | whole d n =>
    obtain ⟨s', m, d', u', h1, h2, h3⟩ := getWholeBlock_rep h d n hl
    exact ⟨s', .buffer m d', u', by simp [sstep, h1, Res.map'], h2, h3⟩

end Verif.Trc
