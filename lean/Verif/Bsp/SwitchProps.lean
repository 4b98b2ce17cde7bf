import Verif.Bsp.Switch
/-
Properties C177-C179: the debouncing switch handler.
-/
namespace Verif.Bsp
open Verif.Bsp.Spec

/-! ### Windows -/

theorem window_length {h : List Bool} {n : Nat} (hn : n ≤ h.length) : (window h n).length = 8 := by
  simp [window]; omega

theorem window_snoc_old {h : List Bool} {b : Bool} {n : Nat} (hn : n ≤ h.length) : window (h ++ [b]) n = window h n := by
  unfold window
  rw [← List.append_assoc, List.drop_append_of_le_length (by simp; omega), List.take_append_of_le_length (by simp; omega)]

theorem window_all {h : List Bool} : window h h.length = (List.replicate 8 false ++ h).drop h.length := by
  unfold window
  exact List.take_of_length_le (by simp; omega)

theorem window_snoc {h : List Bool} {b : Bool} : window (h ++ [b]) (h.length + 1) = (window h h.length).drop 1 ++ [b] := by
  have := window_all (h := h ++ [b])
  rw [List.length_append, List.length_singleton] at this
  rw [this, window_all, ← List.append_assoc, List.drop_append_of_le_length (by simp), List.drop_drop]

theorem window_take {h : List Bool} {k n : Nat} (hk : k ≤ h.length) (hn : n ≤ k) : window (h.take k) n = window h n := by
  unfold window
  have e : List.replicate 8 false ++ h = (List.replicate 8 false ++ h.take k) ++ h.drop k := by rw [List.append_assoc, List.take_append_drop]
  rw [e, List.drop_append_of_le_length (l₁ := List.replicate 8 false ++ h.take k) (by simp; omega), List.take_append_of_le_length (by simp; omega)]

theorem window_get {h : List Bool} {n i : Nat} (hi : i < 8) : (window h n)[i]? = (List.replicate 8 false ++ h)[n + i]? := by
  simp [window, hi]

theorem steady_get {b : Bool} {h : List Bool} {n : Nat} (hs : Steady b h n) {i : Nat} (hi : i < 8) : (List.replicate 8 false ++ h)[n + i]? = some b := by
  rw [← window_get hi, hs]
  rw [List.getElem?_replicate, if_pos hi]

/-- Windows of closed and of open samples do not overlap. -/
theorem steady_apart {h : List Bool} {n m : Nat} {b b' : Bool} (hb : b ≠ b') (h1 : Steady b h n) (h2 : Steady b' h m) (hnm : n ≤ m) : n + 8 ≤ m := by
  by_cases hlt : n + 8 ≤ m
  · exact hlt
  · have a1 := steady_get h1 (i := m - n) (by omega)
    have a2 := steady_get h2 (i := 0) (by omega)
    rw [show n + (m - n) = m + 0 by omega, a2] at a1
    cases a1
    exact absurd rfl hb

theorem pressed_nil : ¬ Pressed [] := by
  rintro ⟨n, hn, hs, _⟩
  have h0 : n = 0 := by simpa using hn
  subst h0
  have := steady_get hs (i := 0) (by omega)
  simp at this

theorem pressed_snoc {h : List Bool} {b : Bool} :
    Pressed (h ++ [b]) ↔ Steady true (h ++ [b]) (h.length + 1) ∨ (¬ Steady false (h ++ [b]) (h.length + 1) ∧ Pressed h) := by
  constructor
  · rintro ⟨n, hn, hs, hno⟩
    simp only [List.length_append, List.length_singleton] at hn hno
    by_cases he : n = h.length + 1
    · subst he; exact .inl hs
    · refine .inr ⟨hno _ (by omega) (by omega), n, by omega, ?_, fun m h1 h2 hm => hno m h1 (by omega) ?_⟩
      · unfold Steady at hs ⊢; rw [window_snoc_old (by omega)] at hs; exact hs
      · unfold Steady at hm ⊢; rw [window_snoc_old h2]; exact hm
  · rintro (hs | ⟨hf, n, hn, hs, hno⟩)
    · exact ⟨h.length + 1, by simp, hs, fun m h1 h2 => by simp at h2; omega⟩
    · refine ⟨n, by simp; omega, ?_, fun m h1 h2 hm => ?_⟩
      · unfold Steady at hs ⊢; rw [window_snoc_old hn]; exact hs
      · simp only [List.length_append, List.length_singleton] at h2
        by_cases he : m = h.length + 1
        · subst he; exact hf hm
        · refine hno m h1 (by omega) ?_
          unfold Steady at hm ⊢; rw [window_snoc_old (by omega)] at hm; exact hm

/-! ### The byte is the window -/

/-- A window as a byte, the newest sample in bit 0. -/
def pack (l : List Bool) : BitVec 8 := l.foldl (fun a b => (a <<< 1) ||| (if b then 1#8 else 0#8)) 0#8

theorem eight {l : List Bool} (h : l.length = 8) : ∃ a b c d e f g i, l = [a, b, c, d, e, f, g, i] := by
  match l, h with
  | [a, b, c, d, e, f, g, i], _ => exact ⟨a, b, c, d, e, f, g, i, rfl⟩

theorem pack_next {l : List Bool} (h : l.length = 8) (x : Bool) : pack (l.drop 1 ++ [x]) = (pack l <<< 1) ||| (if x then 1#8 else 0#8) := by
  obtain ⟨a, b, c, d, e, f, g, i, rfl⟩ := eight h
  revert a b c d e f g i x
  decide +kernel

theorem pack_ones {l : List Bool} (h : l.length = 8) : pack l = 0xFF#8 ↔ l = List.replicate 8 true := by
  obtain ⟨a, b, c, d, e, f, g, i, rfl⟩ := eight h
  revert a b c d e f g i
  decide +kernel

theorem pack_zeros {l : List Bool} (h : l.length = 8) : pack l = 0#8 ↔ l = List.replicate 8 false := by
  obtain ⟨a, b, c, d, e, f, g, i, rfl⟩ := eight h
  revert a b c d e f g i
  decide +kernel

/-- A switch that has seen the samples `h`. -/
def Seen (p : Sw) (h : List Bool) : Prop := p.state = pack (window h h.length) ∧ (p.deb = true ↔ Pressed h)

theorem seen_init : Seen ⟨0#8, false⟩ [] := ⟨by decide +kernel, by simp [pressed_nil]⟩

/-- One sample: the exact effect of the body of the loop. -/
theorem body_seen {p : Sw} {h : List Bool} (hp : Seen p h) (s raw : Nat) :
    Seen (body s p raw).1 (h ++ [decide (raw = 0)]) ∧
    ((body s p raw).2.1 = 1 ↔ s = 0 ∧ ¬ Pressed h ∧ Pressed (h ++ [decide (raw = 0)])) ∧ (body s p raw).2.1 ≤ 1 ∧
    ((body s p raw).2.2 = true ↔ Pressed h ∧ ¬ Pressed (h ++ [decide (raw = 0)])) := by
  obtain ⟨h1, h2⟩ := hp
  have hw := window_length (Nat.le_refl h.length)
  have hst : (p.state <<< 1) ||| (if raw = 0 then 1#8 else 0#8) = pack (window (h ++ [decide (raw = 0)]) (h.length + 1)) := by
    rw [window_snoc, pack_next hw, h1]
    simp
  have hw' : (window (h ++ [decide (raw = 0)]) (h.length + 1)).length = 8 := window_length (by simp)
  have hones := pack_ones hw'
  have hzeros := pack_zeros hw'
  have hsn := pressed_snoc (h := h) (b := decide (raw = 0))
  simp only [Steady] at hsn
  simp only [Seen, body, hst, hones, hzeros, List.length_append, List.length_singleton]
  generalize hW : window (h ++ [decide (raw = 0)]) (h.length + 1) = W at *
  have hne : ¬ (W = List.replicate 8 true ∧ W = List.replicate 8 false) := by
    rintro ⟨a, b⟩; rw [a] at b; exact absurd b (by decide)
  generalize hT : List.replicate 8 true = T at *
  generalize hF : List.replicate 8 false = F at *
  by_cases hP : Pressed h
  · have hd : p.deb = true := h2.mpr hP
    by_cases hz : W = F
    · have ho : W ≠ T := fun h => hne ⟨h, hz⟩
      have hn : ¬ Pressed (h ++ [decide (raw = 0)]) := by rw [hsn]; exact fun h => h.elim ho fun x => x.1 hz
      simp [hd, hz, hn, hP, switchEvt]
    · have hn : Pressed (h ++ [decide (raw = 0)]) := by rw [hsn]; exact .inr ⟨hz, hP⟩
      simp [hd, hz, hn, hP]
  · have hd : p.deb = false := by cases hx : p.deb with | false => rfl | true => exact absurd (h2.mp hx) hP
    by_cases ho : W = T
    · have hn : Pressed (h ++ [decide (raw = 0)]) := by rw [hsn]; exact .inl ho
      by_cases hs : s = 0
      · simp [hd, ho, hn, hP, switchEvt, hs]
      · simp [hd, ho, hn, hP, switchEvt, hs]
    · have hn : ¬ Pressed (h ++ [decide (raw = 0)]) := by rw [hsn]; simp [ho, hP]
      simp [hd, ho, hn, hP]

/-! ### Histories -/

theorem run_snoc (sws : List Sw) (ticks : List (Nat → Nat)) (raw : Nat → Nat) :
    (run sws (ticks ++ [raw])).1 = (tick (run sws ticks).1 raw).1 ∧ (run sws (ticks ++ [raw])).2 = (run sws ticks).2 ++ [(tick (run sws ticks).1 raw).2] := by
  induction ticks generalizing sws with
  | nil => simp [run]
  | cons t ts ih => simp [run, ih]

theorem samples_snoc (s : Nat) (ticks : List (Nat → Nat)) (raw : Nat → Nat) : samples s (ticks ++ [raw]) = samples s ticks ++ [decide (raw s = 0)] := by
  simp [samples]

theorem samples_length (s : Nat) (ticks : List (Nat → Nat)) : (samples s ticks).length = ticks.length := by simp [samples]

theorem falls_snoc_old {h : List Bool} {b : Bool} {n : Nat} (hn : n < h.length) : Falls (h ++ [b]) n ↔ Falls h n := by
  unfold Falls
  rw [List.take_append_of_le_length (by omega), List.take_append_of_le_length (by omega)]
  simp; omega

theorem falls_snoc_last {h : List Bool} {b : Bool} : Falls (h ++ [b]) h.length ↔ Pressed h ∧ ¬ Pressed (h ++ [b]) := by
  unfold Falls
  rw [List.take_append_of_le_length (Nat.le_refl _), List.take_length, List.take_of_length_le (by simp)]
  simp

open Classical in
theorem taken_snoc (ticks : List (Nat → Nat)) (raw : Nat → Nat) :
    taken (ticks ++ [raw]) = if Falls (samples 0 (ticks ++ [raw])) ticks.length then taken ticks else taken ticks ++ [decide (raw 1 = 0)] := by
  unfold taken
  rw [List.length_append, List.length_singleton, List.range_succ, List.filter_append, List.map_append]
  have e : ((List.range ticks.length).filter fun n => decide (¬ Falls (samples 0 (ticks ++ [raw])) n)) =
      (List.range ticks.length).filter fun n => decide (¬ Falls (samples 0 ticks) n) := by
    refine List.filter_congr fun n hn => ?_
    rw [samples_snoc, falls_snoc_old (by rw [samples_length]; exact List.mem_range.mp hn)]
  have e2 : ∀ l : List Nat, (∀ n ∈ l, n < ticks.length) → (l.map fun n => (samples 1 (ticks ++ [raw])).getD n false) = l.map fun n => (samples 1 ticks).getD n false := by
    intro l hl
    refine List.map_congr_left fun n hn => ?_
    have := hl n hn
    rw [samples_snoc, List.getD_eq_getElem?_getD, List.getD_eq_getElem?_getD, List.getElem?_append_left (by rw [samples_length]; exact this)]
  rw [e, e2 _ (fun n hn => List.mem_range.mp (List.mem_filter.mp hn).1)]
  by_cases hf : Falls (samples 0 (ticks ++ [raw])) ticks.length
  · simp [hf]
  · rw [if_neg hf]
    simp only [List.filter_cons, hf, not_false_eq_true, decide_true, if_true, List.filter_nil, List.map_cons, List.map_nil]
    rw [samples_snoc, List.getD_eq_getElem?_getD, List.getElem?_append_right (by rw [samples_length]; omega), samples_length]
    simp

/-- What one tick does to both switches. -/
theorem run_inv (ticks : List (Nat → Nat)) : ∃ p q, (run sws0 ticks).1 = [p, q] ∧ Seen p (samples 0 ticks) ∧ Seen q (taken ticks) ∧
    (run sws0 ticks).2.length = ticks.length ∧
    ∀ n, n < ticks.length → ∃ k, (run sws0 ticks).2[n]? = some k ∧ k ≤ 1 ∧ (k = 1 ↔ Rises (samples 0 ticks) n) := by
  induction h : ticks.length generalizing ticks with
  | zero =>
    have : ticks = [] := List.length_eq_zero_iff.mp h
    subst this
    exact ⟨_, _, rfl, seen_init, seen_init, rfl, by simp⟩
  | succ m ih =>
    obtain ⟨ts, raw, rfl⟩ : ∃ ts raw, ticks = ts ++ [raw] := by
      have hne : ticks ≠ [] := by intro h0; simp [h0] at h
      exact ⟨ticks.dropLast, ticks.getLast hne, (List.dropLast_concat_getLast hne).symm⟩
    have hm : ts.length = m := by simpa using h
    obtain ⟨p, q, e, hp, hq, hl, hk⟩ := ih ts hm
    obtain ⟨r1, r2⟩ := run_snoc sws0 ts raw
    obtain ⟨b1, b2, b3, b4⟩ := body_seen hp 0 (raw 0)
    obtain ⟨c1, c2, c3, c4⟩ := body_seen hq 1 (raw 1)
    rw [← samples_snoc] at b1 b2 b4
    have hlast : (Falls (samples 0 (ts ++ [raw])) ts.length ↔ Pressed (samples 0 ts) ∧ ¬ Pressed (samples 0 (ts ++ [raw]))) := by
      rw [samples_snoc]
      have := falls_snoc_last (h := samples 0 ts) (b := decide (raw 0 = 0))
      rw [samples_length] at this
      exact this
    have hrise : (Rises (samples 0 (ts ++ [raw])) ts.length ↔ ¬ Pressed (samples 0 ts) ∧ Pressed (samples 0 (ts ++ [raw]))) := by
      unfold Rises
      rw [samples_snoc, List.take_append_of_le_length (by rw [samples_length]; omega), List.take_of_length_le (l := samples 0 ts) (by rw [samples_length]; omega),
        List.take_of_length_le (by simp [samples_length])]
      simp [samples_length]
    have hold : ∀ n, n < ts.length → (Rises (samples 0 (ts ++ [raw])) n ↔ Rises (samples 0 ts) n) := by
      intro n hn
      unfold Rises
      rw [samples_snoc, List.take_append_of_le_length (by rw [samples_length]; omega), List.take_append_of_le_length (by rw [samples_length]; omega)]
      simp [samples_length]; omega
    have hzero : (body 1 q (raw 1)).2.1 = 0 := by
      have : (body 1 q (raw 1)).2.1 ≠ 1 := fun h => by have := (c2.mp h).1; omega
      omega
    have hpub : (tick (run sws0 ts).1 raw).2 = (body 0 p (raw 0)).2.1 := by
      rw [e]
      simp only [tick, loop]
      split
      · rfl
      · split <;> simp [hzero]
    have hsw : (tick (run sws0 ts).1 raw).1 = [(body 0 p (raw 0)).1, if (body 0 p (raw 0)).2.2 then q else (body 1 q (raw 1)).1] := by
      rw [e]
      simp only [tick, loop]
      split
      · simp [*]
      · split <;> simp [*]
    refine ⟨_, _, by rw [r1, hsw], b1, ?_, by simp [r2, hl], fun n hn => ?_⟩
    · rw [taken_snoc]
      by_cases hf : Falls (samples 0 (ts ++ [raw])) ts.length
      · rw [if_pos hf, if_pos (b4.mpr (hlast.mp hf))]; exact hq
      · rw [if_neg hf, if_neg (fun h => hf (hlast.mpr (b4.mp h)))]; exact c1
    · by_cases hlt : n < ts.length
      · obtain ⟨k, k1, k2, k3⟩ := hk n (by omega)
        exact ⟨k, by rw [r2, List.getElem?_append_left (by omega)]; exact k1, k2, by rw [hold n hlt]; exact k3⟩
      · have : n = ts.length := by omega
        subst this
        refine ⟨(body 0 p (raw 0)).2.1, by rw [r2, List.getElem?_append_right (by omega), hl, ← hm, hpub]; simp, b3, ?_⟩
        rw [hrise, b2]; simp

/-- **C177.** For every history of pin readings: the first switch is reported pressed if and only if it was closed for eight consecutive ticks at some
time and has not been open for eight consecutive ticks since; and exactly at the ticks at which it becomes pressed one PAUSE event is published. -/
theorem first_switch (ticks : List (Nat → Nat)) :
    (getState (run sws0 ticks).1 0 = some true ↔ Pressed (samples 0 ticks)) ∧ (run sws0 ticks).2.length = ticks.length ∧
    ∀ n, n < ticks.length → ∃ k, (run sws0 ticks).2[n]? = some k ∧ k ≤ 1 ∧ (k = 1 ↔ Rises (samples 0 ticks) n) := by
  obtain ⟨p, q, e, hp, _, hl, hk⟩ := run_inv ticks
  exact ⟨by rw [e]; simp [getState, hp.2], hl, hk⟩

theorem rise_steady {h : List Bool} {n : Nat} (hr : Rises h n) : Steady true h (n + 1) := by
  obtain ⟨hn, h1, m, hm, hs, hno⟩ := hr
  have hl : (h.take (n + 1)).length = n + 1 := by simp; omega
  rw [hl] at hm hno
  have hs' : Steady true h m := by unfold Steady at hs ⊢; rw [window_take (by omega) hm] at hs; exact hs
  by_cases he : m = n + 1
  · subst he; exact hs'
  · refine absurd ⟨m, by simp; omega, ?_, fun k k1 k2 hk => hno k k1 (by simp at k2; omega) ?_⟩ h1
    · unfold Steady at hs' ⊢; rw [window_take (by omega) (by omega)]; exact hs'
    · simp at k2
      unfold Steady at hk ⊢; rw [window_take (by omega) (by omega)] at hk ⊢; exact hk

/-- **C178.** Two PAUSE events are at least sixteen ticks apart, however the contacts bounce. -/
theorem pauses_apart (ticks : List (Nat → Nat)) {i j : Nat} (hij : i < j) (hi : (run sws0 ticks).2[i]? = some 1) (hj : (run sws0 ticks).2[j]? = some 1) :
    i + 16 ≤ j := by
  obtain ⟨_, hl, hk⟩ := first_switch ticks
  have lj : j < ticks.length := by rw [← hl]; exact (List.getElem?_eq_some_iff.mp hj).1
  have rises : ∀ n, n < ticks.length → (run sws0 ticks).2[n]? = some 1 → Rises (samples 0 ticks) n := by
    intro n hn h1
    obtain ⟨k, k1, _, k3⟩ := hk n hn
    rw [h1] at k1; cases k1
    exact k3.mp rfl
  have ri := rises i (by omega) hi
  have rj := rises j lj hj
  have si := rise_steady ri
  have sj := rise_steady rj
  obtain ⟨hn, hnot, _⟩ := rj
  have hlen : ((samples 0 ticks).take j).length = j := by simp [samples_length]; omega
  obtain ⟨m, m1, m2, m3⟩ : ∃ m, i + 1 < m ∧ m ≤ j ∧ Steady false (samples 0 ticks) m := by
    apply Classical.byContradiction
    intro hno
    refine hnot ⟨i + 1, by omega, ?_, fun m m1 m2 m3 => hno ⟨m, m1, by omega, ?_⟩⟩
    · unfold Steady at si ⊢; rw [window_take (by omega) (by omega)]; exact si
    · unfold Steady at m3 ⊢; rw [window_take (by omega) (by omega)] at m3; exact m3
  have a1 := steady_apart (by decide) si m3 (by omega)
  have a2 := steady_apart (by decide) m3 sj (by omega)
  omega

/-- **C178.** A press is recognised at the eighth consecutive tick at which the switch is closed, see also
`pause_needs_eight`. -/
theorem held_press_is_recognised (ticks : List (Nat → Nat)) {n : Nat} (hn : n < ticks.length) (hs : Steady true (samples 0 ticks) (n + 1)) :
    getState (run sws0 (ticks.take (n + 1))).1 0 = some true := by
  rw [(first_switch _).1]
  have : samples 0 (ticks.take (n + 1)) = (samples 0 ticks).take (n + 1) := by simp [samples, List.map_take]
  rw [this]
  have hl : ((samples 0 ticks).take (n + 1)).length = n + 1 := by simp [samples_length]; omega
  refine ⟨n + 1, by omega, ?_, fun m h1 h2 => by omega⟩
  unfold Steady at hs ⊢
  rw [window_take (by rw [samples_length]; omega) (by omega)]
  exact hs

/-- **C178.** A PAUSE event is published only when the last eight samples were all closed: no shorter closure or bouncing publishes anything. -/
theorem pause_needs_eight (ticks : List (Nat → Nat)) {n : Nat} (h : (run sws0 ticks).2[n]? = some 1) : Steady true (samples 0 ticks) (n + 1) := by
  obtain ⟨_, hl, hk⟩ := first_switch ticks
  obtain ⟨k, k1, _, k3⟩ := hk n (by rw [← hl]; exact (List.getElem?_eq_some_iff.mp h).1)
  rw [h] at k1; cases k1
  exact rise_steady (k3.mp rfl)

/-- **C179** (partial: the ticks at which the first switch becomes released are left out). The second switch is debounced like the first, over the samples
of the ticks at which the first switch does not become released. -/
theorem second_switch_partial (ticks : List (Nat → Nat)) : getState (run sws0 ticks).1 1 = some true ↔ Pressed (taken ticks) := by
  obtain ⟨p, q, e, _, hq, _, _⟩ := run_inv ticks
  rw [e]; simp [getState, hq.2]

/-- **C179 (negation).** At a tick at which the first switch becomes released the second is not read: whatever its pin says, its state and its samples
stay as they were. -/
theorem second_switch_not_sampled (ticks : List (Nat → Nat)) (raw : Nat → Nat) (hf : Falls (samples 0 (ticks ++ [raw])) ticks.length) (x : Nat) :
    (run sws0 (ticks ++ [fun s => if s = 0 then raw 0 else x])).1[1]? = (run sws0 ticks).1[1]? := by
  obtain ⟨p, q, e, hp, hq, hl, hk⟩ := run_inv ticks
  rw [(run_snoc _ _ _).1, e]
  obtain ⟨_, _, _, b4⟩ := body_seen hp 0 (raw 0)
  rw [samples_snoc] at hf
  have := falls_snoc_last (h := samples 0 ticks) (b := decide (raw 0 = 0))
  rw [samples_length] at this
  have hr := b4.mpr (this.mp hf)
  simp [tick, loop, hr]

/-! ### The hypotheses are met -/

namespace Demo

/-- Both switches: pin readings of one tick; 0 is closed. -/
def rd (a b : Nat) : Nat → Nat := fun s => if s = 0 then a else b

/-- Bouncing, then closed for nine ticks, open for eight, closed for nine. -/
def press : List (Nat → Nat) :=
  [rd 0 1, rd 1 1, rd 0 1] ++ List.replicate 4 (rd 0 1) ++ [rd 1 1] ++ List.replicate 9 (rd 0 1) ++ List.replicate 8 (rd 1 1) ++ List.replicate 9 (rd 0 1)

/-- C177, C178: two PAUSE events, sixteen ticks or more apart. -/
example : (run sws0 press).2 = List.replicate 15 0 ++ [1] ++ List.replicate 16 0 ++ [1, 0] ∧ getState (run sws0 press).1 0 = some true := by decide +kernel

/-- C178: the switch is closed for eight ticks. -/
example : 15 < press.length ∧ Steady true (samples 0 press) 16 := by unfold Steady; decide +kernel

/-- C179: the first switch becomes released at the very tick at which the second is read for the eighth time: it is recognised one tick late. -/
def late : List (Nat → Nat) := List.replicate 8 (rd 0 1) ++ List.replicate 7 (rd 1 0)

example : Falls (samples 0 (late ++ [rd 1 0])) late.length ∧ getState (run sws0 (late ++ [rd 1 0])).1 1 = some false ∧
    Pressed (samples 1 (late ++ [rd 1 0])) ∧ getState (run sws0 (late ++ [rd 1 0, rd 1 0])).1 1 = some true := by
  refine ⟨⟨by decide +kernel, ?_, ?_⟩, by decide +kernel, ?_, by decide +kernel⟩
  · have e : (samples 0 (late ++ [rd 1 0])).take late.length = samples 0 late := by decide +kernel
    rw [e]
    exact (first_switch late).1.mp (by decide +kernel)
  · have e : (samples 0 (late ++ [rd 1 0])).take (late.length + 1) = samples 0 (late ++ [rd 1 0]) := by decide +kernel
    rw [e]
    exact fun h => absurd ((first_switch _).1.mpr h) (by decide +kernel)
  · exact ⟨16, by decide +kernel, by unfold Steady; decide +kernel, fun m h1 h2 => by simp [samples, late] at h2; omega⟩

end Demo

end Verif.Bsp
