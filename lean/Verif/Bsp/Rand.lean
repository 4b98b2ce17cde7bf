import Verif.Timer.Time
/-
The pseudo-random numbers of the demo "shared" (`bsp_rand`, `bsp_srand`: demo/libbsp/platform/80x86/linux/bsp_shared.c:138-157, the same text in
80x86/win/bsp_shared.c:139-159 and the two files of the FRDM-K64F board) and the times the clients draw with them
(demo/cross/shared/client.c:25-28). Properties C180, C181.
-/
namespace Verif.Bsp.Rand
open Verif Verif.Timer Verif.Timer.Spec

/-- `l_rnd * (3 * 7 * 11 * 13 * 23)` in 32 bits (bsp_shared.c:147). -/
def next (l_rnd : Nat) : Nat := l_rnd * (3 * 7 * 11 * 13 * 23) % 2 ^ 32

/-- `bsp_rand` (bsp_shared.c:139-149): the new value of `l_rnd` and the result. -/
def rand (l_rnd : Nat) : Nat × Nat := (next l_rnd, next l_rnd / 2 ^ 8)

/-- The results of `n` calls of `bsp_rand` after `bsp_srand(seed)` (bsp_shared.c:153-157). -/
def draws : Nat → Nat → List Nat
  | _, 0 => []
  | l_rnd, n + 1 => (rand l_rnd).2 :: draws (rand l_rnd).1 n

/-- CLI_REQ_TIME, CLI_USING_TIME (client.c:25-28) given the result of `bsp_rand`: the argument of RKH_TIME_SEC. -/
def reqTime (r : Nat) : Span := .sec (r % 5 + 2)
def usingTime (r : Nat) : Span := .sec (r % 5 + 1)

/-- **C180.** Whatever the random number: the client's request timer is started for 2 to 6 seconds and its usage timer for 1 to 5 seconds, exactly and with
a number of ticks that is not zero (which `rkh_tmr_start` requires), if the configuration can express 6 seconds. -/
theorem client_times {c : Rate} (h : Fits c (.sec 6)) (r : Nat) :
    (∃ s k, 2 ≤ s ∧ s ≤ 6 ∧ ticksOf c (reqTime r) = .ok k ∧ 0 < k ∧ Lasts c.hz k (.sec s)) ∧
    (∃ s k, 1 ≤ s ∧ s ≤ 5 ∧ ticksOf c (usingTime r) = .ok k ∧ 0 < k ∧ Lasts c.hz k (.sec s)) := by
  obtain ⟨h1, h2, h3, h4, h5⟩ := h
  have hle : c.hz ≤ 1000 := Nat.le_of_dvd (by decide) h2
  obtain ⟨d, hd⟩ := h2
  have hq : 1000 / c.hz = d := by rw [hd]; exact Nat.mul_div_cancel_left _ h1
  have hd0 : 0 < d := by
    rcases Nat.eq_zero_or_pos d with h0 | h0
    · subst h0; simp at hd
    · exact h0
  have key : ∀ s, 1 ≤ s → s ≤ 6 → ∃ k, ticksOf c (.sec s) = .ok k ∧ 0 < k ∧ Lasts c.hz k (.sec s) := by
    intro s hs1 hs2
    simp only [millis] at h4 h5
    have e : s * 1000 / d = s * c.hz := by
      have : s * 1000 = s * c.hz * d := by rw [Nat.mul_assoc, ← hd]
      rw [this]; exact Nat.mul_div_cancel _ hd0
    have e6 : 6 * 1000 / d = 6 * c.hz := by
      have : 6 * 1000 = 6 * c.hz * d := by rw [Nat.mul_assoc, ← hd]
      rw [this]; exact Nat.mul_div_cancel _ hd0
    rw [hq, e6] at h5
    have hm : s * c.hz ≤ 6 * c.hz := Nat.mul_le_mul_right _ hs2
    refine ⟨s * c.hz, ?_, Nat.mul_pos hs1 h1, ?_⟩
    · rw [ticksOf_ok h1 hle h3 (Nat.lt_of_le_of_lt (Nat.mul_le_mul_right 1000 hs2) h4) (by show s * 1000 / (1000 / c.hz) < c.W; rw [hq, e]; exact Nat.lt_of_le_of_lt hm h5)]
      show Res.ok (s * 1000 / (1000 / c.hz)) = _
      rw [hq, e]
    · simp only [Lasts, millis]
      rw [Nat.mul_right_comm]
  have hr : r % 5 < 5 := Nat.mod_lt _ (by decide)
  obtain ⟨k, a, b, d⟩ := key (r % 5 + 2) (by omega) (by omega)
  obtain ⟨k', a', b', d'⟩ := key (r % 5 + 1) (by omega) (by omega)
  exact ⟨⟨_, k, by omega, by omega, a, b, d⟩, ⟨_, k', by omega, by omega, a', b', d'⟩⟩

/-- The configuration of the demo: 100 ticks a second, 16-bit timers. -/
example : Fits ⟨100, 2 ^ 32, 2 ^ 16⟩ (.sec 6) := ⟨by decide, by decide, by decide, by decide, by decide⟩

theorem next_lt (s : Nat) : next s < 2 ^ 32 := Nat.mod_lt _ (by decide)

theorem next_fix {s : Nat} (hs : s < 2 ^ 32) : next s = s ↔ 2 ^ 30 ∣ s := by
  unfold next
  omega

theorem next_dvd (s : Nat) : 2 ^ 30 ∣ next s ↔ 2 ^ 30 ∣ s := by
  unfold next
  omega

/-- `l_rnd` after `n` calls. -/
def after (s : Nat) : Nat → Nat
  | 0 => s
  | n + 1 => next (after s n)

theorem after_next (s n : Nat) : after (next s) n = next (after s n) := by
  induction n with
  | zero => rfl
  | succ n ih => simp [after, ih]

theorem draws_get : ∀ (k n s : Nat), n < k → (draws s k)[n]? = some (after s (n + 1) / 2 ^ 8) := by
  intro k
  induction k with
  | zero => intro n s h; omega
  | succ k ih =>
    intro n s h
    cases n with
    | zero => simp [draws, rand, after]
    | succ n =>
      simp only [draws, List.getElem?_cons_succ]
      rw [ih n _ (by omega)]
      simp [rand, after, after_next]

theorem after_dvd (s n : Nat) : 2 ^ 30 ∣ after s n ↔ 2 ^ 30 ∣ s := by
  induction n with
  | zero => rfl
  | succ n ih => rw [after, next_dvd, ih]

theorem small_fix {e f q : Int} (h1 : e ≤ 255 ∧ -255 ≤ e) (h2 : f ≤ 255 ∧ -255 ≤ f) (h : f = 69069 * e - 4294967296 * q) : e = 0 := by
  have : q = 0 := by omega
  subst this
  omega

/-- Three numbers with the same upper 24 bits in succession: the sequence stands still. -/
theorem next_small {s : Nat} (h1 : next s / 2 ^ 8 = next (next s) / 2 ^ 8) (h2 : next (next s) / 2 ^ 8 = next (next (next s)) / 2 ^ 8) : 2 ^ 30 ∣ next s := by
  have hx := next_lt s
  generalize next s = x at *
  rw [← next_fix hx]
  have e1 : (next x : Int) = 69069 * x - 4294967296 * (x * 69069 / 4294967296 : Nat) := by unfold next; omega
  have e2 : (next (next x) : Int) = 69069 * (next x) - 4294967296 * (next x * 69069 / 4294967296 : Nat) := by
    generalize next x = y; unfold next; omega
  generalize (x * 69069 / 4294967296 : Nat) = b at e1
  generalize (next x * 69069 / 4294967296 : Nat) = d at e2
  generalize next (next x) = z at *
  generalize next x = y at *
  have a1 : (y : Int) - x ≤ 255 ∧ -255 ≤ (y : Int) - x := by omega
  have a2 : (z : Int) - y ≤ 255 ∧ -255 ≤ (z : Int) - y := by omega
  have a3 : (z : Int) - y = 69069 * (y - x) - 4294967296 * (d - b) := by omega
  have := small_fix a1 a2 a3
  omega

/-- **C181** (partial: the seed is not a multiple of 2^30). No three successive random numbers are all equal, wherever in the sequence. -/
theorem never_stuck_partial {seed : Nat} (hs : ¬ 2 ^ 30 ∣ seed) {k n : Nat} (hn : n + 2 < k) :
    ¬ ((draws seed k)[n]? = (draws seed k)[n + 1]? ∧ (draws seed k)[n + 1]? = (draws seed k)[n + 2]?) := by
  rw [draws_get _ _ _ (by omega), draws_get _ _ _ (by omega), draws_get _ _ _ hn]
  simp only [Option.some.injEq, after]
  rintro ⟨h1, h2⟩
  have := next_small h1 h2
  rw [next_dvd, after_dvd] at this
  exact hs this

/-- **C181 (negation).** With a seed that is a multiple of 2^30 all random numbers are the same, so that all clients always wait and use equally long. -/
theorem stuck {seed : Nat} (h32 : seed < 2 ^ 32) (hs : 2 ^ 30 ∣ seed) (k : Nat) : draws seed k = List.replicate k (seed / 2 ^ 8) := by
  have hf := (next_fix h32).mpr hs
  induction k with
  | zero => rfl
  | succ k ih =>
    rw [draws, List.replicate_succ]
    simp only [rand, hf]
    rw [ih]

/-- The seed of the demo (bsp_shared.c:245), and seeds that stand still. -/
example : ¬ 2 ^ 30 ∣ 1234 ∧ draws 1234 4 = [332934, 10643857, 16552152, 7583998] ∧ (2 ^ 30 ∣ 0 ∧ 2 ^ 30 ∣ 3 * 2 ^ 30) := by decide +kernel

end Verif.Bsp.Rand
