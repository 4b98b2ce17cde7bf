import Verif.Timer.Props
/-
The macros RKH_TIME_MS, RKH_TIME_SEC, RKH_TIME_MIN (source/fwk/inc/rkhitl.h:1606-1621) that convert a time to the ticks given to
`rkh_tmr_start`.

Simplification: the macro argument is an unsigned int (of a smaller type it is promoted, with the same value). A negative argument or
an int argument whose product with 60 overflows is outside the model.
-/
namespace Verif.Timer
open Verif

/-- `RKH_CFG_FWK_TICK_RATE_HZ` (unsigned, rkhcfg.h), modulus of unsigned int (2^16 on the S08, 2^32 elsewhere) and modulus of
`RKH_TNT_T` (2^8, 2^16 or 2^32; rkhtmr.h:255-261). -/
structure Rate where
  hz : Nat
  I : Nat
  W : Nat

/-- An argument of one of the macros. -/
inductive Span where
  | ms (n : Nat)
  | sec (n : Nat)
  | min (n : Nat)
  deriving DecidableEq, Repr

/-- C's `/`: division by zero is undefined. -/
def cdiv (a b : Nat) : Res Nat := if b = 0 then .ub else .ok (a / b)

/-- `RKH_TICK_RATE_MS` (rkhitl.h:1606-1607): `(RKH_TNT_T)(1000 / RKH_CFG_FWK_TICK_RATE_HZ)`. -/
def tickMs (c : Rate) : Res Nat := (cdiv 1000 c.hz).map' (· % c.W)

/-- The macros (rkhitl.h:1618-1620). The products are computed in unsigned int. -/
def timeOf (c : Rate) : Span → Res Nat
  | .ms n => (tickMs c).bind fun d => cdiv n d
  | .sec n => (tickMs c).bind fun d => cdiv (n * 1000 % c.I) d
  | .min n => (tickMs c).bind fun d => cdiv (n * 60 % c.I * 1000 % c.I) d

/-- What `rkh_tmr_start` is given: the value is converted to its parameter type `RKH_TNT_T` (rkhtmr.c:197-198). -/
def ticksOf (c : Rate) (d : Span) : Res Nat := (timeOf c d).map' (· % c.W)

end Verif.Timer

namespace Verif.Timer.Spec
open Verif.Timer

/-- The length of a span in milliseconds. -/
def millis : Span → Nat
  | .ms n => n
  | .sec n => n * 1000
  | .min n => n * 60000

/-- `k` ticks of `1/hz` seconds last as long as the span. -/
def Lasts (hz k : Nat) (d : Span) : Prop := k * 1000 = millis d * hz

/-- `k` ticks last less, more than the span. -/
def Shorter (hz k : Nat) (d : Span) : Prop := k * 1000 < millis d * hz
def Longer (hz k : Nat) (d : Span) : Prop := millis d * hz < k * 1000

/-- The tick rate divides 1000, the tick period and the time fit their types, and so does the number of ticks. -/
structure Fits (c : Rate) (d : Span) : Prop where
  pos : 0 < c.hz
  dvd : c.hz ∣ 1000
  period : 1000 / c.hz < c.W
  time : millis d < c.I
  count : millis d / (1000 / c.hz) < c.W

end Verif.Timer.Spec

namespace Verif.Timer
open Verif Spec

/-- Without overflow the macros divide by the length of a tick in whole milliseconds. -/
theorem ticksOf_ok {c : Rate} {d : Span} (h1 : 0 < c.hz) (h2 : c.hz ≤ 1000) (hp : 1000 / c.hz < c.W) (ht : millis d < c.I)
    (hc : millis d / (1000 / c.hz) < c.W) : ticksOf c d = .ok (millis d / (1000 / c.hz)) := by
  have hd : 1000 / c.hz ≠ 0 := by
    have := Nat.div_pos h2 h1; omega
  have ht0 : tickMs c = .ok (1000 / c.hz) := by
    unfold tickMs cdiv
    rw [if_neg (by omega)]
    simp [Res.map', Nat.mod_eq_of_lt hp]
  have key : timeOf c d = .ok (millis d / (1000 / c.hz)) := by
    cases d with
    | ms n => simp [timeOf, ht0, Res.bind, cdiv, hd, millis]
    | sec n =>
      simp only [millis] at ht
      simp only [timeOf, ht0, Res.bind, cdiv, hd, millis, if_false, Nat.mod_eq_of_lt ht]
    | min n =>
      simp only [millis] at ht
      have e1 : n * 60 % c.I = n * 60 := Nat.mod_eq_of_lt (by omega)
      have e2 : n * 60 * 1000 = n * 60000 := by omega
      simp only [timeOf, ht0, Res.bind, cdiv, hd, millis, if_false, e1, e2, Nat.mod_eq_of_lt ht]
  unfold ticksOf
  rw [key]
  simp [Res.map', Nat.mod_eq_of_lt hc]

/-! ### C112: a delay given as time lasts that long -/

/-- **C112, partial.** If everything fits its type and the time is a multiple of the tick period, a one-shot timer started with
the macro expires at exactly the tick that is the given time away, and at no other. Missing: the other tick rates and times, where
the claim is false (`time_too_long`, `time_zero_division`, `time_wraps_int`, `time_wraps_ticks`, `short_time_is_rejected`). -/
theorem timer_expires_after_time_partial {c : Cfg} (heap : Nat → Tmr) (h rest : List Op) (t sma n : Nat) {r : Rate} {d : Span}
    (hfit : Fits r d) (hmul : (1000 / r.hz) ∣ millis d) (hn : ticksOf r d = .ok n)
    (hl : Legal c.W start0 (h ++ .start t sma n 0 :: rest)) (hf : (h ++ .start t sma n 0 :: rest).length < c.fuel)
    (hc : ∀ op ∈ rest, concerns t op = false) (k : Nat) (posts : List Post)
    (hk : (ticks ((runOps (step c) (moduleInit heap) (h ++ .start t sma n 0 :: rest)).1.drop (h.length + 1)))[k]? = some posts) :
    (Lasts r.hz (k + 1) d → posts.filter (fun q => q.tmr == t) = [⟨t, sma, lastEvt t h⟩]) ∧
    (¬ Lasts r.hz (k + 1) d → posts.filter (fun q => q.tmr == t) = []) := by
  have h2 : r.hz ≤ 1000 := Nat.le_of_dvd (by decide) hfit.dvd
  rw [ticksOf_ok hfit.pos h2 hfit.period hfit.time hfit.count] at hn
  simp only [Res.ok.injEq] at hn
  rw [oneshot_fires_exactly_once heap h rest t sma n hl hf hc k posts hk]
  have e : Lasts r.hz (k + 1) d ↔ k + 1 = n := by
    obtain ⟨q, hq⟩ := hfit.dvd
    have hp := hfit.pos
    have hdq : 1000 / r.hz = q := by rw [hq, Nat.mul_div_cancel_left _ hp]
    rw [hdq] at hmul hn
    obtain ⟨j, hj⟩ := hmul
    have hq0 : 0 < q := by
      rcases Nat.eq_zero_or_pos q with h | h
      · rw [h] at hq; simp at hq
      · exact h
    have hjn : j = n := by rw [← hn, hj, Nat.mul_div_cancel_left _ hq0]
    unfold Lasts
    rw [hq, hj, hjn]
    constructor
    · intro h
      have : (k + 1) * (r.hz * q) = n * (r.hz * q) := by rw [h]; simp [Nat.mul_comm, Nat.mul_left_comm]
      exact Nat.eq_of_mul_eq_mul_right (Nat.mul_pos hp hq0) this
    · intro h; rw [h]; simp [Nat.mul_comm, Nat.mul_left_comm]
  rw [e]
  exact ⟨fun h => if_pos h, fun h => if_neg h⟩

/-- **C112.** At a tick rate that does not divide 1000 every delay of a second or more is too long (up to twice as long, see
`time_error_bounds`). -/
theorem time_too_long {r : Rate} {s : Nat} (h1 : 0 < r.hz) (h2 : r.hz ≤ 1000) (hd : ¬ r.hz ∣ 1000) (hs : 999 ≤ s * r.hz)
    (hp : 1000 / r.hz < r.W) (ht : s * 1000 < r.I) (hc : s * 1000 / (1000 / r.hz) < r.W) :
    ∃ n, ticksOf r (.sec s) = .ok n ∧ Longer r.hz n (.sec s) := by
  refine ⟨_, ticksOf_ok h1 h2 hp ht hc, ?_⟩
  simp only [Longer, millis]
  generalize hD : 1000 / r.hz = D
  have hD0 : 0 < D := by rw [← hD]; exact Nat.div_pos h2 h1
  have hlt : D * r.hz ≤ 999 := by
    have h3 : D * r.hz ≤ 1000 := by rw [← hD]; exact Nat.div_mul_le_self _ _
    have h4 : D * r.hz ≠ 1000 := fun e => hd ⟨D, by rw [Nat.mul_comm]; exact e.symm⟩
    omega
  have key : s * r.hz + 1 ≤ s * 1000 / D := by
    rw [Nat.le_div_iff_mul_le hD0]
    have e1 : (s * r.hz + 1) * D = s * (D * r.hz) + D := by
      rw [Nat.add_mul, Nat.one_mul, Nat.mul_assoc, Nat.mul_comm r.hz D]
    have e2 : s * (D * r.hz) ≤ s * 999 := Nat.mul_le_mul_left _ hlt
    have e3 : D ≤ s := by
      have : D * r.hz ≤ s * r.hz := by omega
      exact Nat.le_of_mul_le_mul_right this h1
    omega
  have e4 : s * 1000 * r.hz = s * r.hz * 1000 := by
    rw [Nat.mul_right_comm]
  rw [e4]
  exact Nat.mul_lt_mul_of_pos_right (by omega) (by decide)

/-- **C112.** At tick rates above 1 kHz, and whenever the tick period is a multiple of the range of `RKH_TNT_T`, the macros divide
by zero. -/
theorem time_zero_division {r : Rate} (d : Span) (h1 : 0 < r.hz) (h : 1000 < r.hz ∨ r.W ∣ 1000 / r.hz) : ticksOf r d = .ub := by
  have ht : tickMs r = .ok 0 := by
    unfold tickMs cdiv
    rw [if_neg (by omega)]
    simp only [Res.map']
    congr 1
    rcases h with h | h
    · rw [Nat.div_eq_of_lt h, Nat.zero_mod]
    · exact Nat.mod_eq_zero_of_dvd h
  cases d <;> simp [ticksOf, timeOf, ht, Res.bind, cdiv, Res.map']

/-- **C112.** If the milliseconds of a number of seconds do not fit unsigned int, the delay is too short. -/
theorem time_wraps_int {r : Rate} {s : Nat} (h1 : 0 < r.hz) (h2 : r.hz ∣ 1000) (hp : 1000 / r.hz < r.W) (hI : 0 < r.I)
    (ht : r.I ≤ s * 1000) : ∃ n, ticksOf r (.sec s) = .ok n ∧ Shorter r.hz n (.sec s) := by
  obtain ⟨q, hq⟩ := h2
  have hdq : 1000 / r.hz = q := by rw [hq, Nat.mul_div_cancel_left _ h1]
  have hq0 : 0 < q := by
    rcases Nat.eq_zero_or_pos q with h | h
    · rw [h] at hq; simp at hq
    · exact h
  have ht0 : tickMs r = .ok q := by
    unfold tickMs cdiv
    rw [if_neg (by omega)]
    simp only [Res.map', hdq]
    rw [Nat.mod_eq_of_lt (by omega)]
  refine ⟨s * 1000 % r.I / q % r.W, ?_, ?_⟩
  · simp only [ticksOf, timeOf, ht0, Res.bind, cdiv]
    rw [if_neg (by omega)]
    rfl
  · simp only [Shorter, millis]
    have e1 : s * 1000 % r.I / q % r.W ≤ s * 1000 % r.I / q := Nat.mod_le _ _
    have e2 : s * 1000 % r.I < r.I := Nat.mod_lt _ hI
    have e3 : s * 1000 % r.I / q * q ≤ s * 1000 % r.I := Nat.div_mul_le_self _ _
    calc s * 1000 % r.I / q % r.W * 1000 ≤ s * 1000 % r.I / q * 1000 := Nat.mul_le_mul_right _ e1
      _ = s * 1000 % r.I / q * q * r.hz := by rw [hq, Nat.mul_comm r.hz q, Nat.mul_assoc]
      _ ≤ s * 1000 % r.I * r.hz := Nat.mul_le_mul_right _ e3
      _ < s * 1000 * r.hz := Nat.mul_lt_mul_of_pos_right (by omega) h1

/-- **C112.** If the number of ticks does not fit `RKH_TNT_T`, the delay is too short. -/
theorem time_wraps_ticks {r : Rate} {d : Span} (h1 : 0 < r.hz) (h2 : r.hz ∣ 1000) (hp : 1000 / r.hz < r.W) (ht : millis d < r.I)
    (hc : r.W ≤ millis d / (1000 / r.hz)) : ∃ n, ticksOf r d = .ok n ∧ Shorter r.hz n d := by
  obtain ⟨q, hq⟩ := h2
  have hdq : 1000 / r.hz = q := by rw [hq, Nat.mul_div_cancel_left _ h1]
  have h3 : r.hz ≤ 1000 := Nat.le_of_dvd (by decide) ⟨q, hq⟩
  have hbig := ticksOf_ok (c := { r with W := millis d / (1000 / r.hz) + 1 }) (d := d) h1 h3 (by simp only; omega) ht (by simp)
  have hq0 : 0 < q := by
    rcases Nat.eq_zero_or_pos q with h | h
    · rw [h] at hq; simp at hq
    · exact h
  have ht0 : ∀ W, q < W → tickMs { r with W := W } = .ok q := by
    intro W hW
    unfold tickMs cdiv
    rw [if_neg (by simp only; omega)]
    simp only [Res.map', hdq]
    rw [Nat.mod_eq_of_lt hW]
  have he : timeOf r d = .ok (millis d / q) := by
    have a1 := ht0 r.W (by omega)
    have a2 : ({ r with W := r.W } : Rate) = r := rfl
    rw [a2] at a1
    cases d with
    | ms n => simp only [timeOf, a1, Res.bind, cdiv, millis]; rw [if_neg (by omega)]
    | sec n =>
      simp only [millis] at ht
      simp only [timeOf, a1, Res.bind, cdiv, millis, Nat.mod_eq_of_lt ht]; rw [if_neg (by omega)]
    | min n =>
      simp only [millis] at ht
      have e1 : n * 60 % r.I = n * 60 := Nat.mod_eq_of_lt (by omega)
      have e2 : n * 60 * 1000 = n * 60000 := by omega
      simp only [timeOf, a1, Res.bind, cdiv, millis, e1, e2, Nat.mod_eq_of_lt ht]; rw [if_neg (by omega)]
  refine ⟨millis d / q % r.W, by simp [ticksOf, he, Res.map'], ?_⟩
  rw [hdq] at hc
  have hW : 0 < r.W := by omega
  have e1 : millis d / q % r.W < millis d / q := Nat.lt_of_lt_of_le (Nat.mod_lt _ hW) hc
  unfold Shorter
  calc millis d / q % r.W * 1000 < millis d / q * 1000 := Nat.mul_lt_mul_of_pos_right e1 (by decide)
    _ = millis d / q * q * r.hz := by rw [hq, Nat.mul_comm r.hz q, Nat.mul_assoc]
    _ ≤ millis d * r.hz := Nat.mul_le_mul_right _ (Nat.div_mul_le_self _ _)

/-- **C112.** A time below the tick period gives no ticks, which `rkh_tmr_start` does not accept. -/
theorem short_time_is_rejected {c : Cfg} {s : St} {t sma p : Nat} {r : Rate} {d : Span} (hfit : Fits r d)
    (hd : millis d < 1000 / r.hz) (ha : c.assertEn = true) :
    ∃ n, ticksOf r d = .ok n ∧ step c s (.start t sma n p) = .assert := by
  have h2 : r.hz ≤ 1000 := Nat.le_of_dvd (by decide) hfit.dvd
  refine ⟨0, ?_, ?_⟩
  · rw [ticksOf_ok hfit.pos h2 hfit.period hfit.time hfit.count, Nat.div_eq_of_lt hd]
  · simp [step, start, assertIf, ha, Res.map', Bind.bind, Res.bind]

/-! ### C113: how long a delay given as time really is -/

/-- **C113.** At a tick rate that divides 1000, if everything fits its type, the delay is the largest number of ticks that does not
last longer than the given time. -/
theorem time_rounds_down {r : Rate} {d : Span} (hfit : Fits r d) :
    ∃ n, ticksOf r d = .ok n ∧ ¬ Longer r.hz n d ∧ Longer r.hz (n + 1) d := by
  have h2 : r.hz ≤ 1000 := Nat.le_of_dvd (by decide) hfit.dvd
  refine ⟨_, ticksOf_ok hfit.pos h2 hfit.period hfit.time hfit.count, ?_⟩
  obtain ⟨q, hq⟩ := hfit.dvd
  have hp := hfit.pos
  have hdq : 1000 / r.hz = q := by rw [hq, Nat.mul_div_cancel_left _ hp]
  have hq0 : 0 < q := by
    rcases Nat.eq_zero_or_pos q with h | h
    · rw [h] at hq; simp at hq
    · exact h
  rw [hdq]
  have e0 : ∀ n, n * 1000 = n * q * r.hz := fun n => by rw [hq, Nat.mul_comm r.hz q, Nat.mul_assoc]
  unfold Longer
  rw [e0, e0]
  constructor
  · exact Nat.not_lt.2 (Nat.mul_le_mul_right _ (Nat.div_mul_le_self _ _))
  · refine Nat.mul_lt_mul_of_pos_right ?_ hp
    have := Nat.lt_mul_div_succ (millis d) hq0
    rw [Nat.mul_comm] at this
    exact this

/-- **C113.** At any tick rate up to 1 kHz, if everything fits its type, the delay is more than the given time less one tick period
(in whole milliseconds) and less than twice the given time. -/
theorem time_error_bounds {r : Rate} {d : Span} (h1 : 0 < r.hz) (h2 : r.hz ≤ 1000) (hp : 1000 / r.hz < r.W) (ht : millis d < r.I)
    (hc : millis d / (1000 / r.hz) < r.W) (hpos : 0 < millis d) :
    ∃ n, ticksOf r d = .ok n ∧ (millis d - 1000 / r.hz) * r.hz ≤ n * 1000 ∧ n * 1000 < 2 * millis d * r.hz := by
  refine ⟨_, ticksOf_ok h1 h2 hp ht hc, ?_⟩
  generalize hD : 1000 / r.hz = D
  have hD0 : 0 < D := by rw [← hD]; exact Nat.div_pos h2 h1
  have a1 : D * r.hz ≤ 1000 := by rw [← hD]; exact Nat.div_mul_le_self _ _
  have a2 : 1000 < (D + 1) * r.hz := by
    have := Nat.lt_mul_div_succ 1000 h1
    rw [hD, Nat.mul_comm] at this
    exact this
  generalize millis d = M at *
  have b1 : M / D * D ≤ M := Nat.div_mul_le_self _ _
  have b2 : M - D ≤ M / D * D := by
    have := Nat.lt_mul_div_succ M hD0
    rw [Nat.mul_add, Nat.mul_comm D (M / D)] at this
    omega
  constructor
  · calc (M - D) * r.hz ≤ M / D * D * r.hz := Nat.mul_le_mul_right _ b2
      _ = M / D * (D * r.hz) := Nat.mul_assoc _ _ _
      _ ≤ M / D * 1000 := Nat.mul_le_mul_left _ a1
  · rcases Nat.eq_zero_or_pos (M / D) with h0 | h0
    · rw [h0, Nat.zero_mul]
      exact Nat.mul_pos (by omega) h1
    · calc M / D * 1000 < M / D * ((D + 1) * r.hz) := Nat.mul_lt_mul_of_pos_left a2 h0
        _ = (M / D * D + M / D) * r.hz := by rw [← Nat.mul_assoc, Nat.mul_add, Nat.mul_one]
        _ ≤ 2 * M * r.hz := by
          refine Nat.mul_le_mul_right _ ?_
          have : M / D ≤ M / D * D := Nat.le_mul_of_pos_right _ hD0
          omega

/-! ### Concrete cases -/

-- the demos: 100 Hz, 32-bit int, 16-bit tick counts (demo/cross/blinky/blinky.c:23-24)
example : Fits ⟨100, 2 ^ 32, 2 ^ 16⟩ (.sec 2) ∧ (1000 / 100) ∣ millis (.sec 2) ∧ ticksOf ⟨100, 2 ^ 32, 2 ^ 16⟩ (.sec 2) = .ok 200 ∧
    Lasts 100 200 (.sec 2) :=
  ⟨⟨by decide, by decide, by decide, by decide, by decide⟩, by decide, by decide, by simp [Lasts, millis]⟩
-- 10 ms at 100 Hz: a timer that expires at the second tick for 25 ms (rounded down)
example : Legal (2 ^ 16) start0 ([.init 1 7] ++ .start 1 3 2 0 :: [.tick, .tick]) ∧ ticksOf ⟨100, 2 ^ 32, 2 ^ 16⟩ (.ms 20) = .ok 2 ∧
    ticksOf ⟨100, 2 ^ 32, 2 ^ 16⟩ (.ms 25) = .ok 2 := by
  refine ⟨?_, by decide, by decide⟩
  simp [Legal, legalOp, Spec.step, Spec.set]
-- timer_expires_after_time_partial: started with 20 ms at 100 Hz, the timer posts at the second tick and not at the first
example : ∀ k posts, (ticks ((runOps (step ⟨2 ^ 16, true, 9⟩) (moduleInit fun _ => ⟨0, 0, 0, 0, 0, 0⟩)
      ([.init 1 7] ++ .start 1 3 2 0 :: [.tick, .tick])).1.drop 2))[k]? = some posts →
    (Lasts 100 (k + 1) (.ms 20) → posts.filter (fun q => q.tmr == 1) = [⟨1, 3, 7⟩]) ∧
    (¬ Lasts 100 (k + 1) (.ms 20) → posts.filter (fun q => q.tmr == 1) = []) := fun k posts hk =>
  timer_expires_after_time_partial (c := ⟨2 ^ 16, true, 9⟩) _ [.init 1 7] [.tick, .tick] 1 3 2 (r := ⟨100, 2 ^ 32, 2 ^ 16⟩) (d := .ms 20)
    ⟨by decide, by decide, by decide, by decide, by decide⟩ (by decide) (by decide) (by simp [Legal, legalOp, Spec.step, Spec.set])
    (by decide) (by simp [concerns]) k posts hk
-- 300 Hz: a second lasts 333 ticks, 1.11 seconds
example : ∃ n, ticksOf ⟨300, 2 ^ 32, 2 ^ 16⟩ (.sec 4) = .ok n ∧ Longer 300 n (.sec 4) :=
  time_too_long (by decide) (by decide) (by decide) (by decide) (by decide) (by decide) (by decide)
example : ticksOf ⟨300, 2 ^ 32, 2 ^ 16⟩ (.sec 1) = .ok 333 := by decide
-- 2 kHz; 1 Hz with 8-bit tick counts divides by 1000 mod 256 = 232, a second lasts 4 ticks
example : ticksOf ⟨2000, 2 ^ 32, 2 ^ 16⟩ (.ms 5) = .ub := time_zero_division _ (by decide) (.inl (by decide))
example : ticksOf ⟨1, 2 ^ 32, 2 ^ 8⟩ (.sec 1) = .ok 4 := by decide
-- S08: two minutes are 54 seconds, 66 seconds less than one
example : ticksOf ⟨100, 2 ^ 16, 2 ^ 16⟩ (.min 2) = .ok 5446 := by decide
example : ∃ n, ticksOf ⟨100, 2 ^ 16, 2 ^ 16⟩ (.sec 66) = .ok n ∧ Shorter 100 n (.sec 66) :=
  time_wraps_int (by decide) (by decide) (by decide) (by decide) (by decide)
-- 32-bit int, 16-bit tick counts: 11 minutes are 4.64 seconds
example : ∃ n, ticksOf ⟨100, 2 ^ 32, 2 ^ 16⟩ (.min 11) = .ok n ∧ Shorter 100 n (.min 11) :=
  time_wraps_ticks (by decide) (by decide) (by decide) (by decide) (by decide)
example : ticksOf ⟨100, 2 ^ 32, 2 ^ 16⟩ (.min 11) = .ok 464 := by decide
-- 5 ms at 100 Hz
example : ∃ n, ticksOf ⟨100, 2 ^ 32, 2 ^ 16⟩ (.ms 5) = .ok n ∧
    step ⟨2 ^ 16, true, 5⟩ (moduleInit fun _ => ⟨0, 0, 0, 0, 0, 0⟩) (.start 1 1 n 0) = .assert :=
  short_time_is_rejected ⟨by decide, by decide, by decide, by decide, by decide⟩ (by decide) rfl
example : ∃ n, ticksOf ⟨300, 2 ^ 32, 2 ^ 16⟩ (.ms 50) = .ok n ∧ (50 - 3) * 300 ≤ n * 1000 ∧ n * 1000 < 2 * 50 * 300 :=
  time_error_bounds (d := .ms 50) (by decide) (by decide) (by decide) (by decide) (by decide) (by decide)

end Verif.Timer
