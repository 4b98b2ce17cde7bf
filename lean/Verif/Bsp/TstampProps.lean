import Verif.Bsp.Tstamp
/-
Properties of time stamps and ticks of the boards (C199-C202). The theorems speak about the stamps returned, the bus clocks at which the
hardware was read, and the number of ticks.
-/
namespace Verif.Bsp.Tstamp

/-! ## Specification -/

/-- The time, in counts of the timer, at bus clock `c`: the timer advances every 128 bus clocks. -/
def count (c : Nat) : Nat := c / 128

/-- Counts of the timer until its first overflow. -/
def period : Nat := 65536

/-- Time as the host computes it: it was told that the stamps count bus clocks (BSP_TS_RATE_HZ, trace_io.c:67). -/
def announced (c : Nat) : Nat := c % 2 ^ 32

/-! ## C199: what a stamp is -/

/-- What holds of every reachable state. -/
structure Inv (s : St) : Prop where
  pre : s.pre = s.clocks % 128
  cnt : s.cnt = s.clocks / 128 % 65536
  tof : s.tof = decide (s.clocks / 128 ≥ 65536)
  ts : s.time_stamp = 0
  pc : match s.pc with
    | .out => True
    | .read t c0 => t = c0 / 128 % 65536 ∧ c0 ≤ s.clocks
    | .tested t c0 c1 => t = c0 / 128 % 65536 + (if c1 / 128 ≥ 65536 then 65535 else 0) ∧ c0 ≤ c1 ∧ c1 ≤ s.clocks
  old : ∀ r ∈ s.stamps, r.value = r.c0 / 128 % 65536 + (if r.c1 / 128 ≥ 65536 then 65535 else 0) ∧ r.c0 ≤ r.c1 ∧ r.c1 ≤ s.clocks
  cur : ∀ r ∈ s.stamps, match s.pc with | .out => True | .read _ c0 => r.c1 ≤ c0 | .tested _ c0 _ => r.c1 ≤ c0
  ord : s.stamps.Pairwise (fun a b => a.c1 ≤ b.c0)

theorem inv_start : Inv start := ⟨rfl, rfl, rfl, rfl, trivial, by simp [start], by simp [start], by simp [start]⟩

theorem clock_frame {s : St} (h : Inv s) : (clock tpm1sc s).clocks = s.clocks + 1 ∧ (clock tpm1sc s).pre = (s.clocks + 1) % 128 ∧
    (clock tpm1sc s).cnt = (s.clocks + 1) / 128 % 65536 ∧ (clock tpm1sc s).tof = decide ((s.clocks + 1) / 128 ≥ 65536) ∧
    (clock tpm1sc s).time_stamp = s.time_stamp ∧ (clock tpm1sc s).pc = s.pc ∧ (clock tpm1sc s).stamps = s.stamps := by
  have hp := h.pre
  have hc := h.cnt
  have ht := h.tof
  unfold clock
  have e : prescale tpm1sc = 128 := rfl
  have em : tpm1mod = 65535 := rfl
  rw [e, em]
  split
  · refine ⟨rfl, ?_, ?_, ?_, rfl, rfl, rfl⟩ <;> simp only [] 
    · omega
    · rw [hc]; omega
    · rw [ht]; congr 1; apply propext; omega
  · split
    · refine ⟨rfl, ?_, ?_, ?_, rfl, rfl, rfl⟩ <;> simp only []
      · omega
      · omega
      · rw [ht]; congr 1; apply propext; omega
    · refine ⟨rfl, ?_, ?_, ?_, rfl, rfl, rfl⟩ <;> simp only []
      · omega
      · omega
      · symm; rw [decide_eq_true_iff]; omega

theorem inv_step {s : St} (h : Inv s) (o : Op) : Inv (step s o) := by
  cases o with
  | clock =>
    obtain ⟨f1, f2, f3, f4, f5, f6, f7⟩ := clock_frame h
    refine ⟨?_, ?_, ?_, ?_, ?_, ?_, ?_, ?_⟩ <;> simp only [step]
    · rw [f1, f2]
    · rw [f1, f3]
    · show (clock tpm1sc s).tof = decide ((clock tpm1sc s).clocks / 128 ≥ 65536)
      simp only [f1, f4]
    · rw [f5]; exact h.ts
    · rw [f1, f6]
      have := h.pc
      split <;> rename_i hpc <;> rw [hpc] at this
      · trivial
      · exact ⟨this.1, Nat.le_succ_of_le this.2⟩
      · exact ⟨this.1, this.2.1, Nat.le_succ_of_le this.2.2⟩
    · rw [f1, f7]; intro r hr; exact ⟨(h.old r hr).1, (h.old r hr).2.1, Nat.le_succ_of_le (h.old r hr).2.2⟩
    · rw [f6, f7]; exact h.cur
    · rw [f7]; exact h.ord
  | irq =>
    have : irq tpm1sc s = s := by
      have e : overflowIrq tpm1sc = false := by decide
      simp [irq, e]
    simp only [step, this]; exact h
  | call =>
    obtain ⟨h1, h2, h3, h4, h5, h6, h7, h8⟩ := h
    simp only [step, call]
    split
    · exact ⟨h1, h2, h3, h4, ⟨h2, Nat.le_refl _⟩, h6, fun r hr => (h6 r hr).2.2, h8⟩
    · rename_i t c0 hpc
      rw [hpc] at h5 h7
      refine ⟨h1, h2, h3, h4, ⟨?_, h5.2, Nat.le_refl _⟩, h6, h7, h8⟩
      have em : tpm1mod = 65535 := rfl
      rw [h3, h5.1, em]
      simp only [decide_eq_true_eq]
      split <;> omega
    · rename_i t c0 c1 hpc
      rw [hpc] at h5 h7
      refine ⟨h1, h2, h3, h4, trivial, ?_, fun r hr => trivial, ?_⟩
      · intro r hr
        rcases List.mem_append.1 hr with hr | hr
        · exact h6 r hr
        · rw [List.mem_singleton.1 hr]
          refine ⟨?_, h5.2.1, h5.2.2⟩
          simp only [h4]
          have := h5.1
          split at this <;> rename_i hx <;> simp only [hx, if_true, if_false] <;> omega
      · rw [List.pairwise_append]
        refine ⟨h8, by simp, fun a ha b hb => ?_⟩
        rw [List.mem_singleton.1 hb]
        exact h7 a ha

theorem inv_run : ∀ (os : List Op) (s : St), Inv s → Inv (run s os)
  | [], _, h => h
  | o :: os, s, h => inv_run os (step s o) (inv_step h o)

/-- **C199 (exactly).** Every stamp is the number of counts since the last overflow when the counter was read, plus 65535 if there ever was
an overflow before the flag was tested; the overflow interrupt, which would count further ones, is not enabled. -/
theorem stamp_exact (os : List Op) (r : Stamp) (hr : r ∈ (run start os).stamps) :
    r.value = count r.c0 % period + (if count r.c1 ≥ period then 65535 else 0) ∧ r.c0 ≤ r.c1 := by
  have h := (inv_run os _ inv_start).old r hr
  exact ⟨h.1, h.2.1⟩

/-- **C199.** Until the first overflow of the timer (65536 counts) every stamp is the number of counts since the start.

Missing from the full property: later stamps (`stamps_repeat`), and the unit, which is not the announced one (`stamp_not_announced`). -/
theorem stamp_counts_partial (os : List Op) (r : Stamp) (hr : r ∈ (run start os).stamps) (h : count r.c1 < period) : r.value = count r.c0 := by
  obtain ⟨h1, h2⟩ := stamp_exact os r hr
  have h3 : count r.c0 ≤ count r.c1 := Nat.div_le_div_right h2
  rw [h1, if_neg (by omega), Nat.mod_eq_of_lt (by omega)]
  rfl

/-- No stamp whose two reads fall into the same count is what the host was told to expect, from the 128th bus clock until the announced count
itself wraps. -/
theorem stamp_not_announced (os : List Op) (r : Stamp) (hr : r ∈ (run start os).stamps) (h : count r.c0 = count r.c1) (h1 : 128 ≤ r.c0) (h2 : r.c0 < 2 ^ 32) :
    r.value ≠ announced r.c0 := by
  obtain ⟨h3, _⟩ := stamp_exact os r hr
  by_cases hp : count r.c1 ≥ period
  · rw [if_pos hp] at h3
    simp only [announced, count, period] at *
    omega
  · have h4 : count r.c0 < period := by omega
    rw [if_neg hp, Nat.mod_eq_of_lt h4] at h3
    rw [announced, Nat.mod_eq_of_lt h2, h3, count]
    omega

/-- After the first overflow stamps taken 65536 counts (a multiple of 2^23 bus clocks) apart are equal: the time between two records cannot be told. -/
theorem stamps_repeat (os os' : List Op) (r r' : Stamp) (hr : r ∈ (run start os).stamps) (hr' : r' ∈ (run start os').stamps) (h1 : count r.c1 ≥ period) (h2 : count r'.c1 ≥ period)
    (h : ∃ k, r'.c0 = r.c0 + k * 2 ^ 23) : r.value = r'.value := by
  obtain ⟨k, h⟩ := h
  rw [(stamp_exact os r hr).1, (stamp_exact os' r' hr').1, if_pos h1, if_pos h2]
  simp only [count, period] at *
  omega

/-- Every stamp is less than twice the period. -/
theorem stamp_bound (os : List Op) (r : Stamp) (hr : r ∈ (run start os).stamps) : r.value < 131071 := by
  have := (stamp_exact os r hr).1
  have hm := Nat.mod_lt (count r.c0) (show period > 0 by decide)
  have hp : period = 65536 := rfl
  split at this <;> omega

/-! ## C200: order of stamps -/

/-- **C200.** Until the first overflow a later stamp is not smaller than an earlier one. So it is afterwards for two stamps whose reads all fall into the same period of the counter.

Missing from the full property (`stamps_go_back`, `stamp_jumps_ahead`): after the first overflow. -/
theorem stamps_in_order_partial (os : List Op) : (run start os).stamps.Pairwise (fun a b =>
    (count b.c1 < period → a.value ≤ b.value) ∧
    (count a.c0 / period = count b.c1 / period → a.value ≤ b.value)) := by
  have h := inv_run os _ inv_start
  refine List.Pairwise.imp_of_mem (R := fun a b => a.c1 ≤ b.c0) ?_ h.ord
  intro a b ha hb hab
  have h1 := h.old a ha
  have h2 := h.old b hb
  have k1 : a.c0 / 128 ≤ a.c1 / 128 := Nat.div_le_div_right h1.2.1
  have k2 : a.c1 / 128 ≤ b.c0 / 128 := Nat.div_le_div_right hab
  have k3 : b.c0 / 128 ≤ b.c1 / 128 := Nat.div_le_div_right h2.2.1
  simp only [count, period]
  rw [h1.1, h2.1]
  generalize a.c0 / 128 = x at *
  generalize a.c1 / 128 = y at *
  generalize b.c0 / 128 = z at *
  generalize b.c1 / 128 = w at *
  refine ⟨fun hw => ?_, fun hw => ?_⟩
  · rw [if_neg (by omega), if_neg (by omega)]; omega
  · split <;> split <;> omega

/-- `n` bus clocks. -/
theorem clocks_run (n : Nat) : ∀ s : St, Inv s → (run s (List.replicate n .clock)).clocks = s.clocks + n ∧ (run s (List.replicate n .clock)).pc = s.pc ∧ (run s (List.replicate n .clock)).stamps = s.stamps := by
  induction n with
  | zero => intro s _; exact ⟨rfl, rfl, rfl⟩
  | succ n ih =>
    intro s h
    have f := clock_frame h
    have := ih (step s .clock) (inv_step h .clock)
    rw [List.replicate_succ]
    show (run (step s .clock) _).clocks = _ ∧ (run (step s .clock) _).pc = _ ∧ (run (step s .clock) _).stamps = _
    refine ⟨this.1.trans ?_, this.2.1.trans f.2.2.2.2.2.1, this.2.2.trans f.2.2.2.2.2.2⟩
    show (clock tpm1sc s).clocks + n = _
    rw [f.1]; omega

theorem run_append (s : St) (a b : List Op) : run s (a ++ b) = run (run s a) b := by simp [run, List.foldl_append]

/-- A whole call of `get_ts` outside any other. -/
theorem call_run {s : St} (h : Inv s) (hp : s.pc = .out) : (run s [.call, .call, .call]).clocks = s.clocks ∧ (run s [.call, .call, .call]).pc = .out ∧
    ∃ v, (run s [.call, .call, .call]).stamps = s.stamps ++ [⟨v, s.clocks, s.clocks⟩] := by
  simp [run, step, call, hp]

/-- From the second period on, the stamp taken at the last count of a period is followed, one count later, by a stamp that is smaller by 65535. -/
theorem stamps_go_back (k : Nat) (hk : 1 ≤ k) : ∃ os a b, (run start os).stamps = [a, b] ∧ count a.c0 = k * period + 65535 ∧ count b.c0 = (k + 1) * period ∧
    a.c0 = a.c1 ∧ b.c0 = b.c1 ∧ b.value + 65535 = a.value := by
  let n := (k * 65536 + 65535) * 128
  let os1 := List.replicate n Op.clock
  let os2 := List.replicate 128 Op.clock
  refine ⟨((os1 ++ [.call, .call, .call]) ++ os2) ++ [.call, .call, .call], ?_⟩
  have i1 := inv_run os1 _ inv_start
  have c1 := clocks_run n _ inv_start
  obtain ⟨d1, d2, v1, d3⟩ := call_run i1 c1.2.1
  have i2 := inv_run [.call, .call, .call] _ i1
  have c2 := clocks_run 128 _ i2
  have i3 := inv_run os2 _ i2
  obtain ⟨e1, e2, v2, e3⟩ := call_run i3 (c2.2.1.trans d2)
  have i4 := inv_run [.call, .call, .call] _ i3
  rw [run_append, run_append, run_append]
  have hn : (run start os1).clocks = n := by rw [c1.1]; simp [start]
  have hm : (run (run (run start os1) [.call, .call, .call]) os2).clocks = n + 128 := by rw [c2.1, d1, hn]
  have hs : (run (run (run (run start os1) [.call, .call, .call]) os2) [.call, .call, .call]).stamps = [⟨v1, n, n⟩, ⟨v2, n + 128, n + 128⟩] := by
    rw [e3, hm, c2.2.2, d3, hn, c1.2.2]; rfl
  have o := i4.old
  rw [hs] at o
  have oa := (o _ List.mem_cons_self).1
  have ob := (o _ (List.mem_cons_of_mem _ List.mem_cons_self)).1
  simp only at oa ob
  have x1 : n / 128 = k * 65536 + 65535 := Nat.mul_div_cancel _ (by decide)
  have x2 : (n + 128) / 128 = (k + 1) * 65536 := by
    rw [Nat.add_div_right _ (by decide), x1, Nat.succ_mul]
  refine ⟨_, _, hs, x1, x2, rfl, rfl, ?_⟩
  simp only
  rw [oa, ob, x1, x2]
  rw [if_pos (by omega), if_pos (by omega)]
  omega

/-- If the counter overflows between the reading of the counter and the test of the flag, the stamp is ahead by a whole period less one
count, so that a later stamp may be smaller. -/
theorem stamp_jumps_ahead (os : List Op) (r : Stamp) (hr : r ∈ (run start os).stamps) (h0 : count r.c0 < period) (h1 : count r.c1 ≥ period) : r.value = count r.c0 + 65535 := by
  rw [(stamp_exact os r hr).1, if_pos h1, Nat.mod_eq_of_lt h0]

/-- Non-vacuity: two stamps, of which the second is taken 256 bus clocks later. -/
example : ∃ os a b, (run start os).stamps = [a, b] ∧ a.value = 0 ∧ b.value = 2 ∧ count b.c1 < period :=
  ⟨[.call, .call, .irq, .call] ++ List.replicate 256 .clock ++ [.call, .clock, .call, .call], ⟨0, 0, 0⟩, ⟨2, 256, 257⟩, by decide +kernel, rfl, rfl, by decide⟩

/-- A stamp whose flag is tested one bus clock after the counter was read, `n` clocks after the start. -/
theorem split_stamp (n : Nat) : ∃ os v, (⟨v, n, n + 1⟩ : Stamp) ∈ (run start os).stamps := by
  have i1 := inv_run (List.replicate n Op.clock) _ inv_start
  obtain ⟨c1, c2, c3⟩ := clocks_run n _ inv_start
  have hc : (run start (List.replicate n Op.clock)).clocks = n := by rw [c1]; simp [start]
  have hp : (run start (List.replicate n Op.clock)).pc = .out := c2
  refine ⟨List.replicate n Op.clock ++ [.call, .clock, .call, .call], ?_⟩
  rw [run_append]
  generalize run start (List.replicate n Op.clock) = s at *
  have hs : (step s .call).pc = .read s.cnt n ∧ (step s .call).clocks = n := by simp [step, call, hp, hc]
  obtain ⟨f1, -, -, -, -, f6, -⟩ := clock_frame (inv_step i1 .call)
  rw [hs.1] at f6
  rw [hs.2] at f1
  have e : run s [.call, .clock, .call, .call] = call (call (clock tpm1sc (step s .call))) := rfl
  rw [e]
  generalize clock tpm1sc (step s .call) = u at *
  simp only [call, f6, f1]
  exact ⟨_, List.mem_append_right _ List.mem_cons_self⟩

/-- Non-vacuity: the overflow between the two reads. -/
example : ∃ os r, r ∈ (run start os).stamps ∧ count r.c0 < period ∧ count r.c1 ≥ period := by
  obtain ⟨n, h1, h2⟩ : ∃ n, count n < period ∧ count (n + 1) ≥ period := ⟨8388607, by decide, by decide⟩
  obtain ⟨os, v, h⟩ := split_stamp n
  exact ⟨os, _, h, h1, h2⟩

/-! ## C201: ticks by the real-time counter -/

theorem rtcRun_eq (md : Nat) : ∀ t, (rtcRun md t).cnt = t % (md + 1) ∧ (rtcRun md t).ticks = t / (md + 1)
  | 0 => by simp [rtcRun]
  | t + 1 => by
    obtain ⟨h1, h2⟩ := rtcRun_eq md t
    simp only [rtcRun, rtcMs, h1, h2]
    have hd := Nat.div_add_mod t (md + 1)
    split
    · rename_i h
      have : t + 1 = (md + 1) * (t / (md + 1) + 1) := by rw [Nat.mul_add]; omega
      refine ⟨?_, ?_⟩
      · simp only; rw [this, Nat.mul_mod_right]
      · simp only; rw [this, Nat.mul_div_cancel_left _ (by omega)]
    · rename_i h
      have hl := Nat.mod_lt t (show md + 1 > 0 by omega)
      have e : t + 1 = (t % (md + 1) + 1) + (md + 1) * (t / (md + 1)) := by omega
      refine ⟨?_, ?_⟩
      · simp only
        conv => rhs; rw [e, Nat.add_mul_mod_self_left, Nat.mod_eq_of_lt (by omega)]
      · simp only
        conv => rhs; rw [e, Nat.add_mul_div_left _ _ (by omega), Nat.div_eq_of_lt (by omega)]
        omega

/-- **C201.** On the ColdFire V1 and S08 boards there are, after every number of milliseconds, as many ticks as the configured rate demands, exactly
if the rate divides 1000 and is at least 4 Hz.

Missing from the full property: the other rates, all of which the framework accepts; `fast_rates_tick_slowly` for those above 1 kHz. -/
theorem rtc_rate_partial (w rate : Nat) (hw : 8 ≤ w) (hr : 0 < rate) :
    (∀ t, (rtcRun (rtcmod w rate) t).ticks = t * rate / 1000) ↔ (rate ∣ 1000 ∧ 4 ≤ rate) := by
  have hP : rtcmod w rate + 1 ≤ 256 := by have := Nat.mod_lt (tickRateMs w rate % 256 + 255) (show 256 > 0 by decide); unfold rtcmod; omega
  constructor
  · intro h
    have := h (1000 * (rtcmod w rate + 1))
    rw [(rtcRun_eq _ _).2, Nat.mul_div_cancel _ (by omega), Nat.mul_assoc, Nat.mul_div_cancel_left _ (by decide)] at this
    refine ⟨⟨rtcmod w rate + 1, by rw [Nat.mul_comm]; exact this⟩, ?_⟩
    have h2 := Nat.mul_le_mul_right rate hP
    omega
  · rintro ⟨⟨q, hq⟩, h4⟩ t
    have e : 1000 / rate = q := by rw [hq, Nat.mul_div_cancel_left _ hr]
    have hq1 : q ≤ 250 := by
      have := Nat.mul_le_mul_right q h4
      omega
    have hq0 : 0 < q := by
      rcases Nat.eq_zero_or_pos q with h | h
      · subst h; simp at hq
      · exact h
    have hpow : 256 ≤ 2 ^ w := by
      have := Nat.pow_le_pow_right (show 0 < 2 by decide) hw
      simpa using this
    have em : rtcmod w rate + 1 = q := by
      unfold rtcmod tickRateMs
      rw [e, Nat.mod_eq_of_lt (show q < 2 ^ w by omega)]
      omega
    rw [(rtcRun_eq _ _).2, em, hq, Nat.mul_comm t rate, Nat.mul_div_mul_left _ _ hr]

/-- At every rate above 1 kHz the board ticks less than four times a second. -/
theorem fast_rates_tick_slowly (w rate t : Nat) (hr : 1000 < rate) : (rtcRun (rtcmod w rate) t).ticks = t / 256 := by
  have : rtcmod w rate = 255 := by
    unfold rtcmod tickRateMs
    rw [Nat.div_eq_of_lt hr, Nat.zero_mod]
  rw [(rtcRun_eq _ _).2, this]

/-- Non-vacuity: 100 Hz with 16-bit timers. -/
example : (rtcRun (rtcmod 16 100) 12345).ticks = 1234 := (rtc_rate_partial 16 100 (by decide) (by decide)).2 ⟨⟨10, rfl⟩, by decide⟩ 12345

/-- Three ticks a second are not kept. -/
example : ¬∀ t, (rtcRun (rtcmod 16 3) t).ticks = t * 3 / 1000 := fun h => by
  have := ((rtc_rate_partial 16 3 (by decide) (by decide)).1 h).2
  omega

/-! ## C202: ticks by SysTick -/

theorem sysRun_eq (rv : Nat) (h : 0 < rv) : ∀ n, (sysRun rv n).cvr = (rv + 1 - n % (rv + 1)) % (rv + 1) ∧ (sysRun rv n).ticks = n / (rv + 1)
  | 0 => by simp [sysRun]
  | n + 1 => by
    obtain ⟨h1, h2⟩ := sysRun_eq rv h n
    have hd := Nat.div_add_mod n (rv + 1)
    have hl := Nat.mod_lt n (show rv + 1 > 0 by omega)
    by_cases hx : n % (rv + 1) = rv
    · have e : n + 1 = (rv + 1) * (n / (rv + 1) + 1) := by rw [Nat.mul_add]; omega
      have c : (sysRun rv n).cvr = 1 := by rw [h1, hx]; rw [show rv + 1 - rv = 1 by omega, Nat.mod_eq_of_lt (by omega)]
      simp only [sysRun, sysClk, c, h2]
      refine ⟨?_, ?_⟩
      · rw [show (n + 1) % (rv + 1) = 0 by rw [e, Nat.mul_mod_right]]; simp
      · rw [show (n + 1) / (rv + 1) = n / (rv + 1) + 1 by conv => lhs; rw [e, Nat.mul_div_cancel_left _ (by omega)]]
    · have e : n + 1 = (n % (rv + 1) + 1) + (rv + 1) * (n / (rv + 1)) := by omega
      have em : (n + 1) % (rv + 1) = n % (rv + 1) + 1 := by conv => lhs; rw [e, Nat.add_mul_mod_self_left, Nat.mod_eq_of_lt (by omega)]
      have ed : (n + 1) / (rv + 1) = n / (rv + 1) := by
        conv => lhs; rw [e, Nat.add_mul_div_left _ _ (by omega), Nat.div_eq_of_lt (by omega)]
        omega
      rw [em, ed]
      rcases Nat.eq_zero_or_pos (n % (rv + 1)) with hz | hz
      · have c : (sysRun rv n).cvr = 0 := by rw [h1, hz]; simp
        have e2 : sysRun rv (n + 1) = ⟨rv, n / (rv + 1)⟩ := by rw [sysRun, sysClk, c, h2]
        rw [e2]
        refine ⟨?_, rfl⟩
        rw [hz, show rv + 1 - (0 + 1) = rv by omega, Nat.mod_eq_of_lt (by omega)]
      · have c : (sysRun rv n).cvr = (rv - 1 - n % (rv + 1)) + 2 := by rw [h1, Nat.mod_eq_of_lt (by omega)]; omega
        have e2 : sysRun rv (n + 1) = ⟨rv - 1 - n % (rv + 1) + 1, n / (rv + 1)⟩ := by rw [sysRun, sysClk, c, h2]
        rw [e2]
        refine ⟨?_, rfl⟩
        have hm : rv + 1 - (n % (rv + 1) + 1) < rv + 1 := by omega
        rw [Nat.mod_eq_of_lt hm]
        show rv - 1 - n % (rv + 1) + 1 = _
        omega

/-- A reload value of 0 stops the counter. -/
theorem sysRun_zero : ∀ n, (sysRun 0 n).cvr = 0 ∧ (sysRun 0 n).ticks = 0
  | 0 => ⟨rfl, rfl⟩
  | n + 1 => by
    obtain ⟨h1, h2⟩ := sysRun_zero n
    simp [sysRun, sysClk, h1, h2]

/-- **C202.** On the K60 and KL25Z boards, if a tick lasts less than 2^24 core clocks, the ticks come too slowly, by at most one clock each: `k` ticks
after `n` clocks means `k * clk < n * hz` for positive `k`, and `n * hz < (k + 1) * (clk + hz)`.

Missing from the full property: the exact rate, which is never kept (`systick_second_too_short`), and longer ticks (`systick_too_fast`). -/
theorem systick_rate_partial (clk hz n : Nat) (hh : 0 < hz) (h1 : hz ≤ clk) (h2 : clk / hz < 2 ^ 24) :
    ((sysRun (rvr clk hz) n).ticks > 0 → (sysRun (rvr clk hz) n).ticks * clk < n * hz) ∧ n * hz < ((sysRun (rvr clk hz) n).ticks + 1) * (clk + hz) := by
  have e : rvr clk hz = clk / hz := Nat.mod_eq_of_lt h2
  have hp : 0 < clk / hz := Nat.div_pos h1 hh
  rw [e, (sysRun_eq _ hp n).2]
  have q1 : clk < (clk / hz + 1) * hz := by rw [Nat.add_mul, Nat.one_mul, Nat.mul_comm]; have := Nat.div_add_mod clk hz; have := Nat.mod_lt clk hh; omega
  have q2 : (clk / hz + 1) * hz ≤ clk + hz := by rw [Nat.add_mul, Nat.one_mul]; have := Nat.div_mul_le_self clk hz; omega
  generalize clk / hz + 1 = P at *
  have hP : 0 < P := by rcases Nat.eq_zero_or_pos P with h | h; · subst h; simp at q1
                        exact h
  refine ⟨fun hk => ?_, ?_⟩
  · have a1 : n / P * clk < n / P * (P * hz) := Nat.mul_lt_mul_of_pos_left q1 hk
    have a2 : n / P * P * hz ≤ n * hz := Nat.mul_le_mul_right _ (Nat.div_mul_le_self n P)
    rw [Nat.mul_assoc] at a2
    omega
  · have a1 : n < (n / P + 1) * P := by rw [Nat.add_mul, Nat.one_mul, Nat.mul_comm]; have := Nat.div_add_mod n P; have := Nat.mod_lt n hP; omega
    have a2 : n * hz < (n / P + 1) * P * hz := Nat.mul_lt_mul_of_pos_right a1 hh
    have a3 : (n / P + 1) * (P * hz) ≤ (n / P + 1) * (clk + hz) := Nat.mul_le_mul_left _ q2
    rw [Nat.mul_assoc] at a2
    omega

/-- In a second there is always at least one tick too few. -/
theorem systick_second_too_short (clk hz : Nat) (hh : 0 < hz) (h1 : hz ≤ clk) (h2 : clk / hz < 2 ^ 24) : (sysRun (rvr clk hz) clk).ticks < hz := by
  have h := (systick_rate_partial clk hz clk hh h1 h2).1
  rcases Nat.eq_zero_or_pos (sysRun (rvr clk hz) clk).ticks with hz0 | hpos
  · omega
  · have := h hpos
    rw [Nat.mul_comm clk hz] at this
    exact Nat.lt_of_mul_lt_mul_right this

/-- If a tick should last 2^24 core clocks or more, the 24-bit register makes it shorter; if it should last a multiple of 2^24 clocks and a part of one, there is no tick at all. -/
theorem systick_too_fast (clk hz n : Nat) (hh : 0 < hz) (h2 : clk / hz ≥ 2 ^ 24) :
    ((clk / hz) % 2 ^ 24 = 0 → (sysRun (rvr clk hz) n).ticks = 0) ∧
    ((clk / hz) % 2 ^ 24 ≠ 0 → ∃ P, P * hz < clk ∧ (sysRun (rvr clk hz) n).ticks = n / P) := by
  refine ⟨fun h => ?_, fun h => ?_⟩
  · unfold rvr; rw [h]; exact (sysRun_zero n).2
  · refine ⟨rvr clk hz + 1, ?_, (sysRun_eq _ (Nat.pos_of_ne_zero h) n).2⟩
    have hd := Nat.div_add_mod clk hz
    have hlt : rvr clk hz + 1 < clk / hz := by
      unfold rvr
      generalize clk / hz = q at *
      omega
    have := Nat.mul_le_mul_right hz (show rvr clk hz + 1 + 1 ≤ clk / hz from hlt)
    have := Nat.div_mul_le_self clk hz
    rw [Nat.add_mul (rvr clk hz + 1)] at *
    omega

/-- Non-vacuity: 95977472 Hz and 100 ticks a second. -/
example : (sysRun (rvr 95977472 100) 95977472).ticks < 100 := systick_second_too_short _ _ (by decide) (by decide) (by decide)

/-- Non-vacuity: one tick a second comes too fast. -/
example : ∃ P, P * 1 < 95977472 ∧ (sysRun (rvr 95977472 1) 1000).ticks = 1000 / P := (systick_too_fast 95977472 1 1000 (by decide) (by decide)).2 (by decide)

end Verif.Bsp.Tstamp
