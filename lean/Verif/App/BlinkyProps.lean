import Verif.App.BlinkyLemmas
/-
Properties of the blinky application (C145, C146).
-/
namespace Verif.App.Blinky
open Verif Spec

section
variable {p : Cfg} {slots : List MemPool.Pool} {hdr : Nat → Fwk.Evt} {heap : Nat → Timer.Tmr} {qsto : List Nat}

/-- **C145.** The application starts and runs forever: whatever the interleaving of hardware ticks and pieces of the program, no assertion
of the framework fails and no undefined behaviour occurs. One slot in the event queue suffices. -/
theorem blinky_never_fails (hg : Good p slots hdr qsto) (l : List Act) :
    ∃ x0 x, boot p slots hdr heap qsto = .ok x0 ∧ run p x0 l = .ok x := by
  obtain ⟨x0, a, t, h1, h2, _⟩ := boot_inv hg heap
  obtain ⟨x, _, _, h3, _⟩ := run_inv hg.fixed l h2
  exact ⟨x0, x, h1, h3⟩

/-- **C145.** The application switches the LED on and off alternately, beginning with on, and never too early: the `i`-th call (from 0) is not
made before the sum of the durations of the phases before it, in ticks. For every interleaving. -/
theorem blinky_never_early (hg : Good p slots hdr qsto) {x0 x : App} {l : List Act} (h0 : boot p slots hdr heap qsto = .ok x0)
    (h : run p x0 l = .ok x) {i n : Nat} {b : Bool} (hi : x.led[i]? = some (n, b)) : due p i ≤ n ∧ (b = true ↔ i % 2 = 0) := by
  obtain ⟨y0, a, t, h1, h2, h3⟩ := boot_inv hg heap
  rw [h1] at h0; cases h0
  obtain ⟨y, _, _, g1, _, g3⟩ := run_inv hg.fixed l h2
  rw [g1] at h; cases h
  rw [g3, h3] at hi
  have := run_late ⟨hg.on.1, hg.off.1⟩ l ⟨.init, none, 0, 0⟩ (by simp [B.Late, due]) (fun _ => rfl) (by intro n hn; cases hn) i (n, b) hi
  simp only [Nat.zero_add] at this
  exact ⟨this.1, by rw [this.2]; simp⟩

/-- **C145.** The application goes on: however the ticks and the pieces of the program are interleaved, if the history contains `rs.length`
consecutive rounds with at least one tick and one piece of the program each, the LED has been switched at least
`(rs.length - 2) / (6 + max LedOnTime LedOffTime)` times. -/
theorem blinky_goes_on (hg : Good p slots hdr qsto) {x0 x : App} {rs : List (List Act)} (h0 : boot p slots hdr heap qsto = .ok x0)
    (hr : ∀ r ∈ rs, .cpu ∈ r ∧ .tick ∈ r) (h : run p x0 rs.flatten = .ok x) : rs.length ≤ (6 + max p.on p.off) * x.led.length + 2 := by
  obtain ⟨y0, a, t, h1, h2, h3⟩ := boot_inv hg heap
  rw [h1] at h0; cases h0
  obtain ⟨y, _, _, g1, _, g3⟩ := run_inv hg.fixed rs.flatten h2
  rw [g1] at h; cases h
  have hk := run_k (p := p) rs.flatten ⟨.init, none, 0, 0⟩
  have hm := mu_rounds ⟨hg.on.1, hg.off.1⟩ rs (b := ⟨.init, none, 0, 0⟩) ⟨fun _ => rfl, (by intro n hn; cases hn), (by intro n hn; cases hn)⟩ hr
  have hl : x.led.length = (B.run p ⟨.init, none, 0, 0⟩ rs.flatten).1.k := by rw [g3, h3, hk]; simp
  have hmu : 1 ≤ (B.run p ⟨.init, none, 0, 0⟩ rs.flatten).1.mu := by
    unfold B.mu; split <;> omega
  rw [hl]
  simp only [B.mu, Nat.mul_zero, Nat.zero_add, top] at hm hmu ⊢
  omega

/-- **C146.** On a processor that keeps up (three pieces of the program before the first tick, six after every tick), the LED calls are made
exactly at the ticks at which they are due, and all calls that are due have been made. -/
theorem blinky_on_time (hg : Good p slots hdr qsto) {x0 x : App} {k0 : Nat} {ks : List Nat} (h0 : boot p slots hdr heap qsto = .ok x0)
    (hk0 : 3 ≤ k0) (hks : ∀ k ∈ ks, 6 ≤ k) (h : run p x0 (paced k0 ks) = .ok x) :
    (∀ i n b, x.led[i]? = some (n, b) → n = due p i) ∧ ∀ i, i < x.led.length ↔ due p i ≤ ks.length := by
  obtain ⟨y0, a, t, h1, h2, h3⟩ := boot_inv hg heap
  rw [h1] at h0; cases h0
  obtain ⟨y, _, _, g1, _, g3⟩ := run_inv hg.fixed (paced k0 ks) h2
  rw [g1] at h; cases h
  obtain ⟨k, r, e1, e2, e3, e4, e5, e6⟩ := run_paced ⟨hg.on.1, hg.off.1⟩ hk0 hks
  rw [h3, e2, List.nil_append] at g3
  have hlen : x.led.length = k := by rw [g3]; simp [onTime]
  have mono : ∀ i d, due p i ≤ due p (i + d) := by
    intro i d
    induction d with
    | zero => exact Nat.le_refl _
    | succ d ih => exact Nat.le_trans ih (by show _ ≤ due p (i + d) + _; omega)
  refine ⟨?_, ?_⟩
  · intro i n b hi
    rw [g3] at hi
    simp only [onTime, List.getElem?_map, Option.map_eq_some_iff] at hi
    obtain ⟨j, hj, hh⟩ := hi
    rw [List.getElem?_eq_some_iff] at hj
    obtain ⟨hj1, hj2⟩ := hj
    simp only [List.getElem_range] at hj2
    subst hj2
    cases hh; rfl
  · intro i
    rw [hlen]
    constructor
    · intro hi
      have := mono i (k - 1 - i)
      rw [show i + (k - 1 - i) = k - 1 by omega] at this
      omega
    · intro hi
      by_cases hh : i < k
      · exact hh
      · have := mono k (i - k)
        rw [show k + (i - k) = i by omega] at this
        omega

/-- **C146.** On such a processor the LED is on after `n` ticks exactly when `n mod (LedOnTime + LedOffTime) < LedOnTime`. -/
theorem blinky_wave (hg : Good p slots hdr qsto) {x0 x : App} {k0 : Nat} {ks : List Nat} (h0 : boot p slots hdr heap qsto = .ok x0)
    (hk0 : 3 ≤ k0) (hks : ∀ k ∈ ks, 6 ≤ k) (h : run p x0 (paced k0 ks) = .ok x) : lit x.led = wave p ks.length := by
  obtain ⟨y0, a, t, h1, h2, h3⟩ := boot_inv hg heap
  rw [h1] at h0; cases h0
  obtain ⟨y, _, _, g1, _, g3⟩ := run_inv hg.fixed (paced k0 ks) h2
  rw [g1] at h; cases h
  obtain ⟨k, r, e1, e2, e3, e4, e5, e6⟩ := run_paced ⟨hg.on.1, hg.off.1⟩ hk0 hks
  rw [h3, e2, List.nil_append] at g3
  obtain ⟨j, rfl⟩ : ∃ j, k = j + 1 := ⟨k - 1, by omega⟩
  rw [g3, wave_phase (k := j) (by simpa using e6) (by omega)]
  simp [lit, onTime, List.range_succ]

end

namespace Demo

/-- The example as it is configured: 2 priorities, no event pools, 8-bit queue counters, 16-bit ticks, two seconds of 100 ticks each. -/
def cfg : Cfg where
  sys := { fw := { assertEn := true, maxSma := 2, maxPool := 0, maxChan := 0, qW := 256, mpc := ⟨4, 256, 256, true⟩,
                   static := fun e => e == EV, junk := fun _ => ⟨0, 0, 0⟩ }, tm := ⟨65536, true, 8⟩ }
  on := 200
  off := 200
  qsize := 4

def hdr : Nat → Fwk.Evt := fun e => if e = EV then ⟨evTout, 0, 0⟩ else ⟨7, 7, 7⟩
def heap : Nat → Timer.Tmr := fun _ => ⟨9, 9, 9, 9, 9, 0⟩

theorem good : Good cfg [] hdr [0, 0, 0, 0] where
  env := ⟨rfl, by decide, by decide, rfl, by intro e he; simp only [cfg, beq_iff_eq] at he; subst he; decide⟩
  prio := by decide
  qpos := by decide
  qlen := by decide
  qfit := by decide
  on := by decide
  off := by decide
  fuel := by decide
  ev := rfl
  sig := rfl

/-- The same with short phases and one slot. -/
def fast : Cfg := { cfg with on := 2, off := 1, qsize := 1 }

theorem goodFast : Good fast [] hdr [0] where
  env := good.env
  prio := by decide
  qpos := by decide
  qlen := by decide
  qfit := by decide
  on := by decide
  off := by decide
  fuel := by decide
  ev := rfl
  sig := rfl

/-- LED calls of a history from the start. -/
def calls (p : Cfg) (q : List Nat) (l : List Act) : Option (List (Nat × Bool)) :=
  match (boot p [] hdr heap q).bind fun x => run p x l with
  | .ok x => some x.led
  | _ => none

/-- Seven ticks on a fast processor: on at 0, off at 2, on at 3, off at 5, on at 6. -/
example : calls fast [0] (paced 4 [6, 6, 7, 6, 9, 6, 6]) = some [(0, true), (2, false), (3, true), (5, false), (6, true)] := by decide +kernel

/-- A slow processor: two pieces of the program per tick. The LED calls are late, but they alternate and nothing is lost. -/
example : calls fast [0] ((List.replicate 20 [Act.cpu, .tick, .cpu]).flatten) =
    some [(1, true), (4, false), (7, true), (10, false), (13, true), (16, false), (19, true)] := by decide +kernel

/-- Ticks between `RKH_TMR_ONESHOT` and `bsp_ledOn`: the timer expires while the action is running, the event waits. -/
example : calls fast [0] [.cpu, .cpu, .tick, .tick, .tick, .cpu, .cpu, .cpu, .cpu, .cpu] = some [(3, true), (3, false)] := by decide +kernel

/-- What the LED shows in the example at a few moments. -/
example : wave cfg 0 = true ∧ wave cfg 199 = true ∧ wave cfg 200 = false ∧ wave cfg 399 = false ∧ wave cfg 400 = true := by decide

/-- The hypotheses of `blinky_wave` are met after any number of ticks. -/
example (n : Nat) : ∃ x0 x, boot cfg [] hdr heap [0, 0, 0, 0] = .ok x0 ∧ run cfg x0 (paced 3 (List.replicate n 6)) = .ok x ∧ lit x.led = wave cfg n := by
  obtain ⟨x0, x, h0, h⟩ := blinky_never_fails (heap := heap) good (paced 3 (List.replicate n 6))
  have := blinky_wave good h0 (by omega) (by intro k hk; rw [List.mem_replicate] at hk; omega) h
  rw [List.length_replicate] at this
  exact ⟨x0, x, h0, h, this⟩

end Demo

end Verif.App.Blinky
