import Verif.Life.Model
/-
Starting and stopping the framework.
-/
namespace Verif.Life

namespace Spec

/-- The number of steps the clock makes. -/
def clockSteps : List Op → Nat
  | [] => 0
  | .clock _ :: os => clockSteps os + 1
  | _ :: os => clockSteps os

/-- The number of steps the main thread makes. -/
def mainSteps : List Op → Nat
  | [] => 0
  | .main _ _ :: os => mainSteps os + 1
  | _ :: os => mainSteps os

/-- `rkh_fwk_enter` has come to its loop. -/
def Started (s : Sys) : Prop := s.main ≠ .first ∧ s.main ≠ .second

/-- The clock does nothing. -/
def NoClock (os : List Op) : Prop := ∀ o ∈ os, ∀ n, o ≠ .clock n

/-- Nobody calls `rkhport_fwk_stop`. -/
def NoStop (os : List Op) : Prop := ∀ o ∈ os, ∀ n, o ≠ .kbd n true

/-- No action calls `rkh_fwk_exit`. -/
def NoExit (os : List Op) : Prop := ∀ o ∈ os, ∀ n, o ≠ .main n true

/-- The main thread is on its way to wait for a signal that is not set. -/
def FallsAsleep (s : Sys) : Prop := (s.main = .wait ∨ s.main = .check ∧ s.pend = 0) ∧ s.sig = 0

/-- `rkh_fwk_enter` is about to return or has done so. -/
def over (s : Sys) : Bool := s.main = .destroy ∨ s.main = .returned

instance (o : Op) : Decidable (∃ n, o = .main n true) :=
  match o with
  | .main n true => .isTrue ⟨n, rfl⟩
  | .main _ false => .isFalse (by rintro ⟨n, h⟩; cases h)
  | .clock _ => .isFalse (by rintro ⟨n, h⟩; cases h)
  | .kbd _ _ => .isFalse (by rintro ⟨n, h⟩; cases h)

/-- How many of the steps are calls of `rkh_fwk_exit`. -/
def exitCalls (p : Port) (tr : Bool) : Sys → List Op → Nat
  | _, [] => 0
  | s, o :: os => (if s.main = .work ∧ (∃ n, o = .main n true) then 1 else 0) + exitCalls p tr (step p tr s o) os

end Spec
open Spec

theorem run_cons (p : Port) (tr : Bool) (s : Sys) (o : Op) (os : List Op) : run p tr s (o :: os) = run p tr (step p tr s o) os := rfl
theorem run_append (p : Port) (tr : Bool) (s : Sys) (a b : List Op) : run p tr s (a ++ b) = run p tr (run p tr s a) b := by
  unfold run; rw [List.foldl_append]

/-- What is true of an execution after every step. -/
theorem run_inv {p : Port} {tr : Bool} {I : Sys → Prop} (hI : ∀ s o, I s → I (step p tr s o)) : ∀ (os : List Op) (s : Sys), I s → I (run p tr s os)
  | [], _, h => h
  | o :: os, s, h => run_inv hI os _ (hI s o h)

@[simp] theorem posts_running (p : Port) (n : Nat) (s : Sys) : (s.posts p n).running = s.running := rfl
@[simp] theorem posts_main (p : Port) (n : Nat) (s : Sys) : (s.posts p n).main = s.main := rfl
@[simp] theorem posts_clock (p : Port) (n : Nat) (s : Sys) : (s.posts p n).clock = s.clock := rfl
@[simp] theorem posts_kbd (p : Port) (n : Nat) (s : Sys) : (s.posts p n).kbd = s.kbd := rfl
@[simp] theorem posts_ticks (p : Port) (n : Nat) (s : Sys) : (s.posts p n).ticks = s.ticks := rfl
@[simp] theorem posts_bad (p : Port) (n : Nat) (s : Sys) : (s.posts p n).bad = s.bad := rfl
@[simp] theorem posts_destroyed (p : Port) (n : Nat) (s : Sys) : (s.posts p n).destroyed = s.destroyed := rfl
@[simp] theorem posts_exits (p : Port) (n : Nat) (s : Sys) : (s.posts p n).exits = s.exits := rfl
@[simp] theorem posts_pend (p : Port) (n : Nat) (s : Sys) : (s.posts p n).pend = s.pend + n := rfl
@[simp] theorem exit_main (p : Port) (s : Sys) : (s.exit p).main = s.main := by cases p <;> rfl
@[simp] theorem exit_clock (p : Port) (s : Sys) : (s.exit p).clock = s.clock := by cases p <;> rfl
@[simp] theorem exit_kbd (p : Port) (s : Sys) : (s.exit p).kbd = s.kbd := by cases p <;> rfl
@[simp] theorem exit_ticks (p : Port) (s : Sys) : (s.exit p).ticks = s.ticks := by cases p <;> rfl
@[simp] theorem exit_bad (p : Port) (s : Sys) : (s.exit p).bad = s.bad := by cases p <;> rfl
@[simp] theorem exit_destroyed (p : Port) (s : Sys) : (s.exit p).destroyed = s.destroyed := by cases p <;> rfl
@[simp] theorem exit_exits (p : Port) (s : Sys) : (s.exit p).exits = s.exits + 1 := by cases p <;> rfl
@[simp] theorem exit_sig (p : Port) (s : Sys) : (s.exit p).sig = s.sig := by cases p <;> rfl
@[simp] theorem exit_pend (p : Port) (s : Sys) : (s.exit p).pend = s.pend := by cases p <;> rfl

theorem posts_sig (p : Port) (n : Nat) (s : Sys) (h : 0 < s.sig) : 0 < (s.posts p n).sig := by
  cases p
  · show 0 < s.sig + n; omega
  · show 0 < (if n = 0 then s.sig else 1); split <;> omega

section
variable (p : Port) (tr : Bool) (n : Nat) (b : Bool) (s : Sys)
@[simp] theorem clock_main : (clockStep p tr n s).main = s.main := by unfold clockStep; split <;> (try split) <;> rfl
@[simp] theorem clock_running : (clockStep p tr n s).running = s.running := by unfold clockStep; split <;> (try split) <;> rfl
@[simp] theorem clock_kbd : (clockStep p tr n s).kbd = s.kbd := by unfold clockStep; split <;> (try split) <;> rfl
@[simp] theorem clock_destroyed : (clockStep p tr n s).destroyed = s.destroyed := by unfold clockStep; split <;> (try split) <;> rfl
@[simp] theorem clock_exits : (clockStep p tr n s).exits = s.exits := by unfold clockStep; split <;> (try split) <;> rfl
@[simp] theorem kbd_main : (kbdStep p n b s).main = s.main := by unfold kbdStep; split <;> (try split) <;> (try split) <;> rfl
@[simp] theorem kbd_clock : (kbdStep p n b s).clock = s.clock := by unfold kbdStep; split <;> (try split) <;> (try split) <;> rfl
@[simp] theorem kbd_ticks : (kbdStep p n b s).ticks = s.ticks := by unfold kbdStep; split <;> (try split) <;> (try split) <;> rfl
@[simp] theorem kbd_destroyed : (kbdStep p n b s).destroyed = s.destroyed := by unfold kbdStep; split <;> (try split) <;> (try split) <;> rfl
@[simp] theorem kbd_exits : (kbdStep p n b s).exits = s.exits := by unfold kbdStep; split <;> (try split) <;> (try split) <;> rfl
theorem kbd_running (h : s.running = false) : (kbdStep p n b s).running = false := by unfold kbdStep; split <;> (try split) <;> (try split) <;> first | exact h | rfl
theorem kbd_running' (h : s.kbd ≠ .stop) : (kbdStep p n b s).running = s.running := by unfold kbdStep; split <;> (try split) <;> (try split) <;> first | rfl | contradiction
end

/-- A step of the main thread in the loop and after it. -/
theorem main_cases {p : Port} {n : Nat} {b : Bool} {s : Sys} (h : Started s) :
    (mainStep p n b s).clock = s.clock ∧ (mainStep p n b s).kbd = s.kbd ∧ (mainStep p n b s).ticks = s.ticks ∧ (mainStep p n b s).bad = s.bad ∧ Started (mainStep p n b s) ∧
    (s.running = false → (mainStep p n b s).running = false) := by
  unfold Started at h ⊢
  obtain ⟨h1, h2⟩ := h
  unfold mainStep
  cases hm : s.main with
  | first => contradiction
  | second => contradiction
  | test => cases hr : s.running <;> simp [hr]
  | check => by_cases hp : s.pend > 0 <;> simp [hp]
  | work => cases b <;> simp <;> (try (cases p <;> simp [Sys.exit])) 
  | wait => by_cases hp : s.sig > 0 <;> simp [hp, hm]
  | hook => simp
  | destroy => simp
  | returned => simp [hm]

/-! ## The clock -/

theorem started_step {p : Port} {tr : Bool} {s : Sys} (h : Started s) (o : Op) : Started (step p tr s o) := by
  cases o with
  | main n e => exact (main_cases h).2.2.2.2.1
  | clock n => unfold Started; rw [show (step p tr s (.clock n)).main = s.main from clock_main ..]; exact h
  | kbd n st => unfold Started; rw [show (step p tr s (.kbd n st)).main = s.main from kbd_main ..]; exact h

theorem started_run {p : Port} {tr : Bool} {s : Sys} (h : Started s) (os : List Op) : Started (run p tr s os) :=
  run_inv (I := Started) (fun _ o h => started_step h o) os s h

/-- Once stopped, always stopped. -/
theorem stopped_step {p : Port} {tr : Bool} {s : Sys} (h : Started s) (hr : s.running = false) (o : Op) : (step p tr s o).running = false := by
  cases o with
  | main n e => exact (main_cases h).2.2.2.2.2 hr
  | clock n => exact (clock_running ..).trans hr
  | kbd n st => exact kbd_running _ _ _ _ hr

theorem stopped_run {p : Port} {tr : Bool} {s : Sys} (h : Started s) (hr : s.running = false) (os : List Op) : (run p tr s os).running = false :=
  (run_inv (I := fun s => Started s ∧ s.running = false) (fun _ o h => ⟨started_step h.1 o, stopped_step h.1 h.2 o⟩) os s ⟨h, hr⟩).2

/-- Where the clock is between two ticks. -/
def phase : TPc → Nat
  | .sleep => 0
  | .test => 1
  | .work => 2
  | _ => 0

theorem clock_law {p : Port} {tr : Bool} (hp : p = .windows ∨ tr = true) : ∀ (os : List Op) (s : Sys), Started s → s.clock ≠ .none → s.clock ≠ .ended →
    (run p tr s os).running = true → 3 * (run p tr s os).ticks + phase (run p tr s os).clock = 3 * s.ticks + phase s.clock + clockSteps os
  | [], s, _, _, _, _ => rfl
  | o :: os, s, h, h1, h2, hr => by
    rw [run_cons] at hr ⊢
    have hrun : s.running = true := by
      cases hs : s.running with
      | true => rfl
      | false =>
        have := stopped_run (p := p) (tr := tr) (started_step (p := p) (tr := tr) h o) (stopped_step h hs o) os
        rw [hr] at this
        cases this
    have key : (step p tr s o).clock ≠ .none ∧ (step p tr s o).clock ≠ .ended ∧ 3 * (step p tr s o).ticks + phase (step p tr s o).clock = 3 * s.ticks + phase s.clock + clockSteps [o] := by
      cases o with
      | main n e =>
        have h3 : (step p tr s (.main n e)).clock = s.clock := (main_cases h).1
        have h4 : (step p tr s (.main n e)).ticks = s.ticks := (main_cases h).2.2.1
        rw [h3, h4]
        exact ⟨h1, h2, rfl⟩
      | clock n =>
        simp only [step, clockStep, if_pos hp, Sys.use]
        cases hc : s.clock <;> simp_all [phase, clockSteps] <;> omega
      | kbd n st =>
        have h3 : (step p tr s (.kbd n st)).clock = s.clock := kbd_clock ..
        have h4 : (step p tr s (.kbd n st)).ticks = s.ticks := kbd_ticks ..
        rw [h3, h4]
        exact ⟨h1, h2, rfl⟩
    have ih := clock_law hp os _ (started_step h o) key.1 key.2.1 hr
    rw [ih, key.2.2]
    have : clockSteps (o :: os) = clockSteps [o] + clockSteps os := by cases o <;> simp [clockSteps] <;> omega
    rw [this]
    omega

/-- The clock has not ended too early. -/
def Alive (p : Port) (s : Sys) : Prop :=
  s.main = .first ∧ s.clock = .none ∧ s.kbd = .none ∨ s.main = .second ∧ p = .linux ∧ s.clock = .none ∧ s.kbd = .none ∧ s.running = true ∨
    s.main = .second ∧ p = .windows ∧ s.clock = .test ∨ Started s ∧ s.clock ≠ .none ∧ (s.clock = .ended → s.running = false)

theorem alive_step {p : Port} {tr : Bool} {s : Sys} {o : Op} (ho : p = .linux ∨ Started s ∨ ∀ n, o ≠ .clock n) (h : Alive p s) : Alive p (step p tr s o) := by
  rcases h with ⟨h1, h2, h3⟩ | ⟨h1, rfl, h2, h3, h4⟩ | ⟨h1, rfl, h2⟩ | ⟨h1, h2, h3⟩
  · cases o with
    | main n e => cases p <;> simp [Alive, step, mainStep, h1, h2, h3, Sys.create, Started]
    | clock n => left; simp [step, clockStep, h1, h2, h3]
    | kbd n st => left; simp [step, kbdStep, h1, h2, h3]
  · cases o with
    | main n e => right; right; right; simp [step, mainStep, h1, Sys.create, Started]
    | clock n => right; left; simp [step, clockStep, h1, h2, h3, h4]
    | kbd n st => right; left; simp [step, kbdStep, h1, h2, h3, h4]
  · cases o with
    | main n e => right; right; right; simp [step, mainStep, h1, h2, Started]
    | clock n =>
      rcases ho with ho | ho | ho
      · cases ho
      · exact absurd h1 ho.2
      · exact absurd rfl (ho n)
    | kbd n st => right; right; left; exact ⟨(kbd_main ..).trans h1, rfl, (kbd_clock ..).trans h2⟩
  · right; right; right
    refine ⟨started_step h1 o, ?_⟩
    cases o with
    | main n e =>
      have := main_cases (p := p) (n := n) (b := e) h1
      simp only [step]
      rw [this.1]
      exact ⟨h2, fun hc => this.2.2.2.2.2 (h3 hc)⟩
    | clock n =>
      simp only [step, clock_running]
      unfold clockStep
      cases hc : s.clock with
      | none => contradiction
      | test => cases hr : s.running <;> simp
      | work => by_cases hp : p = .windows ∨ tr = true <;> simp [hp]
      | sleep => simp
      | ended => simp [hc, h3 hc]
    | kbd n st =>
      simp only [step, kbd_clock]
      exact ⟨h2, fun hc => kbd_running _ _ _ _ (h3 hc)⟩

theorem alive_run {p : Port} {tr : Bool} : ∀ (os : List Op) (s : Sys), (p = .linux ∨ Started s ∨ NoClock os) → Alive p s → Alive p (run p tr s os)
  | [], _, _, h => h
  | o :: os, s, hp, h => by
    refine alive_run os _ ?_ (alive_step (hp.imp_right fun h => h.imp_right fun h => h o (List.mem_cons_self ..)) h)
    rcases hp with hp | hp | hp
    · exact .inl hp
    · exact .inr (.inl (started_step hp o))
    · exact .inr (.inr fun o' ho => hp o' (List.mem_cons_of_mem _ ho))

/-- **C156.** On Linux with the trace of the timer module enabled, and on Windows if the thread of the clock does not come to run before the
framework has reached its loop: as long as the framework has not been stopped, every three steps of the thread of the clock are a tick.

Missing from the full property (`windows_clock_may_end`, `linux_no_ticks_without_timer_trace`): the other cases. -/
theorem clock_runs_partial (p : Port) (tr : Bool) (hp : p = .windows ∨ tr = true) (n : Nat) (pre os : List Op) (hpre : p = .linux ∨ NoClock pre)
    (hs : Started (run p tr (init p n) pre)) (hr : (run p tr (init p n) (pre ++ os)).running = true) :
    (run p tr (init p n) pre).ticks + clockSteps os / 3 ≤ (run p tr (init p n) (pre ++ os)).ticks := by
  have ha : Alive p (run p tr (init p n) pre) := alive_run pre _ (hpre.imp_right .inr) (.inl ⟨rfl, rfl, rfl⟩)
  rw [run_append] at hr ⊢
  have h1 : (run p tr (init p n) pre).clock ≠ .none ∧ (run p tr (init p n) pre).clock ≠ .ended := by
    rcases ha with ⟨h, _⟩ | ⟨h, _⟩ | ⟨h, _⟩ | ⟨_, h1, h2⟩
    · exact absurd h hs.1
    · exact absurd h hs.2
    · exact absurd h hs.2
    · refine ⟨h1, fun hc => ?_⟩
      rw [stopped_run hs (h2 hc) os] at hr
      cases hr
  have := clock_law hp os _ hs h1.1 h1.2 hr
  have hph : phase (run p tr (run p tr (init p n) pre) os).clock ≤ 2 := by cases (run p tr (run p tr (init p n) pre) os).clock <;> decide
  omega

/-- On Windows, whatever the application: there is a beginning after which the framework runs and no tick ever takes place. -/
theorem windows_clock_may_end (tr : Bool) (n : Nat) : ∃ pre, (run .windows tr (init .windows n) pre).running = true ∧ Started (run .windows tr (init .windows n) pre) ∧
    ∀ os, (run .windows tr (init .windows n) (pre ++ os)).ticks = 0 := by
  refine ⟨[.main 0 false, .clock 0, .main 0 false], rfl, ⟨by simp [run, step, mainStep, init, clockStep, Sys.create], by simp [run, step, mainStep, init, clockStep, Sys.create]⟩, fun os => ?_⟩
  rw [run_append]
  refine (run_inv (I := fun s => Started s ∧ s.clock = .ended ∧ s.ticks = 0) ?_ os _ ⟨⟨by simp [run, step, mainStep, init, clockStep, Sys.create], by simp [run, step, mainStep, init, clockStep, Sys.create]⟩, rfl, rfl⟩).2.2
  rintro s o ⟨h1, h2, h3⟩
  refine ⟨started_step h1 o, ?_⟩
  cases o with
  | main n e =>
    have := main_cases (p := .windows) (n := n) (b := e) h1
    exact ⟨this.1.trans h2, this.2.2.1.trans h3⟩
  | clock n => simp [step, clockStep, h2, h3]
  | kbd n st => exact ⟨(kbd_clock ..).trans h2, (kbd_ticks ..).trans h3⟩

/-- On Linux, without the trace of the timer module no tick ever takes place. -/
theorem linux_no_ticks_without_timer_trace (n : Nat) (os : List Op) : (run .linux false (init .linux n) os).ticks = 0 := by
  refine run_inv (I := fun s => s.ticks = 0) ?_ os _ rfl
  intro s o h
  cases o with
  | main n e =>
    show (mainStep .linux n e s).ticks = 0
    rw [← h]
    unfold mainStep
    split <;> (try split) <;> first | rfl | simp
  | clock n =>
    show (clockStep .linux false n s).ticks = 0
    rw [← h]
    unfold clockStep
    split <;> (try split) <;> first | rfl | simp_all
  | kbd n st => exact (kbd_ticks ..).trans h

/-- Non-vacuity: the clock ticks twice. -/
example : (run .linux true (init .linux 0) ([.main 0 false, .main 0 false] ++ [.clock 0, .clock 1, .main 0 false, .clock 0, .clock 0, .clock 0, .clock 0])).ticks = 2 := by
  refine Nat.le_antisymm (by decide) ?_
  exact clock_runs_partial .linux true (.inr rfl) 0 [.main 0 false, .main 0 false] [.clock 0, .clock 1, .main 0 false, .clock 0, .clock 0, .clock 0, .clock 0] (.inl rfl) ⟨by decide, by decide⟩ rfl
example : (run .windows false (init .windows 0) ([.main 0 false, .main 0 false] ++ [.clock 0, .clock 1, .clock 0])).ticks = 1 := by
  refine Nat.le_antisymm (by decide) ?_
  exact clock_runs_partial .windows false (.inl rfl) 0 [.main 0 false, .main 0 false] [.clock 0, .clock 1, .clock 0] (.inr (by intro o ho n h; subst h; simp at ho)) ⟨by decide, by decide⟩ rfl

/-! ## Stopping -/

/-- Steps of the main thread until it returns. -/
def left : MPc → Nat
  | .check => 5
  | .work => 4
  | .wait => 4
  | .test => 3
  | .hook => 2
  | .destroy => 1
  | _ => 0

theorem clock_pend (p : Port) (tr : Bool) (n : Nat) (s : Sys) : s.pend ≤ (clockStep p tr n s).pend ∧ (0 < s.sig → 0 < (clockStep p tr n s).sig) := by
  unfold clockStep
  split <;> (try split) <;> first | exact ⟨Nat.le_refl _, id⟩ | exact ⟨Nat.le_add_right _ _, fun h => posts_sig p n s.use h⟩

theorem kbd_pend (p : Port) (n : Nat) (b : Bool) (s : Sys) : s.pend ≤ (kbdStep p n b s).pend ∧ (0 < s.sig → 0 < (kbdStep p n b s).sig) := by
  unfold kbdStep
  split <;> (try split) <;> (try split) <;>
    first | exact ⟨Nat.le_refl _, id⟩ | exact ⟨Nat.le_add_right _ _, fun h => posts_sig p n s h⟩ | exact ⟨Nat.le_add_right _ _, fun h => posts_sig p n s.use h⟩

theorem awake_mono {s t : Sys} (hm : t.main = s.main) (hp : s.pend ≤ t.pend) (hs : 0 < s.sig → 0 < t.sig) (h : ¬ FallsAsleep s) : ¬ FallsAsleep t := by
  rintro ⟨h1, h2⟩
  refine h ⟨?_, ?_⟩
  · rw [hm] at h1
    rcases h1 with h1 | h1
    · exact .inl h1
    · exact .inr ⟨h1.1, by omega⟩
  · rcases Nat.eq_zero_or_pos s.sig with h3 | h3
    · exact h3
    · have := hs h3; omega

/-- A stopped main thread that is not asleep goes on to its end. -/
theorem main_ends {p : Port} {n : Nat} {b : Bool} {s : Sys} (h : Started s) (hr : s.running = false) (ha : ¬ FallsAsleep s) :
    ¬ FallsAsleep (mainStep p n b s) ∧ left (mainStep p n b s).main ≤ left s.main - 1 := by
  unfold FallsAsleep at ha ⊢
  unfold mainStep
  cases hm : s.main with
  | first => exact absurd hm h.1
  | second => exact absurd hm h.2
  | test => simp [hr, left]
  | check =>
    by_cases hp : s.pend > 0
    · simp [hp, left]
    · have : 0 < s.sig := by
        rcases Nat.eq_zero_or_pos s.sig with h3 | h3
        · exact absurd ⟨.inr ⟨hm, by omega⟩, h3⟩ ha
        · exact h3
      simp [hp, left]; omega
  | work => cases b <;> simp [left]
  | wait =>
    have : 0 < s.sig := by
      rcases Nat.eq_zero_or_pos s.sig with h3 | h3
      · exact absurd ⟨.inl hm, h3⟩ ha
      · exact h3
    simp [this, left]
  | hook => simp [left]
  | destroy => simp [left]
  | returned => simp [left, hm]

theorem ends_run {p : Port} {tr : Bool} : ∀ (os : List Op) (s : Sys), Started s → s.running = false → ¬ FallsAsleep s → left (run p tr s os).main ≤ left s.main - mainSteps os
  | [], _, _, _, _ => Nat.le_refl _
  | o :: os, s, h, hr, ha => by
    rw [run_cons]
    have h1 := started_step (p := p) (tr := tr) h o
    have h2 := stopped_step (p := p) (tr := tr) h hr o
    cases o with
    | main n e =>
      have h3 := main_ends (p := p) (n := n) (b := e) h hr ha
      have := ends_run (p := p) (tr := tr) os _ h1 h2 h3.1
      have h4 : left (step p tr s (.main n e)).main ≤ left s.main - 1 := h3.2
      simp only [mainSteps]
      omega
    | clock n =>
      have h3 : (step p tr s (.clock n)).main = s.main := clock_main ..
      have := ends_run (p := p) (tr := tr) os _ h1 h2 (awake_mono h3 (clock_pend p tr n s).1 (clock_pend p tr n s).2 ha)
      rw [h3] at this
      exact this
    | kbd n st =>
      have h3 : (step p tr s (.kbd n st)).main = s.main := kbd_main ..
      have := ends_run (p := p) (tr := tr) os _ h1 h2 (awake_mono h3 (kbd_pend p n st s).1 (kbd_pend p n st s).2 ha)
      rw [h3] at this
      exact this

theorem left_zero {s : Sys} (h : Started s) (hl : left s.main = 0) : s.main = .returned := by
  unfold Started at h
  cases hm : s.main <;> simp_all [left]

/-- **C157.** Once the framework has been stopped (`rkhport_fwk_stop`, or `rkh_fwk_exit` on Windows) while the main thread was not about to
wait for a signal that is not set, `rkh_fwk_enter` returns within five steps of the main thread, whatever the other threads do.

Missing from the full property (`stopped_asleep_for_ever`, `stop_may_hang`): the main thread is asleep; `linux_exit_does_not_end`: on Linux
`rkh_fwk_exit` does not stop the framework. -/
theorem stop_ends_partial (p : Port) (tr : Bool) (n : Nat) (pre os : List Op) (hs : Started (run p tr (init p n) pre)) (hr : (run p tr (init p n) pre).running = false)
    (ha : ¬ FallsAsleep (run p tr (init p n) pre)) (ho : 5 ≤ mainSteps os) : (run p tr (init p n) (pre ++ os)).main = .returned := by
  rw [run_append]
  have h1 := ends_run (p := p) (tr := tr) os _ hs hr ha
  have h2 : left (run p tr (init p n) pre).main ≤ 5 := by cases (run p tr (init p n) pre).main <;> decide
  exact left_zero (started_run hs os) (by omega)

/-- A stopped framework that waits stays so if the other threads are not just about to post: they end too. -/
theorem stopped_asleep_for_ever (p : Port) (tr : Bool) (s : Sys) (hr : s.running = false) (hm : s.main = .wait) (hg : s.sig = 0) (hc : s.clock ≠ .work) (hk : s.kbd ≠ .key)
    (os : List Op) : (run p tr s os).main = .wait := by
  refine (run_inv (I := fun s => s.running = false ∧ s.main = .wait ∧ s.sig = 0 ∧ s.clock ≠ .work ∧ s.kbd ≠ .key) ?_ os s ⟨hr, hm, hg, hc, hk⟩).2.1
  rintro s o ⟨h1, h2, h3, h4, h5⟩
  cases o with
  | main n e => simp [step, mainStep, h1, h2, h3, h4, h5]
  | clock n =>
    simp only [step]
    unfold clockStep
    cases hc : s.clock <;> simp_all
  | kbd n st =>
    simp only [step]
    unfold kbdStep
    cases hc : s.kbd <;> simp_all

/-- On both ports there is an execution in which a key posts an event and stops the framework, after which `rkh_fwk_enter` never returns
and both other threads have ended or end: the main thread has processed the event before the framework was stopped. -/
theorem stop_may_hang (p : Port) : ∃ pre, (Op.kbd 1 true) ∈ pre ∧ (run p true (init p 0) pre).running = false ∧ (run p true (init p 0) pre).handled = 1 ∧
    ∀ os, (run p true (init p 0) (pre ++ os)).main = .wait := by
  cases p
  · refine ⟨[.main 0 false, .main 0 false, .kbd 0 false, .kbd 1 true, .main 0 false, .main 0 false, .main 0 false, .main 0 false, .main 0 false, .main 0 false, .main 0 false,
      .main 0 false, .kbd 0 false], by decide, by decide, by decide, fun os => ?_⟩
    rw [run_append]
    exact stopped_asleep_for_ever _ _ _ (by decide) (by decide) (by decide) (by decide) (by decide) os
  · refine ⟨[.main 0 false, .main 0 false, .kbd 0 false, .kbd 1 true, .main 0 false, .main 0 false, .main 0 false, .main 0 false, .main 0 false, .main 0 false, .main 0 false,
      .main 0 false, .kbd 0 false], by decide, by decide, by decide, fun os => ?_⟩
    rw [run_append]
    exact stopped_asleep_for_ever _ _ _ (by decide) (by decide) (by decide) (by decide) (by decide) os

/-- On Linux `rkh_fwk_exit` does not end the framework: unless a key calls `rkhport_fwk_stop`, `rkh_fwk_enter` does not return. -/
theorem linux_exit_does_not_end (tr : Bool) (n : Nat) (os : List Op) (h : NoStop os) : (run .linux tr (init .linux n) os).main ≠ .returned := by
  have key : ∀ (os : List Op) (s : Sys), NoStop os → (s.kbd ≠ .stop ∧ (s.main = .first ∨ s.running = true) ∧ s.main ≠ .hook ∧ s.main ≠ .destroy ∧ s.main ≠ .returned) →
      (run .linux tr s os).main ≠ .returned := by
    intro os
    induction os with
    | nil => intro s _ h; exact h.2.2.2.2
    | cons o os ih =>
      rintro s ho ⟨h1, h2, h3, h4, h5⟩
      refine ih _ (fun o' h' => ho o' (List.mem_cons_of_mem _ h')) ?_
      cases o with
      | main n e =>
        simp only [step]
        unfold mainStep
        cases hm : s.main with
        | first => simp [h1]
        | second => simp_all [Sys.create]
        | test => simp_all
        | check => by_cases hp : s.pend > 0 <;> simp_all
        | work => cases e <;> simp_all [Sys.exit]
        | wait => by_cases hp : s.sig > 0 <;> simp_all
        | hook => contradiction
        | destroy => contradiction
        | returned => contradiction
      | clock n => simp only [step, clock_kbd, clock_main, clock_running]; exact ⟨h1, h2, h3, h4, h5⟩
      | kbd n st =>
        have hst : st = false := by
          cases st with
          | false => rfl
          | true => exact absurd rfl (ho _ (List.mem_cons_self ..) n)
        simp only [step, kbd_main, kbd_running' _ _ _ _ h1]
        refine ⟨?_, h2, h3, h4, h5⟩
        unfold kbdStep
        subst hst
        split <;> (try split) <;> simp_all
  exact key os _ h ⟨by simp [init], .inl rfl, by simp [init], by simp [init], by simp [init]⟩

/-- On Windows an action that calls `rkh_fwk_exit` ends the framework: `rkh_fwk_enter` returns within three more steps of the main thread. -/
theorem windows_exit_ends (tr : Bool) (n k : Nat) (pre os : List Op) (hw : (run .windows tr (init .windows n) pre).main = .work) (ho : 3 ≤ mainSteps os) :
    (run .windows tr (init .windows n) (pre ++ .main k true :: os)).main = .returned := by
  rw [run_append, run_cons]
  generalize run .windows tr (init .windows n) pre = s at *
  have hm : (step .windows tr s (.main k true)).main = .test := by simp [step, mainStep, hw]
  have hr : (step .windows tr s (.main k true)).running = false := by simp [step, mainStep, hw, Sys.exit]
  have hs : Started (step .windows tr s (.main k true)) := by unfold Started; rw [hm]; exact ⟨by decide, by decide⟩
  have h1 := ends_run (p := .windows) (tr := tr) os _ hs hr (by unfold FallsAsleep; rw [hm]; simp)
  rw [hm] at h1
  have h3 : left MPc.test = 3 := rfl
  exact left_zero (started_run hs os) (by omega)

/-- Non-vacuity: the framework is stopped by a key while the main thread has an event to process. -/
example : (run .linux true (init .linux 1) ([.main 0 false, .main 0 false, .main 0 false, .kbd 0 false, .kbd 1 true, .kbd 0 false] ++
    [.main 0 false, .main 0 false, .clock 0, .main 0 false, .main 0 false, .main 0 false])).main = .returned :=
  stop_ends_partial .linux true 1 _ _ ⟨by decide, by decide⟩ (by decide) (by unfold FallsAsleep; decide) (by decide)
example : (run .windows true (init .windows 1) ([.main 0 false, .main 0 false, .main 0 false, .main 0 false] ++ .main 0 true :: [.main 0 false, .clock 0, .main 0 false, .main 0 false])).main = .returned :=
  windows_exit_ends true 1 0 _ _ (by decide) (by decide)

/-! ## After the end -/

/-- What holds of every execution: signal and critical section are destroyed in the last step only, and the framework is stopped by then. -/
def Sound (s : Sys) : Prop :=
  (s.destroyed = true ↔ s.main = .returned) ∧ (s.main = .hook ∨ s.main = .destroy ∨ s.main = .returned → s.running = false) ∧ (s.destroyed = false → s.bad = false)

theorem sound_step {p : Port} {tr : Bool} {s : Sys} (h : Sound s) (o : Op) : Sound (step p tr s o) := by
  obtain ⟨h1, h2, h3⟩ := h
  unfold Sound
  cases o with
  | main n e =>
    simp only [step]
    unfold mainStep
    cases hm : s.main with
    | first => cases p <;> simp_all [Sys.create]
    | second => cases p <;> simp_all [Sys.create]
    | test => cases hr : s.running <;> simp_all
    | check => by_cases hp : s.pend > 0 <;> simp_all
    | work => cases e <;> simp_all
    | wait => by_cases hp : s.sig > 0 <;> simp_all
    | hook => simp_all
    | destroy => simp_all
    | returned => simp_all
  | clock n =>
    simp only [step, clock_main, clock_running, clock_destroyed]
    refine ⟨h1, h2, fun hd => ?_⟩
    have hb := h3 hd
    rw [← hb]
    unfold clockStep
    split <;> (try split) <;> first | rfl | simp [Sys.use, hd]
  | kbd n st =>
    simp only [step, kbd_main, kbd_destroyed]
    refine ⟨h1, fun hm => kbd_running _ _ _ _ (h2 hm), fun hd => ?_⟩
    have hb := h3 hd
    rw [← hb]
    unfold kbdStep
    split <;> (try split) <;> (try split) <;> first | rfl | simp [Sys.use, hd]

theorem sound_run (p : Port) (tr : Bool) (n : Nat) (os : List Op) : Sound (run p tr (init p n) os) :=
  run_inv (I := Sound) (fun _ o h => sound_step h o) os _ ⟨by simp [init], by simp [init], by simp [init]⟩

/-- **C158.** No thread uses a destroyed critical section while `rkh_fwk_enter` has not returned; nor afterwards if, at that moment, the
thread of the clock was not in a tick and the thread of the keyboard not waiting for a key.

Missing from the full property (`destroyed_section_is_used`): the other cases. -/
theorem nothing_destroyed_is_used_partial (p : Port) (tr : Bool) (n : Nat) (pre os : List Op) :
    ((run p tr (init p n) pre).main ≠ .returned → (run p tr (init p n) pre).bad = false) ∧
    ((run p tr (init p n) pre).main = .destroy → (run p tr (init p n) pre).clock ≠ .work → (run p tr (init p n) pre).kbd ≠ .key → (run p tr (init p n) (pre ++ os)).bad = false) := by
  have hs := sound_run p tr n pre
  refine ⟨fun h => ?_, fun hm hc hk => ?_⟩
  · refine hs.2.2 ?_
    cases hd : (run p tr (init p n) pre).destroyed with
    | false => rfl
    | true => exact absurd (hs.1.1 hd) h
  · rw [run_append]
    have hst : Started (run p tr (init p n) pre) := ⟨by rw [hm]; decide, by rw [hm]; decide⟩
    have hb : (run p tr (init p n) pre).bad = false := hs.2.2 (by
      cases hd : (run p tr (init p n) pre).destroyed with
      | false => rfl
      | true => have := hs.1.1 hd; rw [hm] at this; cases this)
    refine (run_inv (I := fun s => Started s ∧ s.running = false ∧ s.clock ≠ .work ∧ s.kbd ≠ .key ∧ s.bad = false) ?_ os _ ⟨hst, hs.2.1 (.inr (.inl hm)), hc, hk, hb⟩).2.2.2.2
    rintro s o ⟨h0, h1, h2, h3, h4⟩
    refine ⟨started_step h0 o, stopped_step h0 h1 o, ?_⟩
    cases o with
    | main n e =>
      obtain ⟨a1, a2, _, a4, _⟩ := main_cases (p := p) (n := n) (b := e) h0
      simp only [step]
      rw [a1, a2, a4]
      exact ⟨h2, h3, h4⟩
    | clock n =>
      simp only [step, clock_kbd]
      unfold clockStep
      cases hc : s.clock <;> simp_all
    | kbd n st =>
      simp only [step, kbd_clock]
      unfold kbdStep
      cases hc : s.kbd <;> simp_all

/-- On both ports a tick that is under way when the framework ends uses the destroyed critical section. -/
theorem destroyed_section_is_used (p : Port) : ∃ pre n, (run p true (init p 0) pre).main = .returned ∧ (run p true (init p 0) pre).bad = false ∧
    (run p true (init p 0) (pre ++ [.clock n])).bad = true := by
  cases p <;> exact ⟨[.main 0 false, .main 0 false, .clock 0, .kbd 0 false, .kbd 1 true, .kbd 0 false, .main 0 false, .main 0 false, .main 0 false], 0, by decide, by decide, by decide⟩

/-- On Windows, a key pressed after an action has ended the framework uses it too. -/
theorem late_key_uses_destroyed_section : ∃ pre, (run .windows true (init .windows 1) pre).main = .returned ∧ (run .windows true (init .windows 1) pre).bad = false ∧
    (run .windows true (init .windows 1) (pre ++ [.kbd 1 false])).bad = true :=
  ⟨[.main 0 false, .main 0 false, .kbd 0 false, .main 0 false, .main 0 false, .main 0 true, .main 0 false, .main 0 false, .main 0 false], by decide, by decide, by decide⟩

/-- Non-vacuity: the framework ends with the clock asleep, and nothing destroyed is used. -/
example : (run .linux true (init .linux 0) ([.main 0 false, .main 0 false, .clock 0, .clock 0, .kbd 0 false, .kbd 1 true, .kbd 0 false, .main 0 false, .main 0 false] ++
    [.main 0 false, .clock 0, .clock 5, .kbd 0 false, .kbd 1 true])).bad = false :=
  (nothing_destroyed_is_used_partial .linux true 0 _ _).2 (by decide) (by decide) (by decide)

/-! ## The exit hook -/

/-- What `rkh_hook_exit` has been called for. -/
theorem exits_law {p : Port} {tr : Bool} : ∀ (os : List Op) (s : Sys),
    (run p tr s os).exits + (if over s then 1 else 0) = s.exits + exitCalls p tr s os + (if over (run p tr s os) then 1 else 0)
  | [], _ => rfl
  | o :: os, s => by
    have ih := exits_law (p := p) (tr := tr) os (step p tr s o)
    have key : (step p tr s o).exits + (if over s then 1 else 0) = s.exits + (if s.main = .work ∧ (∃ n, o = .main n true) then 1 else 0) + (if over (step p tr s o) then 1 else 0) := by
      cases o with
      | main n e =>
        show (mainStep p n e s).exits + _ = _ + _ + (if over (mainStep p n e s) = true then 1 else 0)
        unfold mainStep over
        cases hm : s.main with
        | first => cases p <;> simp [over, hm, Sys.create]
        | second => cases p <;> simp [over, hm, Sys.create]
        | test => cases hr : s.running <;> simp [over, hm]
        | check => by_cases hp : s.pend > 0 <;> simp [over, hm, hp]
        | work => cases e <;> simp [over, hm]
        | wait => by_cases hp : s.sig > 0 <;> simp [over, hm, hp]
        | hook => simp [over, hm]
        | destroy => simp [over, hm]
        | returned => simp [over, hm]
      | clock n => simp [step, over]
      | kbd n st => simp [step, over]
    rw [run_cons]
    simp only [exitCalls]
    omega

/-- **C159.** If no action calls `rkh_fwk_exit`, `rkh_hook_exit` is called exactly once, just before `rkh_fwk_enter` returns.

Missing from the full property (`exit_hook_exact`, `exit_hook_called_twice`, `exit_hook_called_early`): actions that call `rkh_fwk_exit`. -/
theorem exit_hook_once_partial (p : Port) (tr : Bool) (n : Nat) (os : List Op) (h : NoExit os) :
    (run p tr (init p n) os).exits = if over (run p tr (init p n) os) then 1 else 0 := by
  have key : ∀ (os : List Op) (s : Sys), NoExit os → exitCalls p tr s os = 0 := by
    intro os
    induction os with
    | nil => intros; rfl
    | cons o os ih =>
      intro s ho
      simp only [exitCalls]
      rw [ih _ fun o' h' => ho o' (List.mem_cons_of_mem _ h'), if_neg]
      rintro ⟨_, k, hk⟩
      exact ho o (List.mem_cons_self ..) k hk
  have := exits_law (p := p) (tr := tr) os (init p n)
  rw [key os _ h] at this
  have h0 : over (init p n) = false := by simp [over, init]
  have h1 : (init p n).exits = 0 := rfl
  simp only [h0, h1] at this
  simpa using this

/-- Exactly: `rkh_hook_exit` is called once for every call of `rkh_fwk_exit` and once before `rkh_fwk_enter` returns. -/
theorem exit_hook_exact (p : Port) (tr : Bool) (n : Nat) (os : List Op) :
    (run p tr (init p n) os).exits = exitCalls p tr (init p n) os + if over (run p tr (init p n) os) then 1 else 0 := by
  have := exits_law (p := p) (tr := tr) os (init p n)
  have h0 : over (init p n) = false := by simp [over, init]
  have h1 : (init p n).exits = 0 := rfl
  simp only [h0, h1] at this
  simpa using this

/-- On Windows an action that ends the framework makes the hook be called twice. -/
theorem exit_hook_called_twice : ∃ os, (run .windows true (init .windows 1) os).main = .returned ∧ (run .windows true (init .windows 1) os).exits = 2 :=
  ⟨[.main 0 false, .main 0 false, .main 0 false, .main 0 false, .main 0 true, .main 0 false, .main 0 false, .main 0 false], by decide, by decide⟩

/-- On Linux the hook is called although the framework goes on and processes the next event. -/
theorem exit_hook_called_early : ∃ os, (run .linux true (init .linux 2) os).running = true ∧ (run .linux true (init .linux 2) os).handled = 2 ∧
    (run .linux true (init .linux 2) os).exits = 1 :=
  ⟨[.main 0 false, .main 0 false, .main 0 false, .main 0 false, .main 0 true, .main 0 false, .main 0 false, .main 0 false], by decide, by decide, by decide⟩

/-- Non-vacuity. -/
example : (run .linux true (init .linux 0) [.main 0 false, .main 0 false, .kbd 0 false, .kbd 1 true, .kbd 0 false, .main 0 false, .main 0 false, .main 0 false]).exits = 1 := by
  rw [exit_hook_once_partial _ _ _ _ (by intro o ho n h; subst h; simp at ho)]
  decide

end Verif.Life
