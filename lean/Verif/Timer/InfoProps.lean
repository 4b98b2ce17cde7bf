import Verif.Timer.Info
/-
C138, C139: the performance counters of the timers.
-/
namespace Verif.Timer
open Verif

namespace Spec

/-- Number of requests to start timer `t`. -/
def starts (t : Nat) (l : List OpI) : Nat := l.countP fun | .op (.start u _ _ _) => u == t | _ => false

/-- Number of requests to stop timer `t`. -/
def stops (t : Nat) (l : List OpI) : Nat := l.countP fun | .op (.stop u) => u == t | _ => false

/-- Number of expirations of timer `t`: events posted for it by ticks. -/
def expirations (t : Nat) : List OutI → Nat
  | [] => 0
  | .out (.posts ps) :: l => ps.countP (fun p => p.tmr == t) + expirations t l
  | _ :: l => expirations t l

/-- What the counters of timer `t` ought to report after the calls `l`, which gave `outs`, since they were cleared: 16 bits each. -/
def counted (t : Nat) (l : List OpI) (outs : List OutI) : TInfo :=
  ⟨expirations t outs % 65536, starts t l % 65536, stops t l % 65536⟩

/-- No call in `l` clears the counters of timer `t`. -/
def NotCleared (t : Nat) (l : List OpI) : Prop := OpI.clearInfo t ∉ l

/-- The timer calls of a history, without those of the counters. -/
def timerCalls : List OpI → List Op
  | [] => []
  | .op o :: l => o :: timerCalls l
  | _ :: l => timerCalls l

/-- The results of the timer calls of a history. -/
def timerOuts : List OutI → List Out
  | [] => []
  | .out o :: l => o :: timerOuts l
  | _ :: l => timerOuts l

/-- The timer calls alone, in a program without counters. -/
def runPlain (c : Cfg) : St → List Op → Res (St × List Out)
  | s, [] => .ok (s, [])
  | s, o :: l => (step c s o).bind fun r => (runPlain c r.1 l).bind fun q => .ok (q.1, r.2 :: q.2)

end Spec
open Spec

theorem runI_cons_ok {c : Cfg} {x : StI} {o : OpI} {l : List OpI} {r : StI × List OutI} (h : runI c x (o :: l) = .ok r) :
    ∃ y q, stepI c x o = .ok y ∧ runI c y.1 l = .ok q ∧ r = (q.1, y.2 :: q.2) := by
  simp only [runI] at h
  cases hs : stepI c x o with
  | ok y =>
    rw [hs] at h
    simp only [Res.bind] at h
    cases hr : runI c y.1 l with
    | ok q => rw [hr] at h; simp only [Res.ok.injEq] at h; exact ⟨y, q, rfl, hr, h.symm⟩
    | assert => rw [hr] at h; cases h
    | ub => rw [hr] at h; cases h
  | assert => rw [hs] at h; cases h
  | ub => rw [hs] at h; cases h

theorem runI_append_ok {c : Cfg} : ∀ (l m : List OpI) {x : StI} {r : StI × List OutI}, runI c x (l ++ m) = .ok r →
    ∃ q p, runI c x l = .ok q ∧ runI c q.1 m = .ok p ∧ r = (p.1, q.2 ++ p.2) := by
  intro l
  induction l with
  | nil => intro m x r h; exact ⟨(x, []), r, rfl, h, rfl⟩
  | cons o l ih =>
    intro m x r h
    obtain ⟨y, q, h1, h2, h3⟩ := runI_cons_ok h
    obtain ⟨q', p, h4, h5, h6⟩ := ih m h2
    refine ⟨(q'.1, y.2 :: q'.2), p, ?_, h5, ?_⟩
    · simp only [runI, h1, Res.bind, h4]
    · rw [h3, h6]; rfl

theorem stepI_info {c : Cfg} {x : StI} {o : OpI} {y : StI × OutI} (h : stepI c x o = .ok y) (t : Nat) (hn : o ≠ .clearInfo t) :
    y.1.info t = x.info t := by
  cases o with
  | op o =>
    simp only [stepI] at h
    obtain ⟨a, _, rfl⟩ := Res.map'_eq_ok.1 h
    rfl
  | getInfo u => simp only [stepI, Res.ok.injEq] at h; rw [← h]
  | clearInfo u =>
    simp only [stepI, Res.ok.injEq] at h
    rw [← h]
    have : t ≠ u := fun e => hn (e ▸ rfl)
    simp [clearInfo, this]

theorem runI_info {c : Cfg} (t : Nat) : ∀ (l : List OpI) {x : StI} {r : StI × List OutI}, runI c x l = .ok r → NotCleared t l →
    r.1.info t = x.info t := by
  intro l
  induction l with
  | nil => intro x r h _; simp only [runI, Res.ok.injEq] at h; rw [← h]
  | cons o l ih =>
    intro x r h hn
    obtain ⟨y, q, h1, h2, h3⟩ := runI_cons_ok h
    have ho : o ≠ .clearInfo t := fun e => hn (e ▸ List.mem_cons_self ..)
    have hl : NotCleared t l := fun e => hn (List.mem_cons_of_mem _ e)
    rw [h3, show (q.1, y.2 :: q.2).1 = q.1 from rfl, ih h2 hl, stepI_info h1 t ho]

theorem runI_info_zero {c : Cfg} (t : Nat) : ∀ (l : List OpI) {x : StI} {r : StI × List OutI}, runI c x l = .ok r →
    x.info t = ⟨0, 0, 0⟩ → r.1.info t = ⟨0, 0, 0⟩ := by
  intro l
  induction l with
  | nil => intro x r h hz; simp only [runI, Res.ok.injEq] at h; rw [← h]; exact hz
  | cons o l ih =>
    intro x r h hz
    obtain ⟨y, q, h1, h2, h3⟩ := runI_cons_ok h
    rw [h3]
    show q.1.info t = _
    refine ih h2 ?_
    by_cases ho : o = .clearInfo t
    · subst ho; simp only [stepI, Res.ok.injEq] at h1; rw [← h1]; simp [clearInfo]
    · rw [stepI_info h1 t ho]; exact hz

/-! ## C139 -/

/-- **C139** Once cleared, the counters of a timer report zero for ever: whatever timers are initialised, started, stopped or expire. -/
theorem timer_counters_stay_zero {c : Cfg} {x : StI} (h rest : List OpI) (t : Nat) {r : StI × List OutI}
    (hr : runI c x (h ++ .clearInfo t :: rest) = .ok r) : getInfo r.1 t = ⟨0, 0, 0⟩ := by
  obtain ⟨q, p, _, h2, rfl⟩ := runI_append_ok _ _ hr
  obtain ⟨y, q', h3, h4, rfl⟩ := runI_cons_ok h2
  show q'.1.info t = _
  refine runI_info_zero t rest h4 ?_
  simp only [stepI, Res.ok.injEq] at h3
  rw [← h3]; simp [clearInfo]

/-- **C139** Until its counters are cleared, a timer reports whatever its structure held before it was initialised. -/
theorem timer_counters_initially_garbage {c : Cfg} {x : StI} (l : List OpI) (t : Nat) (hn : NotCleared t l) {r : StI × List OutI}
    (hr : runI c x l = .ok r) : getInfo r.1 t = x.info t := runI_info t l hr hn

/-- **C139** Reading and clearing counters does not disturb the timers: the timer calls of a history return and post exactly what they
do in a program that never touches the counters, and leave the timers as it does. -/
theorem counter_calls_do_not_disturb {c : Cfg} : ∀ (l : List OpI) {x : StI} {r : StI × List OutI}, runI c x l = .ok r →
    runPlain c x.s (timerCalls l) = .ok (r.1.s, timerOuts r.2) := by
  intro l
  induction l with
  | nil => intro x r h; simp only [runI, Res.ok.injEq] at h; rw [← h]; rfl
  | cons o l ih =>
    intro x r h
    obtain ⟨y, q, h1, h2, rfl⟩ := runI_cons_ok h
    have hi := ih h2
    cases o with
    | op o =>
      simp only [stepI] at h1
      obtain ⟨a, ha, rfl⟩ := Res.map'_eq_ok.1 h1
      simp only [timerCalls, runPlain, ha, Res.bind, timerOuts]
      rw [hi]
    | getInfo u => simp only [stepI, Res.ok.injEq] at h1; rw [← h1] at hi ⊢; exact hi
    | clearInfo u => simp only [stepI, Res.ok.injEq] at h1; rw [← h1] at hi ⊢; exact hi

/-- Conversely, the counter calls never make a program fail. -/
theorem counter_calls_never_fail {c : Cfg} : ∀ (l : List OpI) {x : StI} {s' : St} {os : List Out},
    runPlain c x.s (timerCalls l) = .ok (s', os) → ∃ r, runI c x l = .ok r ∧ r.1.s = s' ∧ timerOuts r.2 = os := by
  intro l
  induction l with
  | nil => intro x s' os h; simp only [timerCalls, runPlain, Res.ok.injEq, Prod.mk.injEq] at h; exact ⟨(x, []), rfl, h.1, h.2⟩
  | cons o l ih =>
    intro x s' os h
    cases o with
    | op o =>
      simp only [timerCalls, runPlain] at h
      cases hs : step c x.s o with
      | ok a =>
        rw [hs] at h; simp only [Res.bind] at h
        cases hq : runPlain c a.1 (timerCalls l) with
        | ok q =>
          rw [hq] at h; simp only [Res.ok.injEq, Prod.mk.injEq] at h
          obtain ⟨r, h1, h2, h3⟩ := ih (x := { x with s := a.1 }) (s' := q.1) (os := q.2) hq
          refine ⟨(r.1, .out a.2 :: r.2), ?_, h2.trans h.1, ?_⟩
          · simp only [runI, stepI, hs, Res.map', Res.bind, h1]
          · simp only [timerOuts, h3]; exact h.2
        | assert => rw [hq] at h; cases h
        | ub => rw [hq] at h; cases h
      | assert => rw [hs] at h; cases h
      | ub => rw [hs] at h; cases h
    | getInfo u =>
      obtain ⟨r, h1, h2, h3⟩ := ih (x := x) h
      exact ⟨(r.1, .info (getInfo x u) :: r.2), by simp only [runI, stepI, Res.bind, h1], h2, h3⟩
    | clearInfo u =>
      obtain ⟨r, h1, h2, h3⟩ := ih (x := clearInfo x u) h
      exact ⟨(r.1, .unit :: r.2), by simp only [runI, stepI, Res.bind, h1], h2, h3⟩

/-! ## C138 -/

/-- **C138** (part) The counters of a timer, cleared at some moment, report the numbers of its expirations and of the requests to start
and stop it since then exactly when these numbers are all zero (modulo 2^16). Missing: that they do so always, which is false. -/
theorem timer_counters_count_partial {c : Cfg} {x : StI} (h rest : List OpI) (t : Nat) {q r : StI × List OutI}
    (hq : runI c x (h ++ [.clearInfo t]) = .ok q) (hr : runI c q.1 rest = .ok r) :
    getInfo r.1 t = counted t rest r.2 ↔ counted t rest r.2 = ⟨0, 0, 0⟩ := by
  obtain ⟨a, p, _, h2, rfl⟩ := runI_append_ok _ _ hq
  have hz : (p.1 : StI).info t = ⟨0, 0, 0⟩ := by
    simp only [runI, stepI, Res.bind, Res.ok.injEq] at h2
    rw [← h2]; simp [clearInfo]
  have hg : getInfo r.1 t = ⟨0, 0, 0⟩ := runI_info_zero t rest hr hz
  rw [hg]
  exact ⟨fun e => e.symm, fun e => e.symm⟩

/-- The demo: a one-shot timer of two ticks, which expires. -/
def infoDemo : List OpI := [.op (.start 1 5 2 0), .op .tick, .op .tick, .op (.stop 1)]

/-- The demo, after initialising the timer and clearing its counters. -/
def infoRun : Res (StI × List OutI) :=
  runI ⟨256, true, 100⟩ ⟨moduleInit fun _ => ⟨0, 0, 0, 0, 0, 0⟩, fun _ => ⟨7, 7, 7⟩⟩ ([.op (.init 1 11), .clearInfo 1] ++ infoDemo ++ [.getInfo 1])

/-- **C138** fails: a timer whose counters were cleared is started, expires and is stopped, and still reports no expiration, no start
and no stop. -/
theorem timer_counters_do_not_count :
    ∃ r, infoRun = .ok r ∧ r.2 = [.out .unit, .unit, .out .unit, .out (.posts []), .out (.posts [⟨1, 5, 11⟩]), .out (.bool false), .info ⟨0, 0, 0⟩] ∧
      counted 1 infoDemo r.2 = ⟨1, 1, 1⟩ := by
  refine ⟨_, rfl, ?_, ?_⟩ <;> decide +kernel

/-- The hypotheses of the theorems above are met: the demo runs, and the timer is started and expires. -/
example : ∃ r, runI ⟨256, true, 100⟩ ⟨moduleInit fun _ => ⟨0, 0, 0, 0, 0, 0⟩, fun _ => ⟨7, 7, 7⟩⟩
    ([.op (.init 1 11)] ++ .clearInfo 1 :: infoDemo) = .ok r ∧ getInfo r.1 1 = ⟨0, 0, 0⟩ ∧ getInfo r.1 2 = ⟨7, 7, 7⟩ := by
  refine ⟨_, rfl, ?_, ?_⟩ <;> decide +kernel

end Verif.Timer
