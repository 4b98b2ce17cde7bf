import Verif.Port.Ports
/-
Properties of the ports.
-/
namespace Verif.Port
open Verif

/-! ### Critical sections -/

/-- A program used below: two nested sections with work in both, an interrupt handler with a nested section of its own
requested before every step. -/
def handler : Code :=
  .sec .done .done .done .done (.work (.sec .done .done .done .done (.work .done) .done .done .done .done .done))
    .done .done .done .done .done

/-- See `handler`. -/
def program : Code :=
  .irq handler (.sec handler handler handler handler
    (.work (.irq handler (.sec handler handler handler handler (.work .done) handler handler handler handler (.work .done))))
    handler handler handler handler .done)

theorem program_fits : Fits 2 0 program := by simp [program, handler, Fits]

theorem fits_mono {a b : Nat} (h : a ≤ b) (c : Code) : ∀ d, Fits a d c → Fits b d c := by
  induction c with
  | done => intro d _; trivial
  | work k ih => intro d hf; exact ⟨hf.1, ih d hf.2⟩
  | irq h k ih1 ih2 => intro d hf; exact ⟨ih1 0 hf.1, ih2 d hf.2⟩
  | sec i0 i1 i2 i3 body j0 j1 j2 j3 k a0 a1 a2 a3 ab b0 b1 b2 b3 ak =>
    intro d ⟨h1, ⟨f0, f1, f2, f3⟩, fb, ⟨g0, g1, g2, g3⟩, fk⟩
    exact ⟨by omega, ⟨a0 0 f0, a1 0 f1, a2 0 f2, a3 0 f3⟩, ab _ fb, ⟨b0 0 g0, b1 0 g1, b2 0 g2, b3 0 g3⟩, ak d fk⟩

/-- Cortex-M4F for STM32: whatever interrupts arrive, and whether the service was called with interrupts enabled or disabled,
all sections are protected and the status is preserved. -/
theorem stm32_critical_sections {on : Nat} (hon : on ≠ 0) (c : Code) (hf : Fits (2 ^ 32 - 1) 0 c) (m : Nat) :
    Protected on (run (stm32 on) c { bp := m, nesting := 0 }) ∧
      Preserved (stm32 on) { bp := m, nesting := 0 } (run (stm32 on) c { bp := m, nesting := 0 }) := by
  obtain ⟨s', lg, h1, h2, h3⟩ := good_run (stm32_good hon) c (by simp) 0 m { bp := m, nesting := 0 } hf ⟨rfl, by simp⟩
  exact ⟨⟨s', lg, h1, h3⟩, ⟨s', lg, h1, by rw [← h2]⟩⟩

example : Fits (2 ^ 32 - 1) 0 program := fits_mono (by omega) _ _ program_fits
example : run (stm32 80) program { bp := 0, nesting := 0 } =
    .ok ({ bp := 0, nesting := 0 }, List.replicate 11 80) := by decide +kernel

/-- uC/OS-III: the same, at any nesting depth. -/
theorem ucos_critical_sections {on : Nat} (hon : on ≠ 0) (lim : Nat) (c : Code) (hf : Fits lim 0 c) (m : Nat) :
    Protected on (run (ucos on) c m) ∧ Preserved (ucos on) m (run (ucos on) c m) := by
  obtain ⟨s', lg, h1, h2, h3⟩ := good_run (ucos_good hon lim) c (by simp) 0 m m hf (by simp)
  exact ⟨⟨s', lg, h1, h3⟩, ⟨s', lg, h1, by rw [← h2]⟩⟩

example : run (ucos 1) program 0 = .ok (0, List.replicate 15 1) := by decide +kernel

/-- S08: the same, up to a nesting depth of eight. -/
theorem s08_critical_sections {on : Nat} (hon : on ≠ 0) (c : Code) (hf : Fits 8 0 c) (m : Nat) (mem : List Nat)
    (hmem : mem.length = 8) :
    Protected on (run (s08 on) c { ccr := m, mem := mem, sp := 0 }) ∧
      Preserved (s08 on) { ccr := m, mem := mem, sp := 0 } (run (s08 on) c { ccr := m, mem := mem, sp := 0 }) := by
  obtain ⟨s', lg, h1, h2, h3⟩ := good_run (s08_good hon 8) c (by simp) 0 m { ccr := m, mem := mem, sp := 0 } hf
    ⟨rfl, hmem, by simp⟩
  exact ⟨⟨s', lg, h1, h3⟩, ⟨s', lg, h1, h2.1.symm⟩⟩

example : run (s08 8) program { ccr := 0, mem := [0, 0, 0, 0, 0, 0, 0, 0], sp := 0 } =
    .ok ({ ccr := 0, mem := [0, 8, 0, 0, 0, 0, 0, 0], sp := 0 }, List.replicate 11 8) := by decide +kernel

/-- Cortex-M0, -M3 and -M4F (CodeWarrior, CIAA): all sections are protected and the status preserved if the service is called
with interrupts enabled. Missing: called with interrupts disabled, see `armCnt_enables_interrupts`. -/
theorem armCnt_critical_sections_partial {on : Nat} (hon : on ≠ 0) (c : Code) (hf : Fits (2 ^ 32 - 1) 0 c) :
    Protected on (run (armCnt on) c { bp := 0, nesting := 0 }) ∧
      Preserved (armCnt on) { bp := 0, nesting := 0 } (run (armCnt on) c { bp := 0, nesting := 0 }) := by
  obtain ⟨s', lg, h1, h2, h3⟩ := good_run (armCnt_good hon) c (by simp) 0 0 { bp := 0, nesting := 0 } hf
    ⟨rfl, rfl, by simp⟩
  exact ⟨⟨s', lg, h1, h3⟩, ⟨s', lg, h1, by rw [← h2]⟩⟩

example : run (armCnt 80) program { bp := 0, nesting := 0 } =
    .ok ({ bp := 0, nesting := 0 }, List.replicate 9 80) := by decide +kernel

/-- A program with `n` sections, one after the other, without interrupts. -/
def sections : Nat → Code
  | 0 => .done
  | n + 1 => .sec .done .done .done .done (.work .done) .done .done .done .done (sections n)

theorem served_done {σ : Type} (p : Port σ) (s : σ) : served p (run p .done) s = .ok (s, []) := by
  unfold served run; split <;> rfl

theorem stepI_done {σ : Type} (p : Port σ) (f : σ → Loc → Res (σ × Loc)) (s : σ) (l : Loc) (lg : List Nat) {s2 : σ} {l2 : Loc}
    (h : f s l = .ok (s2, l2)) : stepI p (run p .done) f (s, l, lg) = .ok (s2, l2, lg) := by
  simp [stepI, served_done, h]

/-- One section without interrupts. -/
theorem armCnt_section (on m : Nat) (k : Code) :
    run (armCnt on) (.sec .done .done .done .done (.work .done) .done .done .done .done k) { bp := m, nesting := 0 } =
      (run (armCnt on) k { bp := 0, nesting := 0 }).bind fun q => .ok (q.1, on :: q.2) := by
  have w0 : stepI (armCnt on) (run (armCnt on) .done) (armCnt on).e0 ({ bp := m, nesting := 0 }, { a := 0, b := 0 }, []) =
      .ok ({ bp := on, nesting := 0 }, { a := 0, b := 0 }, []) := stepI_done _ _ _ _ _ rfl
  have w1 : stepI (armCnt on) (run (armCnt on) .done) (armCnt on).e1 ({ bp := on, nesting := 0 }, { a := 0, b := 0 }, []) =
      .ok ({ bp := on, nesting := 0 }, { a := 0, b := 0 }, []) := stepI_done _ _ _ _ _ rfl
  have w2 : stepI (armCnt on) (run (armCnt on) .done) (armCnt on).e2 ({ bp := on, nesting := 0 }, { a := 0, b := 0 }, []) =
      .ok ({ bp := on, nesting := 1 }, { a := 0, b := 0 }, []) := by
    refine stepI_done _ _ _ _ _ ?_
    show Res.ok (({ bp := on, nesting := (0 + 1) % 2 ^ 32 } : Cnt), _) = _
    rw [wrap_succ (by omega)]
  have w3 : stepI (armCnt on) (run (armCnt on) .done) (armCnt on).e3 ({ bp := on, nesting := 1 }, { a := 0, b := 0 }, []) =
      .ok ({ bp := on, nesting := 1 }, { a := 0, b := 0 }, []) := stepI_done _ _ _ _ _ rfl
  have b0 : run (armCnt on) (.work .done) { bp := on, nesting := 1 } = .ok ({ bp := on, nesting := 1 }, [on]) := rfl
  have v0 : stepI (armCnt on) (run (armCnt on) .done) (armCnt on).x0 ({ bp := on, nesting := 1 }, { a := 0, b := 0 }, [on]) =
      .ok ({ bp := on, nesting := 1 }, { a := 1, b := 0 }, [on]) := stepI_done _ _ _ _ _ rfl
  have v1 : stepI (armCnt on) (run (armCnt on) .done) (armCnt on).x1 ({ bp := on, nesting := 1 }, { a := 1, b := 0 }, [on]) =
      .ok ({ bp := on, nesting := 0 }, { a := 1, b := 0 }, [on]) := by
    refine stepI_done _ _ _ _ _ ?_
    show Res.ok (({ bp := on, nesting := (0 + 1 + (2 ^ 32 - 1)) % 2 ^ 32 } : Cnt), _) = _
    rw [wrap_pred (by omega)]
  have v2 : stepI (armCnt on) (run (armCnt on) .done) (armCnt on).x2 ({ bp := on, nesting := 0 }, { a := 1, b := 0 }, [on]) =
      .ok ({ bp := 0, nesting := 0 }, { a := 1, b := 0 }, [on]) := stepI_done _ _ _ _ _ rfl
  have v3 : stepI (armCnt on) (run (armCnt on) .done) (armCnt on).x3 ({ bp := 0, nesting := 0 }, { a := 1, b := 0 }, [on]) =
      .ok ({ bp := 0, nesting := 0 }, { a := 1, b := 0 }, [on]) := stepI_done _ _ _ _ _ rfl
  rw [run, w0, Res.bind'_ok, w1, Res.bind'_ok, w2, Res.bind'_ok, w3, Res.bind'_ok, b0, Res.bind'_ok, List.nil_append, v0,
    Res.bind'_ok, v1, Res.bind'_ok, v2, Res.bind'_ok, v3, Res.bind'_ok]
  rfl

/-- On these ports a service called with interrupts disabled, whatever the mask, returns with interrupts enabled. -/
theorem armCnt_enables_interrupts (on m n : Nat) :
    run (armCnt on) (sections (n + 1)) { bp := m, nesting := 0 } =
      .ok ({ bp := 0, nesting := 0 }, List.replicate (n + 1) on) := by
  induction n generalizing m with
  | zero => rw [sections, armCnt_section]; rfl
  | succ n ih =>
    rw [sections, armCnt_section, ih 0]
    simp [List.replicate_succ]

/-- `Preserved` fails for every mask other than "enabled". -/
theorem armCnt_status_not_preserved (on m n : Nat) (hm : m ≠ 0) :
    ¬ Preserved (armCnt on) { bp := m, nesting := 0 } (run (armCnt on) (sections (n + 1)) { bp := m, nesting := 0 }) := by
  rintro ⟨s', lg, h1, h2⟩
  rw [armCnt_enables_interrupts] at h1
  obtain ⟨rfl, rfl⟩ := Prod.mk.inj (Res.ok.inj h1)
  exact hm h2.symm

/-- ColdFire V1: sections are protected and the status is preserved if no interrupt arrives between the store of the counter
and the write of the mask. Missing: interrupts in that window, see `cfv1_handler_unprotected`. -/
theorem cfv1_critical_sections_partial {on : Nat} (hon : on ≠ 0) (c : Code) (hf : Fits (2 ^ 16 - 1) 0 c) (hw : NoWindow c)
    (m mem : Nat) :
    Protected on (run (cfv1 on) c { sr := m, cnt := 0, mem := mem }) ∧
      Preserved (cfv1 on) { sr := m, cnt := 0, mem := mem } (run (cfv1 on) c { sr := m, cnt := 0, mem := mem }) := by
  obtain ⟨s', lg, h1, h2, h3⟩ := good_run (cfv1_good hon) c (fun _ => hw) 0 m { sr := m, cnt := 0, mem := mem } hf
    ⟨rfl, by simp⟩
  exact ⟨⟨s', lg, h1, h3⟩, ⟨s', lg, h1, h2.1.symm⟩⟩

example : NoWindow (.irq handler (.sec handler handler .done .done (.work .done) handler handler handler handler .done)) := by
  simp [NoWindow, handler]

/-- A handler served in that window: its own sections are not protected, although it may itself be interrupted there. -/
theorem cfv1_handler_unprotected (on mem : Nat) :
    run (cfv1 on) (.sec .done .done handler .done (.work .done) .done .done .done .done .done)
      { sr := 0, cnt := 0, mem := mem } = .ok ({ sr := 0, cnt := 0, mem := 0 }, [0, 0, on]) := by
  by_cases h : on = 0 <;> simp [run, stepI, served, cfv1, nop, handler, h]

/-- `Protected` fails on the ColdFire port. -/
theorem cfv1_not_protected (on mem : Nat) (hon : on ≠ 0) :
    ∃ c, Fits 2 0 c ∧ ¬ Protected on (run (cfv1 on) c { sr := 0, cnt := 0, mem := mem }) := by
  refine ⟨.sec .done .done handler .done (.work .done) .done .done .done .done .done, by simp [Fits, handler], ?_⟩
  rintro ⟨s, lg, h1, h2⟩
  rw [cfv1_handler_unprotected] at h1
  obtain ⟨rfl, rfl⟩ := Prod.mk.inj (Res.ok.inj h1)
  exact hon (h2 0 (by simp)).symm

/-- `n` sections, one inside the other. -/
def nested : Nat → Code
  | 0 => .work .done
  | n + 1 => .sec .done .done .done .done (nested n) .done .done .done .done .done

/-- On the S08 a ninth nested section writes behind the array. -/
theorem s08_ninth_section_undefined (on : Nat) (c : Code) (k : Code) (ccr : Nat) (mem : List Nat) (hmem : mem.length = 8) :
    run (s08 on) (.sec .done .done .done .done c .done .done .done .done k) { ccr := ccr, mem := mem, sp := 8 } = .ub := by
  by_cases h : ccr = 0 <;> by_cases h' : on = 0 <;> simp [run, stepI, served, s08, h, h', hmem]

theorem nested_run (on : Nat) (n : Nat) : ∀ sp ccr mem, mem.length = 8 → sp + n = 9 →
    run (s08 on) (nested n) { ccr := ccr, mem := mem, sp := sp } = .ub ∨ n = 0 := by
  induction n with
  | zero => intros; exact .inr rfl
  | succ n ih =>
    intro sp ccr mem hm hs
    refine .inl ?_
    by_cases h8 : sp = 8
    · subst h8; exact s08_ninth_section_undefined on _ _ ccr mem hm
    · have h1 : sp < mem.length := by omega
      rcases ih (sp + 1) on (mem.set sp ccr) (by simp [hm]) (by omega) with h | h
      · by_cases h' : ccr = 0 <;> simp [nested, run, stepI, served, s08, h', h1] <;>
          (try subst h') <;> simp [s08] at h <;> simp [h]
      · omega

/-- Nine nested sections are undefined behaviour on the S08; eight are fine by `s08_critical_sections`. -/
theorem s08_nine_sections (on : Nat) (ccr : Nat) (mem : List Nat) (hmem : mem.length = 8) :
    run (s08 on) (nested 9) { ccr := ccr, mem := mem, sp := 0 } = .ub := by
  rcases nested_run on 9 0 ccr mem hmem rfl with h | h
  · exact h
  · cases h

example : Fits 8 0 (nested 8) := by simp [nested, Fits]

/-! ### Waiting for events -/

/-- The invariant of the loop. -/
theorem wait_inv (k : Kind) (os : List WOp) (s : Wt)
    (h : (s.pc = .wait → s.pend > 0 → s.sig > 0) ∧ (s.pc = .run → s.pend > 0)) :
    ((wrun k s os).pc = .wait → (wrun k s os).pend > 0 → (wrun k s os).sig > 0) ∧
      ((wrun k s os).pc = .run → (wrun k s os).pend > 0) := by
  induction os generalizing s with
  | nil => exact h
  | cons o os ih =>
    refine ih (wstep k s o) ?_
    obtain ⟨pend, sig, pc, hd⟩ := s
    cases o <;> cases k <;> cases pc <;> simp [wstep] at h ⊢ <;> (try split) <;> simp <;> omega

/-- No wake-up is lost: a thread that waits while an event is queued finds the signal set, for every interleaving of posts
with the steps of the thread. -/
theorem no_lost_wakeup (k : Kind) (os : List WOp) :
    (wrun k wt0 os).pc = .wait → (wrun k wt0 os).pend > 0 → (wrun k wt0 os).sig > 0 :=
  (wait_inv k os wt0 (by simp [wt0])).1

example : wrun .autoReset wt0 [.step, .post] = { pend := 1, sig := 1, pc := .wait, handled := 0 } := by decide

theorem wrun_append (k : Kind) (s : Wt) (a b : List WOp) : wrun k s (a ++ b) = wrun k (wrun k s a) b := by
  simp [wrun]

theorem drain_check (k : Kind) (n : Nat) (s : Wt) (hn : s.pend = n) (hp : s.pc = .check) :
    (wrun k s (List.replicate (2 * n) .step)).pend = 0 ∧
      (wrun k s (List.replicate (2 * n) .step)).handled = s.handled + n := by
  induction n generalizing s with
  | zero => exact ⟨hn, by simp [wrun]⟩
  | succ n ih =>
    obtain ⟨pend, sig, pc, hd⟩ := s
    simp only at hn hp; subst hn hp
    have h1 : wrun k { pend := n + 1, sig := sig, pc := .check, handled := hd } (List.replicate (2 * (n + 1)) .step) =
        wrun k { pend := n, sig := sig, pc := .check, handled := hd + 1 } (List.replicate (2 * n) .step) := by
      rw [show 2 * (n + 1) = 2 * n + 1 + 1 by omega, List.replicate_succ, List.replicate_succ]
      simp [wrun, wstep]
    rw [h1]
    have := ih { pend := n, sig := sig, pc := .check, handled := hd + 1 } rfl rfl
    exact ⟨this.1, by rw [this.2]; simp only; omega⟩

/-- Every event posted is processed: from any moment of any execution, if no more is posted, the thread processes all queued
events within two of its steps for each, and one more if it waits. -/
theorem all_events_processed (k : Kind) (os : List WOp) :
    ∃ t, t ≤ 2 * (wrun k wt0 os).pend + 1 ∧ (wrun k wt0 (os ++ List.replicate t .step)).pend = 0 ∧
      (wrun k wt0 (os ++ List.replicate t .step)).handled = (wrun k wt0 os).handled + (wrun k wt0 os).pend := by
  have hinv := wait_inv k os wt0 (by simp [wt0])
  simp only [wrun_append]
  generalize wrun k wt0 os = s at hinv ⊢
  obtain ⟨pend, sig, pc, hd⟩ := s
  cases pc with
  | check => exact ⟨2 * pend, by simp only; omega, drain_check k pend _ rfl rfl⟩
  | run =>
    have hp : pend > 0 := hinv.2 rfl
    obtain ⟨n, rfl⟩ : ∃ n, pend = n + 1 := ⟨pend - 1, by omega⟩
    refine ⟨2 * n + 1, by simp only; omega, ?_⟩
    have h := drain_check k n { pend := n, sig := sig, pc := .check, handled := hd + 1 } rfl rfl
    have h1 : wrun k { pend := n + 1, sig := sig, pc := .run, handled := hd } (List.replicate (2 * n + 1) .step) =
        wrun k { pend := n, sig := sig, pc := .check, handled := hd + 1 } (List.replicate (2 * n) .step) := by
      rw [List.replicate_succ]; simp [wrun, wstep]
    rw [h1]
    exact ⟨h.1, by rw [h.2]; simp only; omega⟩
  | wait =>
    by_cases hp : pend = 0
    · exact ⟨0, by omega, by simp [wrun, hp], by simp [wrun, hp]⟩
    · have hs : sig > 0 := hinv.1 rfl (by simp only; omega)
      refine ⟨2 * pend + 1, by simp only; omega, ?_⟩
      have h := drain_check k pend { pend := pend, sig := sig - 1, pc := .check, handled := hd } rfl rfl
      have h1 : wrun k { pend := pend, sig := sig, pc := .wait, handled := hd } (List.replicate (2 * pend + 1) .step) =
          wrun k { pend := pend, sig := sig - 1, pc := .check, handled := hd } (List.replicate (2 * pend) .step) := by
        rw [List.replicate_succ]; simp [wrun, wstep, hs]
      rw [h1]; exact h

example : (wrun .semaphore wt0 ([.step, .post, .post] ++ List.replicate 5 .step)).handled = 2 := by decide

/-- Nothing is invented or dropped: events processed and events queued add up to the events posted. -/
theorem processed_plus_queued (k : Kind) (os : List WOp) :
    (wrun k wt0 os).handled + (wrun k wt0 os).pend = os.count .post := by
  suffices h : ∀ s : Wt, (s.pc = .wait → s.pend > 0 → s.sig > 0) ∧ (s.pc = .run → s.pend > 0) →
      (wrun k s os).handled + (wrun k s os).pend = s.handled + s.pend + os.count .post by
    have := h wt0 (by simp [wt0]); simpa [wt0] using this
  induction os with
  | nil => intro s _; simp [wrun]
  | cons o os ih =>
    intro s hs
    have h1 := wait_inv k [o] s hs
    have h2 := ih (wstep k s o) h1
    have h3 : wrun k s (o :: os) = wrun k (wstep k s o) os := rfl
    rw [h3, h2]
    obtain ⟨pend, sig, pc, hd⟩ := s
    cases o with
    | post => simp [wstep]; omega
    | step =>
      cases pc with
      | run => have := hs.2 rfl; simp only at this; simp [wstep]; omega
      | check => simp only [wstep]; split <;> simp
      | wait => simp only [wstep]; split <;> simp

/-- A thread with nothing to do goes to sleep: without posts it waits after at most two steps for every signal left over and
two more, and then stays there. -/
theorem idle_thread_sleeps (k : Kind) (n : Nat) : ∀ s : Wt, s.pend = 0 → s.pc ≠ .run → s.sig = n →
    ∃ t, t ≤ 2 * n + 1 ∧ (wrun k s (List.replicate t .step)).pc = .wait ∧ (wrun k s (List.replicate t .step)).sig = 0 := by
  induction n with
  | zero =>
    intro s h1 h2 h3
    obtain ⟨pend, sig, pc, hd⟩ := s
    simp only at h1 h3; subst h1 h3
    cases pc with
    | check => exact ⟨1, by omega, by simp [wrun, wstep], by simp [wrun, wstep]⟩
    | run => exact absurd rfl h2
    | wait => exact ⟨0, by omega, rfl, rfl⟩
  | succ n ih =>
    intro s h1 h2 h3
    obtain ⟨pend, sig, pc, hd⟩ := s
    simp only at h1 h3; subst h1 h3
    obtain ⟨t, ht, h4, h5⟩ := ih { pend := 0, sig := n, pc := .check, handled := hd } rfl (by simp) rfl
    cases pc with
    | check =>
      refine ⟨t + 2, by omega, ?_⟩
      have : wrun k { pend := 0, sig := n + 1, pc := .check, handled := hd } (List.replicate (t + 2) .step) =
          wrun k { pend := 0, sig := n, pc := .check, handled := hd } (List.replicate t .step) := by
        rw [List.replicate_succ, List.replicate_succ]; simp [wrun, wstep]
      rw [this]; exact ⟨h4, h5⟩
    | run => exact absurd rfl h2
    | wait =>
      refine ⟨t + 1, by omega, ?_⟩
      have : wrun k { pend := 0, sig := n + 1, pc := .wait, handled := hd } (List.replicate (t + 1) .step) =
          wrun k { pend := 0, sig := n, pc := .check, handled := hd } (List.replicate t .step) := by
        rw [List.replicate_succ]; simp [wrun, wstep]
      rw [this]; exact ⟨h4, h5⟩

example : (wrun .semaphore { pend := 0, sig := 2, pc := .check, handled := 2 } (List.replicate 5 .step)).pc = .wait := by decide

/-! ### Threads of active objects -/

/-- No one terminates the object in this schedule. -/
def NoTerminate (l : List TOp) : Prop := TOp.terminate ∉ l

/-- An active object whose thread takes its first step after `rkh_sma_activate` has returned processes events until it is
terminated: its thread does not end and it stays registered. Missing: threads that start earlier, see
`win32mt_object_dies` and `ucos_object_dies`. -/
theorem object_lives_partial (os : Os) (l : List TOp) (hl : NoTerminate l) :
    (trun os thr0 (.create :: .assign :: l)).pc ≠ .ended ∧ (trun os thr0 (.create :: .assign :: l)).pc ≠ .faulted ∧
      (trun os thr0 (.create :: .assign :: l)).reg = true := by
  suffices h : ∀ s : Thr, s.flag = true → s.pc ≠ .notCreated ∧ s.pc ≠ .ended ∧ s.pc ≠ .faulted → s.reg = true →
      (trun os s l).pc ≠ .ended ∧ (trun os s l).pc ≠ .faulted ∧ (trun os s l).reg = true by
    cases os <;> exact h _ rfl (by simp [tstep, thr0]) rfl
  induction l with
  | nil => intro s _ h2 h3; exact ⟨h2.2.1, h2.2.2, h3⟩
  | cons o l ih =>
    intro s h1 h2 h3
    have hl' : NoTerminate l := fun h => hl (List.mem_cons_of_mem _ h)
    have ho : o ≠ .terminate := fun h => hl (h ▸ List.mem_cons_self ..)
    obtain ⟨flag, pend, pc, reg⟩ := s
    simp only at h1 h2 h3; subst h1 h3
    refine ih hl' (tstep os ⟨true, pend, pc, true⟩ o) ?_ ?_ ?_ <;> cases o <;> cases pc <;>
      simp [tstep] at h2 ho ⊢ <;> split <;> simp

example : trun .win32mt thr0 [.create, .assign, .post, .thread, .thread, .thread] =
    { flag := true, pend := 0, pc := .get, reg := true } := by decide

/-- A thread that has ended does nothing any more, whatever happens. -/
theorem ended_for_ever (os : Os) (l : List TOp) (s : Thr) (h : s.pc = .ended) :
    (trun os s l).pc = .ended ∧ (trun os s l).pend = s.pend + l.count .post ∧ (trun os s l).reg = s.reg := by
  induction l generalizing s with
  | nil => exact ⟨h, by simp [trun], rfl⟩
  | cons o l ih =>
    obtain ⟨flag, pend, pc, reg⟩ := s
    simp only at h; subst h
    have h1 : (tstep os ⟨flag, pend, .ended, reg⟩ o).pc = .ended ∧
        (tstep os ⟨flag, pend, .ended, reg⟩ o).reg = reg ∧
        (tstep os ⟨flag, pend, .ended, reg⟩ o).pend = pend + [o].count .post := by
      cases o <;> cases os <;> simp [tstep]
    have h2 := ih _ h1.1
    refine ⟨h2.1, ?_, h2.2.2.trans h1.2.1⟩
    show (trun os (tstep os ⟨flag, pend, .ended, reg⟩ o) l).pend = _
    rw [h2.2.1, h1.2.2]
    show _ = pend + (o :: l).count .post
    rw [show o :: l = [o] ++ l by rfl, List.count_append]
    omega

/-- Windows, one thread per object: if the initial action has queued an event and the new thread processes it before
`CreateThread` has returned, the thread ends, although nobody terminated the object; later events stay in its queue for
ever. -/
theorem win32mt_object_dies (l : List TOp) :
    let s := trun .win32mt thr0 ([.post, .create, .thread, .thread, .thread, .assign] ++ l)
    s.pc = .ended ∧ s.reg = false ∧ s.pend = l.count .post := by
  have h := ended_for_ever .win32mt l (trun .win32mt thr0 [.post, .create, .thread, .thread, .thread, .assign]) (by decide)
  intro s
  have hs : s = trun .win32mt (trun .win32mt thr0 [.post, .create, .thread, .thread, .thread, .assign]) l := by
    simp [s, trun]
  rw [hs]
  refine ⟨h.1, h.2.2.trans (by decide), h.2.1.trans ?_⟩
  rw [show (trun .win32mt thr0 [.post, .create, .thread, .thread, .thread, .assign]).pend = 0 by decide]
  omega

/-- uC/OS-III: if the new task runs before `rkh_sma_activate` has set `running`, it ends at once. -/
theorem ucos_object_dies (l : List TOp) :
    let s := trun .ucosiii thr0 ([.create, .thread, .assign] ++ l)
    s.pc = .ended ∧ s.reg = false ∧ s.pend = l.count .post := by
  have h := ended_for_ever .ucosiii l (trun .ucosiii thr0 [.create, .thread, .assign]) (by decide)
  intro s
  have hs : s = trun .ucosiii (trun .ucosiii thr0 [.create, .thread, .assign]) l := by simp [s, trun]
  rw [hs]
  refine ⟨h.1, h.2.2.trans (by decide), h.2.1.trans ?_⟩
  rw [show (trun .ucosiii thr0 [.create, .thread, .assign]).pend = 0 by decide]
  omega

/-- A terminated object ends after the event it is processing, without taking another one, and is unregistered. Missing from
C78: objects terminated while they wait, for which it is false (`ucos_terminated_while_waiting`). -/
theorem terminated_while_processing_partial (os : Os) (s : Thr) (h : s.pc = .busy) :
    trun os s [.terminate, .thread, .thread] = { s with flag := false, pc := .ended, reg := false } := by
  obtain ⟨flag, pend, pc, reg⟩ := s
  simp only at h; subst h
  cases os <;> rfl

/-- Windows: an object terminated while it waits goes on waiting, registered, until another event is posted. -/
theorem win32mt_terminated_while_waiting (s : Thr) (h : s.pc = .get) (hp : s.pend = 0) (n : Nat) :
    trun .win32mt s (.terminate :: List.replicate n .thread) = { s with flag := false } ∧
      trun .win32mt s (.terminate :: List.replicate n .thread ++ [.post, .thread, .thread, .thread]) =
        { s with flag := false, pc := .ended, reg := false } := by
  obtain ⟨flag, pend, pc, reg⟩ := s
  simp only at h hp; subst h hp
  have h1 : trun .win32mt ⟨flag, 0, .get, reg⟩ (.terminate :: List.replicate n .thread) = ⟨false, 0, .get, reg⟩ := by
    show trun .win32mt ⟨false, 0, .get, reg⟩ (List.replicate n .thread) = _
    induction n with
    | zero => rfl
    | succ n ih => rw [List.replicate_succ]; exact ih
  refine ⟨h1, ?_⟩
  have h2 : ∀ a b, trun .win32mt ⟨flag, 0, .get, reg⟩ (a ++ b) = trun .win32mt (trun .win32mt ⟨flag, 0, .get, reg⟩ a) b := by
    intro a b; simp [trun]
  rw [h2, h1]; rfl

example : (trun .win32mt thr0 [.create, .assign]).pc = .get ∧ (trun .win32mt thr0 [.create, .assign]).pend = 0 := by decide

/-- uC/OS-III: terminating an object that waits for an event is an assertion failure in its thread. -/
theorem ucos_terminated_while_waiting (s : Thr) (h : s.pc = .get) : (trun .ucosiii s [.terminate]).pc = .faulted := by
  simp [trun, tstep, h]

example : (trun .ucosiii thr0 [.create, .assign, .thread]).pc = .get := by decide

end Verif.Port
