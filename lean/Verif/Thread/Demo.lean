import Verif.Thread.Life
import Verif.Fwk.Demo
/-
Concrete histories of threads: the hypotheses of the theorems about threads are met, and the two ways in which the full statements of
C77 and C78 fail do happen, in both kinds of port.
-/
namespace Verif.Thread.Demo
open Verif
open Verif.Thread.Spec (calls results CallsLegal dispatched)

/-- The demo configuration of the framework; `b` selects the kind of port. -/
def cfg (b : Bool) : Cfg := ⟨Fwk.Demo.cfg, b⟩

/-- Outcome of a history. -/
def run (b : Bool) (ops : List Op) : List Out × Res St := runOps (step (cfg b)) (init (cfg b) Fwk.Demo.slots Fwk.Demo.hdr) ops

/-- Results. -/
def outs (b : Bool) (ops : List Op) : List Out := (run b ops).1

/-- Final state. -/
def st (b : Bool) (ops : List Op) : St :=
  match (run b ops).2 with
  | .ok s => s
  | _ => init (cfg b) Fwk.Demo.slots Fwk.Demo.hdr

/-- Results of a continuation. -/
def more (b : Bool) (ops ops2 : List Op) : List Out := (runOps (step (cfg b)) (st b ops) ops2).1

/-- The history goes through and its clients respect the contract. -/
def good (b : Bool) (ops : List Op) : Bool :=
  (match (run b ops).2 with | .ok _ => true | _ => false) && (Fwk.Demo.res (calls (outs b ops))).isSome

theorem legal_calls {cf : Fwk.Cfg} : ∀ (ops : List Fwk.Op) (a : Fwk.Spec.Abs), Fwk.Spec.LegalRun cf a ops → CallsLegal cf a ops := by
  intro ops
  induction ops with
  | nil => intro a _; trivial
  | cons op ops ih => intro a h; exact ⟨Or.inr h.1, fun a' o hs => ih a' (h.2 a' o hs)⟩

theorem run_eq {b : Bool} {ops : List Op} (h : good b ops = true) : run b ops = (outs b ops, .ok (st b ops)) := by
  simp only [good, Bool.and_eq_true] at h
  have h1 := h.1
  split at h1
  · rename_i s hs
    refine Prod.ext rfl ?_
    simp only [st, hs]
  · cases h1

theorem mk {b : Bool} {ops : List Op} (h : good b ops = true) :
    Run (cfg b) Fwk.Demo.slots Fwk.Demo.hdr ops (outs b ops) (st b ops) := by
  refine ⟨Fwk.Demo.env, ?_, run_eq h⟩
  simp only [good, Bool.and_eq_true] at h
  obtain ⟨r, hr⟩ := Option.isSome_iff_exists.mp h.2
  exact legal_calls _ _ (Fwk.Demo.check_ok hr).1

theorem mk2 {b : Bool} {ops ops2 : List Op} (h : good b ops = true) (h2 : good b (ops ++ ops2) = true) :
    Run (cfg b) Fwk.Demo.slots Fwk.Demo.hdr (ops ++ ops2) (outs b ops ++ more b ops ops2) (st b (ops ++ ops2)) := by
  have happ := runOps_append_ok (f := step (cfg b)) ops ops2 (init (cfg b) Fwk.Demo.slots Fwk.Demo.hdr) (st b ops) (by
    have := run_eq h; unfold run at this; rw [this])
  have e : outs b (ops ++ ops2) = outs b ops ++ more b ops ops2 := by
    unfold outs run more; exact happ.1
  rw [← e]; exact mk h2

/-- An object of priority 3 is activated and its thread goes to sleep; a second object of priority 1 is activated. -/
def start : List Op :=
  [.activate 3 [0, 0] 2, .create 0, .create 0, .create 0, .thread 0, .thread 0, .activate 1 [0, 0, 0] 3, .create 1, .create 1,
   .thread 1, .create 1]

/-- Events are posted to both by an interrupt; the first thread wakes up and processes its event. -/
def work : List Op := start ++ [.call (.postFifo 0 900), .call (.postFifo 1 901), .call (.postFifo 0 901), .thread 0]

/-- Both threads process everything. -/
def rest : List Op := [.thread 0, .thread 1, .thread 1, .thread 0, .thread 0, .thread 0, .thread 1, .thread 0]

/-- C117, C118: with a sleeping thread for which events are queued (hypotheses of `no_lost_wakeup`, `thread_processes_in_order`), and one
that was woken (hypotheses of `thread_takes_front` and `waiting_event_is_dispatched`). -/
example : Run (cfg false) Fwk.Demo.slots Fwk.Demo.hdr work (outs false work) (st false work) ∧
    ((st false work).thr 0).pc = .woke ∧ ((st false work).thr 1).pc = .wait ∧ ((st false work).thr 1).sig = true ∧
    (∃ x, (st false work).w.aos[1]? = some x ∧ Fwk.Obs.contents x.q = [901]) ∧
    (∃ x, (st false work).w.aos[0]? = some x ∧ Fwk.Obs.contents x.q = [900, 901]) ∧
    Goes ((st false work).thr 0) ∧ Goes ((st false work).thr 1) :=
  ⟨mk (by decide +kernel), by decide +kernel, by decide +kernel, by decide +kernel,
    ⟨_, rfl, by decide +kernel⟩, ⟨_, rfl, by decide +kernel⟩, ⟨⟨by decide +kernel, by decide +kernel⟩, Or.inl (by decide +kernel)⟩,
    ⟨⟨by decide +kernel, by decide +kernel⟩, Or.inl (by decide +kernel)⟩⟩

/-- C118: and the events are dispatched in the continuation. -/
example : Run (cfg false) Fwk.Demo.slots Fwk.Demo.hdr (work ++ rest) (outs false work ++ more false work rest) (st false (work ++ rest)) ∧
    .terminate 0 ∉ rest ∧ need ((st false work).thr 0).pc ≤ rest.countP (isThread 0) ∧
    need ((st false work).thr 1).pc ≤ rest.countP (isThread 1) ∧
    dispatched 0 (more false work rest) = [900, 901] ∧ dispatched 1 (more false work rest) = [901] :=
  ⟨mk2 (by decide +kernel) (by decide +kernel), by simp [rest], by decide +kernel, by decide +kernel, by decide +kernel,
    by decide +kernel⟩

/-- C118: hypotheses of `idle_thread_sleeps`, with a wake-up left over: the event was posted before the thread looked. -/
def early : List Op := [.activate 3 [0, 0] 2, .create 0, .create 0, .call (.postFifo 0 900), .create 0, .thread 0, .thread 0, .thread 0]

example : Run (cfg false) Fwk.Demo.slots Fwk.Demo.hdr early (outs false early) (st false early) ∧ ((st false early).thr 0).pc = .top ∧
    ((st false early).thr 0).sig = true ∧ ∃ x, (st false early).w.aos[0]? = some x ∧ Fwk.Obs.contents x.q = [] :=
  ⟨mk (by decide +kernel), by decide +kernel, by decide +kernel, ⟨_, rfl, by decide +kernel⟩⟩

/-- C117: one dispatch of object 0 is in progress. -/
example : Run (cfg false) Fwk.Demo.slots Fwk.Demo.hdr (work ++ [.thread 0]) (outs false (work ++ [.thread 0])) (st false (work ++ [.thread 0])) ∧
    ((st false (work ++ [.thread 0])).thr 0).pc = .run ∧ (st false (work ++ [.thread 0])).w.conts.countP (isThr 0) = 1 :=
  ⟨mk (by decide +kernel), by decide +kernel, by decide +kernel⟩

/-- Object 0 defers a dynamic event and recalls it while it processes the next one; object 1 takes and processes an event between the
critical sections of the recall. -/
def deferring : List Op := start ++ [.call (.newDefer [0, 0] 2), .call (.regPool (fun _ => 0xEE#8) 1000 64 13), .call (.alloc 8 33),
  .call (.postFifo 0 1000), .call (.postFifo 1 900), .thread 0, .thread 0, .call (.defer 0 1000), .thread 0, .call (.postFifo 0 901),
  .call (.resume 0), .thread 0, .thread 0, .call (.recall 0 0), .thread 1, .thread 1, .call (.resume 1), .thread 1, .call (.resume 0),
  .thread 0, .thread 0, .thread 0, .thread 0, .thread 0]

/-- C117: the interleaved critical sections of other functions are admitted. -/
example : Run (cfg false) Fwk.Demo.slots Fwk.Demo.hdr deferring (outs false deferring) (st false deferring) ∧
    dispatched 0 (outs false deferring) = [1000, 901, 1000] ∧ dispatched 1 (outs false deferring) = [900] :=
  ⟨mk (by decide +kernel), by decide +kernel, by decide +kernel⟩

/-- C119: hypotheses of `lives_until_terminated`. -/
example : Run (cfg false) Fwk.Demo.slots Fwk.Demo.hdr start (outs false start) (st false start) ∧ Alive ((st false start).thr 0) ∧
    ((st false start).thr 0).handle = true :=
  ⟨mk (by decide +kernel), ⟨by decide +kernel, by decide +kernel⟩, by decide +kernel⟩

/-- The race at activation, thread tests after its first event (Windows): before the creator has stored the thread's handle, an
interrupt posts an event, and the thread processes it. -/
def race : List Op := [.activate 3 [0, 0] 2, .create 0, .create 0, .call (.postFifo 0 900), .thread 0, .thread 0]

/-- The same where the thread tests first (uC/OS): the thread starts as soon as it is created. -/
def race' : List Op := [.activate 3 [0, 0] 2, .create 0, .create 0]

/-- C119: hypotheses of `ends_if_tested_early`. -/
example : Run (cfg false) Fwk.Demo.slots Fwk.Demo.hdr race (outs false race) (st false race) ∧
    ((st false race).thr 0).pc = .test ∧ ((st false race).thr 0).cr = 2 ∧
    ∃ x, (st false race).w.aos[0]? = some x ∧ Fwk.Obs.contents x.q = [] :=
  ⟨mk (by decide +kernel), by decide +kernel, by decide +kernel, ⟨_, rfl, by decide +kernel⟩⟩

/-- C77 is false of the code also here: a completely activated object whose thread has ended although `rkh_sma_terminate` was never called, in both kinds
of port. Nothing posted to it will be processed. -/
theorem activation_race : ∀ b : Bool, ∃ ops s, Run (cfg b) Fwk.Demo.slots Fwk.Demo.hdr ops (outs b ops) s ∧ .terminate 0 ∉ ops ∧
    (s.thr 0).cr = 3 ∧ (s.thr 0).handle = true ∧ ¬ Alive (s.thr 0) ∧ ¬ Listed s 0
  | false => ⟨race ++ [.thread 0, .create 0], _, mk (by decide +kernel), by simp [race], by decide +kernel, by decide +kernel,
      fun h => h.2 (by decide +kernel), (ended_forever (ops2 := []) (outs2 := []) (mk (b := false) (ops := race ++ [.thread 0, .create 0])
        (by decide +kernel)) (by decide +kernel) (by simpa using mk (by decide +kernel))).2.2⟩
  | true => ⟨race' ++ [.thread 0, .create 0], _, mk (by decide +kernel), by simp [race'], by decide +kernel, by decide +kernel,
      fun h => h.2 (by decide +kernel), (ended_forever (ops2 := []) (outs2 := []) (mk (b := true) (ops := race' ++ [.thread 0, .create 0])
        (by decide +kernel)) (by decide +kernel) (by simpa using mk (by decide +kernel))).2.2⟩

/-- The object is terminated while it sleeps. -/
def ended : List Op := start ++ [.terminate 0]

/-- C78 is false of the code also here: an object that was terminated while asleep still handles the next event posted to it. -/
theorem terminated_handles_another : Run (cfg false) Fwk.Demo.slots Fwk.Demo.hdr ended (outs false ended) (st false ended) ∧
    ((st false ended).thr 0).handle = false ∧ ((st false ended).thr 0).cr = 3 ∧
    ∃ ops2, Run (cfg false) Fwk.Demo.slots Fwk.Demo.hdr (ended ++ ops2) (outs false ended ++ more false ended ops2) (st false (ended ++ ops2)) ∧
      dispatched 0 (more false ended ops2) = [900] :=
  ⟨mk (by decide +kernel), by decide +kernel, by decide +kernel, [.call (.postFifo 0 900), .thread 0, .thread 0],
    mk2 (by decide +kernel) (by decide +kernel), by decide +kernel⟩

/-- C120: hypotheses of `terminated_sleeper_stays`. -/
example : ((st false ended).thr 0).pc = .wait ∧ ((st false ended).thr 0).sig = false := by decide +kernel

/-- The object terminates itself in its handler. -/
def self : List Op := start ++ [.call (.postFifo 0 900), .thread 0, .thread 0, .terminate 0]

/-- C120: hypotheses of `self_termination`. -/
example : Run (cfg false) Fwk.Demo.slots Fwk.Demo.hdr self (outs false self) (st false self) ∧ ((st false self).thr 0).pc = .run ∧
    ((st false self).thr 0).handle = false ∧ ((st false self).thr 0).cr = 3 ∧
    Run (cfg false) Fwk.Demo.slots Fwk.Demo.hdr (self ++ [.thread 0, .call (.postFifo 1 901), .thread 0])
      (outs false self ++ more false self [.thread 0, .call (.postFifo 1 901), .thread 0])
      (st false (self ++ [.thread 0, .call (.postFifo 1 901), .thread 0])) :=
  ⟨mk (by decide +kernel), by decide +kernel, by decide +kernel, by decide +kernel, mk2 (by decide +kernel) (by decide +kernel)⟩

end Verif.Thread.Demo
