import Verif.Life.Multi
/-
Properties of starting and stopping the framework with one thread per active object (C193-C198). The definitions under "Specification" are
all that is needed to read the theorems, besides the operations and the observable fields of `Sys`.
-/
namespace Verif.Life.Multi

/-! ## Specification -/

/-- How many steps of the main thread there are in a history. -/
def mainSteps : List Op → Nat
  | [] => 0
  | .main _ :: os => mainSteps os + 1
  | _ :: os => mainSteps os

/-- How many steps of the thread of object `j` inside `rkh_fwk_exit` there are in a history. -/
def exitSteps (j : Nat) : List Op → Nat
  | [] => 0
  | .ao i :: os => (if i = j then 1 else 0) + exitSteps j os
  | _ :: os => exitSteps j os

/-- How many blocks are recorded in a history, at most. -/
def recorded : List Op → Nat
  | [] => 0
  | .main k :: os => k + recorded os
  | .call _ k :: os => k + recorded os
  | .exit _ k :: os => k + recorded os
  | _ :: os => recorded os

/-- The threads of active objects do nothing in a history. -/
def objectsSilent (os : List Op) : Prop := ∀ o ∈ os, (∃ k, o = .main k) ∨ o = .idle ∨ o = .stop

/-- No active object calls `rkh_fwk_exit`. -/
def nobodyExits (os : List Op) : Prop := ∀ o ∈ os, ∀ j k, o ≠ .exit j k

/-- How many calls of `rkh_fwk_exit` there are in a history (an object that is already in one cannot make another). -/
def exitCalls : Sys → List Op → Nat
  | _, [] => 0
  | s, .exit j k :: os => (if s.ao j = .out then 1 else 0) + exitCalls (step s (.exit j k)) os
  | s, o :: os => exitCalls (step s o) os

/-- The main thread is at or behind the call of the exit hook. -/
def ending : MPc → Bool
  | .flush _ | .close | .delete | .returned => true
  | _ => false

/-- The blocks that arrived are the first ones recorded, in the order they were recorded. -/
def inOrder (s : Sys) : Prop := s.sent = List.range s.sent.length

/-! ## Lemmas -/

theorem run_append (s : Sys) (a b : List Op) : run s (a ++ b) = run (run s a) b := by simp [run, List.foldl_append]

theorem run_inv {I : Sys → Prop} (h : ∀ s o, I s → I (step s o)) : ∀ (os : List Op) (s : Sys), I s → I (run s os)
  | [], _, hs => hs
  | o :: os, s, hs => run_inv h os (step s o) (h s o hs)

theorem run_inv' {I : Sys → Prop} {P : Op → Prop} (h : ∀ s o, P o → I s → I (step s o)) : ∀ (os : List Op) (s : Sys), (∀ o ∈ os, P o) → I s → I (run s os)
  | [], _, _, hs => hs
  | o :: os, s, hp, hs => run_inv' h os (step s o) (fun o' ho' => hp o' (List.mem_cons_of_mem _ ho')) (h s o (hp o List.mem_cons_self) hs)

theorem range_add' (n k : Nat) : List.range (n + k) = List.range n ++ List.range' n k := by
  rw [List.range_eq_range', List.range_eq_range', ← List.range'_append_1, Nat.zero_add]

theorem op_cases (o : Op) : (∃ k, o = .main k) ∨ ∀ k, o ≠ .main k := by cases o <;> simp

theorem mainSteps_other {o : Op} (ho : ∀ k, o ≠ .main k) (os : List Op) : mainSteps (o :: os) = mainSteps os := by
  cases o with
  | main k => exact absurd rfl (ho k)
  | _ => rfl

/-- What one step of a flush leaves alone. -/
theorem flush_frame (s : Sys) (f : Flush) : (flushStep s f).1.running = s.running ∧ (flushStep s f).1.main = s.main ∧ (flushStep s f).1.idle = s.idle ∧
    (flushStep s f).1.ao = s.ao ∧ (flushStep s f).1.next = s.next ∧ (flushStep s f).1.closed = s.closed ∧ (flushStep s f).1.deleted = s.deleted ∧
    (flushStep s f).1.ticks = s.ticks ∧ (flushStep s f).1.exits = s.exits := by
  unfold flushStep
  split
  · split <;> simp [Sys.use]
  · unfold Sys.send; split <;> simp

/-- A flush does not record. -/
theorem flush_buf (s : Sys) (f : Flush) : (flushStep s f).1.buf.length ≤ s.buf.length := by
  unfold flushStep
  split
  · split
    · simp [Sys.use]
    · rename_i h; simp [h]
  · unfold Sys.send; split <;> simp

/-- The steps of the threads other than the main thread leave `main` and the tick counter alone, never set `running`, and record at most
what they say. -/
theorem other_frame {s : Sys} {o : Op} (ho : ∀ k, o ≠ .main k) : (step s o).main = s.main ∧ (step s o).ticks = s.ticks ∧ (s.running = false → (step s o).running = false) ∧
    (step s o).closed = s.closed ∧ (step s o).deleted = s.deleted ∧ (step s o).buf.length ≤ s.buf.length + recorded [o] := by
  cases o with
  | main k => exact absurd rfl (ho k)
  | idle =>
    simp only [step, idleStep, recorded]
    split
    · exact ⟨rfl, rfl, id, rfl, rfl, by simp⟩
    · split <;> exact ⟨rfl, rfl, id, rfl, rfl, by simp⟩
    · rename_i f _
      have h := flush_frame s f
      have hb := flush_buf s f
      split <;> rename_i hf <;> rw [hf] at h hb <;> refine ⟨h.2.1, h.2.2.2.2.2.2.2.1, fun hr => h.1.trans hr, h.2.2.2.2.2.1, h.2.2.2.2.2.2.1, by simpa using hb⟩
    · exact ⟨rfl, rfl, id, rfl, rfl, by simp⟩
    · exact ⟨rfl, rfl, id, rfl, rfl, by simp⟩
  | call j k =>
    simp only [step, recorded]
    split
    · exact ⟨rfl, rfl, id, rfl, rfl, by simp [Sys.record, Sys.use]⟩
    · exact ⟨rfl, rfl, id, rfl, rfl, by omega⟩
  | stop => exact ⟨rfl, rfl, fun _ => rfl, rfl, rfl, by simp [step]⟩
  | exit j k =>
    simp only [step, recorded]
    split
    · exact ⟨rfl, rfl, id, rfl, rfl, by simp [Sys.record, Sys.use, Sys.goto]⟩
    · exact ⟨rfl, rfl, id, rfl, rfl, by omega⟩
  | ao j =>
    simp only [step, aoStep, recorded]
    split
    · exact ⟨rfl, rfl, id, rfl, rfl, by simp⟩
    · rename_i f _
      have h := flush_frame s f
      have hb := flush_buf s f
      split <;> rename_i hf <;> rw [hf] at h hb <;> refine ⟨h.2.1, h.2.2.2.2.2.2.2.1, fun hr => h.1.trans hr, h.2.2.2.2.2.1, h.2.2.2.2.2.2.1, by simpa [Sys.goto] using hb⟩
    · exact ⟨rfl, rfl, fun _ => rfl, rfl, rfl, by simp [Sys.goto]⟩

/-! ## C193: stopping -/

/-- How far the main thread is from its return, apart from the blocks to flush. -/
def rank : MPc → Nat
  | .returned => 0
  | .delete => 1
  | .close => 2
  | .flush .get => 3
  | .flush (.send _) => 4
  | .test => 4
  | .sleep => 5
  | .start => 5
  | .resume => 6
  | .first => 7

/-- Distance of the main thread from its return. -/
def dist (s : Sys) : Nat := rank s.main + 2 * s.buf.length

/-- 1 if the main thread sleeps before a tick. -/
def inRound : MPc → Nat
  | .sleep => 1
  | _ => 0

theorem main_dist {s : Sys} (k : Nat) (hr : s.running = false) (hm : s.main ≠ .first) :
    (mainStep k s).running = false ∧ (mainStep k s).main ≠ .first ∧ ((mainStep k s).main = .returned ∨ dist (mainStep k s) + 1 ≤ dist s + 2 * k) := by
  unfold mainStep
  cases h : s.main with
  | first => exact absurd h hm
  | resume => exact ⟨hr, by simp, .inr (by simp only [dist, rank, h]; omega)⟩
  | start => exact ⟨by simpa [Sys.use, Sys.record] using hr, by simp, .inr (by simp [dist, rank, h, Sys.use, Sys.record]; omega)⟩
  | test => simp only [hr]; exact ⟨by simpa using hr, by simp, .inr (by simp [dist, rank, h]; omega)⟩
  | sleep => exact ⟨by simpa [Sys.use, Sys.record] using hr, by simp, .inr (by simp [dist, rank, h, Sys.use, Sys.record]; omega)⟩
  | flush f =>
    have hf := flush_frame s f
    cases f with
    | get =>
      cases hb : s.buf with
      | nil =>
        simp only [flushStep, hb, Sys.use]
        exact ⟨hr, by simp, .inr (by simp [dist, rank, h, hb])⟩
      | cons b bs =>
        simp only [flushStep, hb, Sys.use]
        exact ⟨hr, by simp, .inr (by simp [dist, rank, h, hb]; omega)⟩
    | send b =>
      simp only [flushStep]
      refine ⟨hf.1.trans hr, by simp, .inr ?_⟩
      have hb := flush_buf s (.send b)
      simp only [flushStep] at hb
      simp only [dist, rank, h]
      omega
  | close => exact ⟨hr, by simp, .inr (by simp [dist, rank, h]; omega)⟩
  | delete => exact ⟨hr, by simp, .inl rfl⟩
  | returned => exact ⟨hr, by simp [h], .inl h⟩

theorem returned_stays (os : List Op) (s : Sys) (h : s.main = .returned) : (run s os).main = .returned := by
  refine run_inv (I := fun s => s.main = .returned) (fun s o h => ?_) os s h
  rcases op_cases o with ⟨k, rfl⟩ | ho
  · simp [step, mainStep, h]
  · rw [(other_frame ho).1]; exact h

theorem recorded_cons (o : Op) (os : List Op) : recorded (o :: os) = recorded [o] + recorded os := by
  cases o <;> simp [recorded]

theorem stopped_run : ∀ (os : List Op) (s : Sys), s.running = false → s.main ≠ .first → mainSteps os ≥ dist s + 2 * recorded os → (run s os).main = .returned
  | [], s, _, hm, hd => by
    simp only [mainSteps, recorded, dist] at hd
    show s.main = .returned
    cases h : s.main with
    | flush f => cases f <;> rw [h] at hd <;> simp [rank] at hd
    | returned => rfl
    | _ => rw [h] at hd; simp [rank] at hd
  | o :: os, s, hr, hm, hd => by
    show (run (step s o) os).main = .returned
    rcases op_cases o with ⟨k, rfl⟩ | ho
    ·
      obtain ⟨h1, h2, h3⟩ := main_dist k hr hm
      rcases h3 with h3 | h3
      · exact returned_stays os _ h3
      · refine stopped_run os _ h1 h2 ?_
        simp only [mainSteps, recorded] at hd
        simp only [step]
        omega
    ·
      obtain ⟨h1, h2, h3, h4, h5, h6⟩ := other_frame (s := s) ho
      refine stopped_run os _ (h3 hr) (by rw [h1]; exact hm) ?_
      rw [recorded_cons] at hd
      rw [mainSteps_other ho] at hd
      simp only [dist, h1] at *
      omega

/-- Stopped, and not started again. -/
theorem stopped_stays (os : List Op) (s : Sys) (hr : s.running = false) (hm : s.main ≠ .first) : (run s os).running = false ∧ (run s os).main ≠ .first := by
  refine run_inv (I := fun s => s.running = false ∧ s.main ≠ .first) (fun s o h => ?_) os s ⟨hr, hm⟩
  rcases op_cases o with ⟨k, rfl⟩ | ho
  · exact ⟨(main_dist k h.1 h.2).1, (main_dist k h.1 h.2).2.1⟩
  · obtain ⟨a1, a2, a3, _, _, _⟩ := other_frame (s := s) ho
    exact ⟨a3 h.1, by rw [a1]; exact h.2⟩

theorem stopped_ticks (os : List Op) (s : Sys) (hr : s.running = false) (hm : s.main ≠ .first) : (run s os).ticks ≤ s.ticks + 1 := by
  have key : ∀ s' : Sys, s'.running = false ∧ s'.main ≠ .first ∧ s'.ticks + inRound s'.main ≤ s.ticks + 1 → s'.ticks ≤ s.ticks + 1 := by
    intro s' h; omega
  refine key _ (run_inv (I := fun s' : Sys => s'.running = false ∧ s'.main ≠ .first ∧ s'.ticks + inRound s'.main ≤ s.ticks + 1) ?_ os s ⟨hr, hm, by cases s.main <;> simp [inRound]⟩)
  rintro s' o ⟨h1, h2, h3⟩
  rcases op_cases o with ⟨k, rfl⟩ | ho
  · refine ⟨(main_dist k h1 h2).1, (main_dist k h1 h2).2.1, ?_⟩
    simp only [step]
    unfold mainStep
    cases h : s'.main with
    | first => exact absurd h h2
    | test => rw [h] at h3; simpa [h1, inRound] using h3
    | flush f =>
      have hf := (flush_frame s' f).2.2.2.2.2.2.2.1
      rw [h] at h3
      simp only []
      split <;> rename_i he <;> rw [he] at hf <;> rw [← hf] at h3 <;> exact h3
    | sleep => rw [h] at h3; simpa [inRound, Sys.use, Sys.record] using h3
    | start => rw [h] at h3; simpa [inRound, Sys.use, Sys.record] using h3
    | returned => rw [h] at h3; simpa [h, inRound] using h3
    | _ => rw [h] at h3; exact h3
  · obtain ⟨a1, a2, a3, _, _, _⟩ := other_frame (s := s') ho
    refine ⟨a3 h1, by rw [a1]; exact h2, ?_⟩
    rw [a1, a2]
    exact h3

/-- How far `rkh_fwk_exit` is from the end, apart from the blocks to flush. -/
def exitRank : APc → Nat
  | .out => 0
  | .stop => 1
  | .flush .get => 2
  | .flush (.send _) => 3

/-- Steps of other threads leave an object in `rkh_fwk_exit` where it is. -/
theorem ao_other {s : Sys} {o : Op} {j : Nat} (ho : o ≠ .ao j) (hj : s.ao j ≠ .out) : (step s o).ao j = s.ao j := by
  cases o with
  | main k =>
    simp only [step]
    unfold mainStep
    cases hm : s.main with
    | flush f =>
      have hf := (flush_frame s f).2.2.2.1
      simp only []
      split <;> rename_i he <;> rw [he] at hf <;> exact congrFun hf j
    | test => simp only []; split <;> rfl
    | _ => rfl
  | idle =>
    simp only [step]
    unfold idleStep
    cases hm : s.idle with
    | flush f =>
      have hf := (flush_frame s f).2.2.2.1
      simp only []
      split <;> rename_i he <;> rw [he] at hf <;> exact congrFun hf j
    | test => simp only []; split <;> rfl
    | _ => rfl
  | call i k => simp only [step]; split <;> rfl
  | stop => rfl
  | exit i k =>
    simp only [step]
    split
    · rename_i hi
      have : j ≠ i := by rintro rfl; exact hj hi
      simp [Sys.goto, this, Sys.use, Sys.record]
    · rfl
  | ao i =>
    have hij : j ≠ i := by rintro rfl; exact ho rfl
    simp only [step]
    unfold aoStep
    cases hm : s.ao i with
    | out => rfl
    | stop => simp [Sys.goto, hij]
    | flush f =>
      have hf := (flush_frame s f).2.2.2.1
      simp only []
      split <;> rename_i he <;> rw [he] at hf <;> simp only [Sys.goto, hij, if_false] <;> exact congrFun hf j

theorem main_buf {s : Sys} (k : Nat) : (mainStep k s).buf.length ≤ s.buf.length + k ∧ ((mainStep k s).main = .first → s.main = .first) := by
  unfold mainStep
  cases hm : s.main with
  | flush f =>
    have hf := flush_buf s f
    simp only []
    split <;> rename_i he <;> rw [he] at hf <;> exact ⟨Nat.le_add_right_of_le hf, by simp⟩
  | test => simp only []; split <;> simp
  | _ => simp [Sys.use, Sys.record, hm]

theorem exit_run (j : Nat) : ∀ (os : List Op) (s : Sys), s.main ≠ .first → s.ao j ≠ .out → exitSteps j os ≥ exitRank (s.ao j) + 2 * (s.buf.length + recorded os) → (run s os).running = false
  | [], s, _, hj, hd => by
    simp only [exitSteps] at hd
    cases h : s.ao j with
    | out => exact absurd h hj
    | stop => rw [h] at hd; simp [exitRank] at hd
    | flush f => cases f <;> rw [h] at hd <;> simp [exitRank] at hd
  | o :: os, s, hm, hj, hd => by
    show (run (step s o) os).running = false
    by_cases ho : o = .ao j
    · subst ho
      have hm' : (step s (.ao j)).main ≠ .first := by rw [(other_frame (by simp)).1]; exact hm
      simp only [exitSteps, if_true, recorded] at hd
      cases h : s.ao j with
      | out => exact absurd h hj
      | stop => exact (stopped_stays os _ (by simp [step, aoStep, h]) hm').1
      | flush f =>
        rw [h] at hd
        cases f with
        | get =>
          cases hb : s.buf with
          | nil =>
            refine exit_run j os _ hm' ?_ ?_ <;> simp only [step, aoStep, h, flushStep, hb, Sys.goto, if_true, Sys.use]
            · simp
            · simp only [hb, exitRank, List.length_nil] at *; omega
          | cons b bs =>
            refine exit_run j os _ hm' ?_ ?_ <;> simp only [step, aoStep, h, flushStep, hb, Sys.goto, if_true, Sys.use]
            · simp
            · simp only [hb, exitRank, List.length_cons] at *; omega
        | send b =>
          have hf := flush_buf s (.send b)
          refine exit_run j os _ hm' ?_ ?_ <;> simp only [step, aoStep, h, flushStep, Sys.goto, if_true]
          · simp
          · simp only [exitRank, flushStep] at *; omega
    · have e : exitSteps j (o :: os) = exitSteps j os := by
        cases o with
        | ao i => have : i ≠ j := by rintro rfl; exact ho rfl
                  simp [exitSteps, this]
        | _ => rfl
      have ha := ao_other ho hj
      rw [e, recorded_cons] at hd
      have hb : (step s o).main ≠ .first ∧ (step s o).buf.length ≤ s.buf.length + recorded [o] := by
        rcases op_cases o with ⟨k, rfl⟩ | hom
        · exact ⟨fun h => hm ((main_buf k).2 h), (main_buf (s := s) k).1⟩
        · obtain ⟨a1, _, _, _, _, a6⟩ := other_frame (s := s) hom
          exact ⟨by rw [a1]; exact hm, a6⟩
      refine exit_run j os _ hb.1 (by rw [ha]; exact hj) ?_
      rw [ha]
      omega

/-- **C193.** Once the framework has been started,

* after `rkhport_fwk_stop` it does not run any more, and after `rkh_fwk_exit` neither, at the latest after two steps of the thread that
  called it and two for every block of trace that waits or is recorded meanwhile;
* from then on `rkh_fwk_enter` returns after at most six steps of the main thread, plus two for every block of trace that waits or is
  recorded meanwhile, whatever the other threads do; and there is at most one more tick.

Missing from the full property (`early_stop_is_lost`): a stop that comes before `rkh_fwk_enter` has set `running`. -/
theorem stopping_returns_partial (n : Nat) (pre os : List Op) (hm : (run (init n) pre).main ≠ .first) :
    (run (init n) (pre ++ .stop :: os)).running = false ∧
    (∀ j k, (run (init n) pre).ao j = .out → exitSteps j os ≥ 2 + 2 * ((run (init n) pre).buf.length + recorded (.exit j k :: os)) →
      (run (init n) (pre ++ .exit j k :: os)).running = false) ∧
    ((run (init n) pre).running = false →
      (mainSteps os ≥ 6 + 2 * ((run (init n) pre).buf.length + recorded os) → (run (init n) (pre ++ os)).main = .returned) ∧
      (run (init n) (pre ++ os)).ticks ≤ (run (init n) pre).ticks + 1) := by
  simp only [run_append]
  refine ⟨(stopped_stays os (step (run (init n) pre) .stop) rfl hm).1, fun j k hj hd => ?_, fun hr => ⟨fun h => stopped_run os _ hr hm ?_, stopped_ticks os _ hr hm⟩⟩
  · refine exit_run j os (step (run (init n) pre) (.exit j k)) ?_ ?_ ?_
    · rw [(other_frame (by simp)).1]; exact hm
    · simp [step, hj, Sys.goto]
    · simp only [step, hj, if_true, Sys.goto, Sys.use, Sys.record, exitRank, List.length_append, List.length_range']
      simp only [recorded] at hd
      omega
  · have : rank (run (init n) pre).main ≤ 6 := by
      revert hm
      cases (run (init n) pre).main with
      | flush f => cases f <;> simp [rank]
      | first => simp
      | _ => simp [rank]
    simp only [dist]
    omega

theorem mainSteps_rounds : ∀ m, mainSteps (List.replicate m [Op.main 0, Op.main 0]).flatten = 2 * m
  | 0 => rfl
  | m + 1 => by
    rw [List.replicate_succ, List.flatten_cons]
    simp only [List.cons_append, List.nil_append, mainSteps]
    rw [mainSteps_rounds m]
    omega

/-- A stop that comes before the framework is marked as running, such as `rkh_fwk_exit` called by an object that was activated before
`rkh_fwk_enter`, is lost: the framework runs on for as many ticks as one likes. -/
theorem early_stop_is_lost (m : Nat) : ∃ os, (run (init 0) [.exit 0 0, .ao 0, .ao 0]).exits = 1 ∧ (run (init 0) [.exit 0 0, .ao 0, .ao 0]).ao 0 = .out ∧
    (run (init 0) ([.exit 0 0, .ao 0, .ao 0] ++ os)).ticks = m ∧ (run (init 0) ([.exit 0 0, .ao 0, .ao 0] ++ os)).running = true ∧ mainSteps os = 2 * m + 3 := by
  refine ⟨[.main 0, .main 0, .main 0] ++ (List.replicate m [Op.main 0, Op.main 0]).flatten, by decide, by decide, ?_⟩
  rw [← List.append_assoc, run_append]
  have key : ∀ m (s : Sys), s.main = .test → s.running = true → (run s (List.replicate m [Op.main 0, Op.main 0]).flatten).ticks = s.ticks + m ∧
      (run s (List.replicate m [Op.main 0, Op.main 0]).flatten).running = true := by
    intro m
    induction m with
    | zero => intro s _ hr; exact ⟨rfl, hr⟩
    | succ m ih =>
      intro s hm hr
      have e : (List.replicate (m + 1) [Op.main 0, Op.main 0]).flatten = [Op.main 0, Op.main 0] ++ (List.replicate m [Op.main 0, Op.main 0]).flatten := by
        simp [List.replicate_succ]
      rw [e, run_append]
      have h := ih (run s [.main 0, .main 0]) (by simp [run, step, mainStep, hm, hr]) (by simp [run, step, mainStep, hm, hr, Sys.use, Sys.record])
      refine ⟨?_, h.2⟩
      rw [h.1]
      simp [run, step, mainStep, hm, hr]
      omega
  have h := key m (run (init 0) ([.exit 0 0, .ao 0, .ao 0] ++ [.main 0, .main 0, .main 0])) (by decide) (by decide)
  refine ⟨by rw [h.1]; have : (run (init 0) ([.exit 0 0, .ao 0, .ao 0] ++ [.main 0, .main 0, .main 0])).ticks = 0 := by decide
             omega, h.2, ?_⟩
  simp only [List.cons_append, List.nil_append, mainSteps]
  rw [mainSteps_rounds]

/-- Non-vacuity: stopped by a key while three blocks wait, with an object that goes on recording. -/
example : (run (init 3) ([.main 0, .main 1, .main 0, .main 0, .stop] ++ ([Op.call 5 1] ++ List.replicate 14 (.main 0)))).main = .returned :=
  ((stopping_returns_partial 3 _ _ (by decide)).2.2 (by decide)).1 (by decide)

/-- Non-vacuity: stopped by an object. -/
example : (run (init 1) ([.main 0, .main 1, .main 0] ++ .exit 2 1 :: [.ao 2, .main 0, .ao 2, .ao 2, .idle, .ao 2, .ao 2, .ao 2])).running = false :=
  (stopping_returns_partial 1 _ _ (by decide)).2.1 2 1 (by decide) (by decide)

/-! ## C194: ticks -/

theorem running_back (os : List Op) (s : Sys) (hm : s.main ≠ .first) (h : (run s os).running = true) : s.running = true := by
  cases hr : s.running with
  | true => rfl
  | false => rw [(stopped_stays os s hr hm).1] at h; cases h

theorem ticks_from : ∀ (os : List Op) (s : Sys), (s.main = .test ∨ s.main = .sleep) → (run s os).running = true →
    2 * (run s os).ticks + (if (run s os).main = .sleep then 1 else 0) = 2 * s.ticks + (if s.main = .sleep then 1 else 0) + mainSteps os ∧
    ((run s os).main = .test ∨ (run s os).main = .sleep)
  | [], s, hm, _ => ⟨rfl, hm⟩
  | o :: os, s, hm, hr => by
    have hr' : (run (step s o) os).running = true := hr
    show 2 * (run (step s o) os).ticks + (if (run (step s o) os).main = .sleep then 1 else 0) = _ ∧ _
    have hs : s.running = true := running_back (o :: os) s (by rcases hm with h | h <;> simp [h]) hr
    rcases op_cases o with ⟨k, rfl⟩ | ho
    ·
      have ih := ticks_from os (step s (.main k)) (by rcases hm with h | h <;> simp [step, mainStep, h, hs]) hr'
      refine ⟨?_, ih.2⟩
      rw [ih.1]
      rcases hm with h | h <;> simp [step, mainStep, h, hs, mainSteps] <;> omega
    ·
      obtain ⟨a1, a2, _, _, _, _⟩ := other_frame (s := s) ho
      have ih := ticks_from os _ (by rw [a1]; exact hm) hr'
      refine ⟨?_, ih.2⟩
      rw [ih.1, a1, a2, mainSteps_other ho]

theorem quiet_runs {s : Sys} {o : Op} (hs : o ≠ .stop) (he : ∀ j k, o ≠ .exit j k) (h : (∀ j, s.ao j = .out) ∧ (s.main ≠ .first → s.running = true)) :
    (∀ j, (step s o).ao j = .out) ∧ ((step s o).main ≠ .first → (step s o).running = true) := by
  obtain ⟨h1, h2⟩ := h
  cases o with
  | stop => exact absurd rfl hs
  | exit j k => exact absurd rfl (he j k)
  | ao j => simp only [step, aoStep, h1 j]; exact ⟨h1, h2⟩
  | call j k => simp only [step, h1 j, if_true]; exact ⟨h1, h2⟩
  | idle =>
    simp only [step]
    unfold idleStep
    cases hc : s.idle with
    | flush f =>
      have hf := flush_frame s f
      simp only []
      split <;> rename_i he <;> rw [he] at hf <;> refine ⟨fun j => (congrFun hf.2.2.2.1 j).trans (h1 j), fun hm => hf.1.trans (h2 ?_)⟩ <;> rw [← hf.2.1] <;> exact hm
    | test => simp only []; split <;> exact ⟨h1, h2⟩
    | _ => exact ⟨h1, h2⟩
  | main k =>
    simp only [step]
    unfold mainStep
    cases hm : s.main with
    | flush f =>
      have hf := flush_frame s f
      have hr := h2 (by simp [hm])
      simp only []
      split <;> rename_i he <;> rw [he] at hf <;> exact ⟨fun j => (congrFun hf.2.2.2.1 j).trans (h1 j), fun _ => hf.1.trans hr⟩
    | first => exact ⟨h1, fun _ => rfl⟩
    | test => simp only []; split <;> exact ⟨h1, fun _ => h2 (by simp [hm])⟩
    | _ => exact ⟨h1, fun _ => h2 (by simp [hm])⟩

/-- **C194.** Once `rkh_fwk_enter` has begun, the framework runs unless somebody stops it. While it runs, the main thread makes exactly
one tick per round of its loop (a test and a sleep), whatever the other threads do: after `m` of its steps from the head of the loop there were `m / 2` ticks. -/
theorem one_tick_per_round (n : Nat) (pre os : List Op) :
    ((run (init n) pre).main ≠ .first → nobodyExits pre → .stop ∉ pre → (run (init n) pre).running = true) ∧
    ((run (init n) pre).main = .test → (run (init n) (pre ++ os)).running = true →
      (run (init n) (pre ++ os)).ticks = (run (init n) pre).ticks + mainSteps os / 2) := by
  refine ⟨fun hm hx hs => ?_, fun hm hr => ?_⟩
  · refine (run_inv' (I := fun s => (∀ j, s.ao j = .out) ∧ (s.main ≠ .first → s.running = true)) (P := fun o => o ≠ .stop ∧ ∀ j k, o ≠ .exit j k)
      (fun s o ho h => quiet_runs ho.1 ho.2 h) pre (init n) (fun o ho => ⟨fun e => hs (e ▸ ho), hx o ho⟩) ⟨fun _ => rfl, fun h => absurd rfl h⟩).2 hm
  · rw [run_append] at *
    have h := (ticks_from os _ (.inl hm) hr).1
    rw [hm] at h
    simp at h
    split at h <;> omega

/-- Non-vacuity: five steps of the main thread and a busy object. -/
example : (run (init 0) ([.main 0, .main 0, .main 2] ++ [.main 0, .call 1 1, .main 3, .idle, .main 0, .main 0, .idle, .main 0])).ticks = 2 :=
  (one_tick_per_round 0 _ _).2 (by decide) ((one_tick_per_round 0 _ []).1 (by decide) (by simp [nobodyExits]) (by decide))

/-! ## C195: nothing closed or deleted is used -/

/-- Decides that the idle thread is not flushing (for the examples). -/
def isFlush : IPc → Bool
  | .flush _ => true
  | _ => false

theorem notFlushing {i : IPc} (h : isFlush i = false) (f : Flush) : i ≠ .flush f := by
  intro hx; rw [hx] at h; cases h

/-- Facts of every reachable state. -/
structure Sound (s : Sys) : Prop where
  del : s.deleted = true → s.main = .returned
  clo : s.closed = true → s.main = .delete ∨ s.main = .returned
  udel : s.usedDeleted = true → s.deleted = true
  uclo : s.usedClosed = true → s.closed = true
  run : ending s.main = true → s.running = false

theorem flush_used (s : Sys) (f : Flush) : ((flushStep s f).1.usedDeleted = true → s.usedDeleted = true ∨ s.deleted = true) ∧
    ((flushStep s f).1.usedClosed = true → s.usedClosed = true ∨ s.closed = true) := by
  unfold flushStep
  split
  · split <;> exact ⟨fun h => by simpa [Sys.use] using h, .inl⟩
  · unfold Sys.send; split <;> simp_all

theorem other_used {s : Sys} {o : Op} (ho : ∀ k, o ≠ .main k) : ((step s o).usedDeleted = true → s.usedDeleted = true ∨ s.deleted = true) ∧
    ((step s o).usedClosed = true → s.usedClosed = true ∨ s.closed = true) := by
  cases o with
  | main k => exact absurd rfl (ho k)
  | idle =>
    simp only [step, idleStep]
    split
    · exact ⟨.inl, .inl⟩
    · split <;> exact ⟨.inl, .inl⟩
    · rename_i f _
      have h := flush_used s f
      split <;> rename_i hf <;> rw [hf] at h <;> exact h
    · exact ⟨.inl, .inl⟩
    · exact ⟨.inl, .inl⟩
  | call j k => simp only [step]; split <;> simp_all [Sys.use, Sys.record]
  | stop => exact ⟨.inl, .inl⟩
  | exit j k => simp only [step]; split <;> simp_all [Sys.use, Sys.record, Sys.goto]
  | ao j =>
    simp only [step, aoStep]
    split
    · exact ⟨.inl, .inl⟩
    · rename_i f _
      have h := flush_used s f
      split <;> rename_i hf <;> rw [hf] at h <;> exact h
    · exact ⟨.inl, .inl⟩

theorem sound_step {s : Sys} (h : Sound s) (o : Op) : Sound (step s o) := by
  rcases op_cases o with ⟨k, rfl⟩ | ho
  ·
    obtain ⟨h1, h2, h3, h4, h5⟩ := h
    simp only [step]
    unfold mainStep
    cases hm : s.main with
    | flush f =>
      have hf := flush_frame s f
      have hu := flush_used s f
      have hr : s.running = false := h5 (by rw [hm]; rfl)
      have hd : s.deleted = false := by cases hd : s.deleted with | false => rfl | true => have := h1 hd; rw [hm] at this; cases this
      have hc : s.closed = false := by cases hd : s.closed with | false => rfl | true => have := h2 hd; rw [hm] at this; simp at this
      simp only []
      split <;> rename_i he <;> rw [he] at hf hu <;> refine ⟨?_, ?_, ?_, ?_, fun _ => hf.1.trans hr⟩ <;> simp_all
    | test =>
      have hd : s.deleted = false := by cases hd : s.deleted with | false => rfl | true => have := h1 hd; rw [hm] at this; cases this
      have hc : s.closed = false := by cases hd : s.closed with | false => rfl | true => have := h2 hd; rw [hm] at this; simp at this
      simp only []
      split <;> refine ⟨?_, ?_, ?_, ?_, ?_⟩ <;> simp_all [ending]
    | returned => exact ⟨fun _ => hm, fun _ => .inr hm, h3, h4, fun _ => h5 (by rw [hm]; rfl)⟩
    | _ => refine ⟨?_, ?_, ?_, ?_, ?_⟩ <;> simp_all [ending, Sys.use, Sys.record]
  ·
    obtain ⟨a1, _, a3, a4, a5, _⟩ := other_frame (s := s) ho
    have hu := other_used (s := s) ho
    refine ⟨?_, ?_, ?_, ?_, ?_⟩
    · rw [a1, a5]; exact h.del
    · rw [a1, a4]; exact h.clo
    · rw [a5]; intro hx; exact (hu.1 hx).elim h.udel id
    · rw [a4]; intro hx; exact (hu.2 hx).elim h.uclo id
    · rw [a1]; intro hx; exact a3 (h.run hx)

theorem sound_run (n : Nat) (os : List Op) : Sound (run (init n) os) :=
  run_inv (I := Sound) (fun _ o h => sound_step h o) os _ ⟨by simp [init], by simp [init], by simp [init], by simp [init], by simp [init, ending]⟩

/-- **C195.** As long as `rkh_fwk_enter` has not closed the trace and deleted the critical section, neither is used wrongly; and they are
not used afterwards either if, when the main thread is about to close the trace, the idle thread is not flushing and the threads of the active objects do nothing from then on.

Missing from the full property (`objects_use_deleted_section`, `idle_uses_closed_trace`): the threads of the active objects do not end
with the framework, and the idle thread may be in the middle of a flush. -/
theorem nothing_closed_is_used_partial (n : Nat) (pre os : List Op) :
    ((run (init n) pre).main ≠ .returned → (run (init n) pre).usedDeleted = false) ∧
    ((run (init n) pre).main ≠ .delete → (run (init n) pre).main ≠ .returned → (run (init n) pre).usedClosed = false) ∧
    ((run (init n) pre).main = .close → (∀ f, (run (init n) pre).idle ≠ .flush f) → objectsSilent os →
      (run (init n) (pre ++ os)).usedDeleted = false ∧ (run (init n) (pre ++ os)).usedClosed = false) := by
  have hs := sound_run n pre
  have p1 : (run (init n) pre).main ≠ .returned → (run (init n) pre).usedDeleted = false := by
    intro h
    cases hu : (run (init n) pre).usedDeleted with
    | false => rfl
    | true => exact absurd (hs.del (hs.udel hu)) h
  have p2 : (run (init n) pre).main ≠ .delete → (run (init n) pre).main ≠ .returned → (run (init n) pre).usedClosed = false := by
    intro h h'
    cases hu : (run (init n) pre).usedClosed with
    | false => rfl
    | true => exact absurd (hs.clo (hs.uclo hu)) (by simp [h, h'])
  refine ⟨p1, p2, fun hm hi ho => ?_⟩
  rw [run_append]
  have hr := hs.run (by rw [hm]; rfl)
  have h1 := p1 (by rw [hm]; decide)
  have h2 := p2 (by rw [hm]; decide) (by rw [hm]; decide)
  generalize run (init n) pre = s at *
  have := run_inv' (I := fun s => s.running = false ∧ (s.main = .close ∨ s.main = .delete ∨ s.main = .returned) ∧ (∀ f, s.idle ≠ .flush f) ∧ s.usedDeleted = false ∧ s.usedClosed = false)
    (P := fun o => (∃ k, o = .main k) ∨ o = .idle ∨ o = .stop) (fun s o ho h => ?_) os s ho ⟨hr, .inl hm, hi, h1, h2⟩
  · exact this.2.2.2
  · obtain ⟨b1, b2, b3, b4, b5⟩ := h
    rcases ho with ⟨k, rfl⟩ | rfl | rfl
    · rcases b2 with b2 | b2 | b2 <;> simp [step, mainStep, b2, b1, b4, b5] <;> exact b3
    · simp only [step, idleStep]
      cases hc : s.idle with
      | flush f => exact absurd hc (b3 f)
      | test => simp [b1, b2, b4, b5]
      | none => exact ⟨b1, b2, b3, b4, b5⟩
      | sleep => exact ⟨b1, b2, by simp, b4, b5⟩
      | ended => exact ⟨b1, b2, b3, b4, b5⟩
    · exact ⟨rfl, b2, b3, b4, b5⟩

/-- After `rkh_fwk_enter` has returned, every call of the framework by the thread of an active object uses the deleted critical section. -/
theorem objects_use_deleted_section (n : Nat) (pre : List Op) (j k : Nat) (hm : (run (init n) pre).main = .returned) (hj : (run (init n) pre).ao j = .out) :
    (run (init n) (pre ++ [.call j k])).usedDeleted = true := by
  have hd : (run (init n) pre).deleted = true := by
    have := run_inv (I := fun s => s.main = .returned → s.deleted = true) (fun s o h => ?_) pre (init n) (by simp [init])
    · exact this hm
    · rcases op_cases o with ⟨k, rfl⟩ | ho
      ·
        simp only [step]
        unfold mainStep
        cases hm : s.main with
        | flush f => simp only []; split <;> simp
        | test => simp only []; split <;> simp
        | returned => intro _; exact h hm
        | _ => simp
      ·
        obtain ⟨a1, _, _, _, a5, _⟩ := other_frame (s := s) ho
        rw [a1, a5]; exact h
  rw [run_append]
  simp [run, step] at *
  simp [hj, Sys.use, Sys.record, hd]

/-- The idle thread, stopped in the middle of a flush, sends on the closed trace and then enters the deleted critical section. -/
theorem idle_uses_closed_trace : ∃ pre, (run (init 1) pre).main = .returned ∧ (run (init 1) pre).usedClosed = false ∧ (run (init 1) pre).usedDeleted = false ∧
    (run (init 1) (pre ++ [.idle])).usedClosed = true ∧ (run (init 1) (pre ++ [.idle, .idle])).usedDeleted = true :=
  ⟨[.main 0, .main 0, .idle, .idle, .main 0, .stop, .main 0, .main 0, .main 0, .main 0], by decide, by decide, by decide, by decide, by decide⟩

/-- Non-vacuity: an orderly end. -/
example : (run (init 1) ([.main 0, .main 0, .idle, .idle, .idle, .idle, .main 0, .stop, .main 0, .main 0] ++ [.main 0, .idle, .main 0, .idle, .idle])).usedDeleted = false :=
  ((nothing_closed_is_used_partial 1 _ _).2.2 (by decide) (notFlushing (by decide)) (by simp [objectsSilent])).1

/-! ## C196: order of the trace -/

/-- The blocks taken and not yet sent by the idle and the main thread. -/
def held (i : IPc) (m : MPc) : List Nat :=
  (match i with | .flush (.send b) => [b] | _ => []) ++ (match m with | .flush (.send b) => [b] | _ => [])

/-- No object is in `rkh_fwk_exit`, and everything recorded is sent, held or waiting, in this order. -/
structure One (s : Sys) : Prop where
  ao : ∀ j, s.ao j = .out
  start : s.main = .first ∨ s.main = .resume → s.idle = .none
  all : s.sent ++ held s.idle s.main ++ s.buf = List.range s.next
  clo : s.closed = true → s.main = .delete ∨ s.main = .returned

theorem all_record {a b : List Nat} {n : Nat} (k : Nat) (h : a ++ b = List.range n) : a ++ (b ++ List.range' n k) = List.range (n + k) := by
  rw [range_add', ← h]; simp

theorem held_idle {i : IPc} (h : ∀ f, i ≠ .flush f) (m : MPc) : held i m = held .none m := by
  cases i with
  | flush f => exact absurd rfl (h f)
  | _ => rfl

theorem One.open' {s : Sys} (h : One s) (a : s.main ≠ .delete) (b : s.main ≠ .returned) : s.closed = false := by
  cases hc : s.closed with
  | false => rfl
  | true => exact absurd (h.clo hc) (by simp [a, b])

theorem one_main {s : Sys} (k : Nat) (h : One s) (hi : ending s.main = true → ∀ f, s.idle ≠ .flush f) : One (mainStep k s) := by
  have hcl := h.open'
  obtain ⟨h1, h2, h3, h4⟩ := h
  unfold mainStep
  cases hm : s.main with
  | first =>
    have hc := hcl (by simp [hm]) (by simp [hm])
    exact ⟨h1, fun _ => h2 (.inl hm), by simpa [held, hm] using h3, by simp [hc]⟩
  | resume =>
    have hc := hcl (by simp [hm]) (by simp [hm])
    have hn := h2 (.inr hm)
    rw [hm, hn] at h3
    exact ⟨h1, by simp, by simpa [held] using h3, by simp [hc]⟩
  | start =>
    have hc := hcl (by simp [hm]) (by simp [hm])
    rw [hm] at h3
    exact ⟨h1, by simp, by simpa [held, Sys.use, Sys.record] using all_record k h3, by simp [hc, Sys.use, Sys.record]⟩
  | test =>
    have hc := hcl (by simp [hm]) (by simp [hm])
    rw [hm] at h3
    simp only []
    split <;> exact ⟨h1, by simp, by simpa [held] using h3, by simp [hc]⟩
  | sleep =>
    have hc := hcl (by simp [hm]) (by simp [hm])
    rw [hm] at h3
    exact ⟨h1, by simp, by simpa [held, Sys.use, Sys.record] using all_record k h3, by simp [hc, Sys.use, Sys.record]⟩
  | flush f =>
    have hc := hcl (by simp [hm]) (by simp [hm])
    have hn := hi (by rw [hm]; rfl)
    rw [hm, held_idle hn] at h3
    cases f with
    | get =>
      cases hb : s.buf with
      | nil =>
        simp only [flushStep, hb, Sys.use]
        refine ⟨h1, by simp, ?_, by simp [hc]⟩
        simp only [held_idle hn]
        simpa [held, hb] using h3
      | cons b bs =>
        simp only [flushStep, hb, Sys.use]
        refine ⟨h1, by simp, ?_, by simp [hc]⟩
        simp only [held_idle hn]
        simpa [held, hb] using h3
    | send b =>
      simp only [flushStep, Sys.send, hc]
      refine ⟨h1, by simp, ?_, by simp [hc]⟩
      simp only [Bool.false_eq_true, if_false, held_idle hn]
      simpa [held] using h3
  | close =>
    rw [hm] at h3
    exact ⟨h1, by simp, by simpa [held] using h3, by simp⟩
  | delete =>
    rw [hm] at h3
    exact ⟨h1, by simp, by simpa [held] using h3, by simp⟩
  | returned => exact ⟨h1, h2, h3, h4⟩

theorem one_other {s : Sys} {o : Op} (ho : ∀ k, o ≠ .main k) (he : ∀ j k, o ≠ .exit j k) (h : One s) (hi : ending s.main = true → ∀ f, s.idle ≠ .flush f) : One (step s o) := by
  have hcl := h.open'
  obtain ⟨h1, h2, h3, h4⟩ := h
  cases o with
  | main k => exact absurd rfl (ho k)
  | exit j k => exact absurd rfl (he j k)
  | stop => exact ⟨h1, h2, h3, h4⟩
  | ao j => simp only [step, aoStep, h1 j]; exact ⟨h1, h2, h3, h4⟩
  | call j k =>
    simp only [step, h1 j, if_true]
    exact ⟨h1, h2, by simpa [Sys.use, Sys.record] using all_record k h3, h4⟩
  | idle =>
    simp only [step, idleStep]
    cases hc : s.idle with
    | none => exact ⟨h1, h2, h3, h4⟩
    | ended => exact ⟨h1, h2, h3, h4⟩
    | sleep => rw [hc] at h3 h2; exact ⟨h1, fun a => (by cases h2 a), by simpa [held] using h3, h4⟩
    | test => rw [hc] at h3 h2; simp only []; split <;> exact ⟨h1, fun a => (by cases h2 a), by simpa [held] using h3, h4⟩
    | flush f =>
      have he : ending s.main = false := by
        cases he : ending s.main with
        | false => rfl
        | true => exact absurd hc (hi he f)
      have hcc := hcl (by rintro hx; rw [hx] at he; cases he) (by rintro hx; rw [hx] at he; cases he)
      have hhm : ∀ i, held i s.main = held i .test := by
        intro i
        cases hm : s.main with
        | flush f => rw [hm] at he; cases he
        | _ => rfl
      rw [hc] at h2
      rw [hc, hhm] at h3
      cases f with
      | get =>
        cases hb : s.buf with
        | nil =>
          simp only [flushStep, hb, Sys.use]
          refine ⟨h1, fun a => (by cases h2 a), ?_, h4⟩
          simp only [hhm]
          simpa [held, hb] using h3
        | cons b bs =>
          simp only [flushStep, hb, Sys.use]
          refine ⟨h1, fun a => (by cases h2 a), ?_, h4⟩
          simp only [hhm]
          simpa [held, hb] using h3
      | send b =>
        simp only [flushStep, Sys.send, hcc, Bool.false_eq_true, if_false]
        refine ⟨h1, fun a => (by cases h2 a), ?_, by simp [hcc]⟩
        simp only [hhm]
        simpa [held] using h3

theorem prefix_range {a b : List Nat} {n : Nat} (h : a ++ b = List.range n) : a = List.range a.length := by
  have hl : n = a.length + b.length := by have := congrArg List.length h; simpa using this.symm
  subst hl
  rw [range_add'] at h
  exact (List.append_inj h (by simp)).1

theorem One.inOrder {s : Sys} (h : One s) : inOrder s := prefix_range (by rw [← h.all, List.append_assoc])

theorem ending_step {s : Sys} (o : Op) (h : ending s.main = true) : ending (step s o).main = true := by
  rcases op_cases o with ⟨k, rfl⟩ | ho
  · simp only [step]
    unfold mainStep
    cases hm : s.main with
    | flush f => simp only []; split <;> rfl
    | close => rfl
    | delete => rfl
    | returned => simp only [hm]; rfl
    | _ => rw [hm] at h; cases h
  · rw [(other_frame ho).1]; exact h

theorem one_init (n : Nat) : One (init n) := ⟨fun _ => rfl, fun _ => rfl, by simp [init, held], by simp [init]⟩

theorem one_run (n : Nat) (pre : List Op) (hx : nobodyExits pre) : ending (run (init n) pre).main = true ∨ One (run (init n) pre) := by
  refine run_inv' (I := fun s => ending s.main = true ∨ One s) (P := fun o => ∀ j k, o ≠ .exit j k) (fun s o ho h => ?_) pre _ hx (.inr (one_init n))
  rcases h with h | h
  · exact .inl (ending_step o h)
  · cases he : ending s.main with
    | true => exact .inl (ending_step o he)
    | false =>
      right
      rcases op_cases o with ⟨k, rfl⟩ | hm
      · exact one_main k h (fun x => by rw [he] at x; cases x)
      · exact one_other hm ho h (fun x => by rw [he] at x; cases x)

/-- **C196.** If no object calls `rkh_fwk_exit`, the blocks of the trace arrive in the order they were recorded, without gaps, until the
main thread calls the exit hook. They go on doing so up to the end if, at some moment between the stop and the exit hook, the idle thread is not flushing; and
then everything that was recorded before the exit hook returned has arrived.

Missing from the full property (`idle_and_main_interleave`, `exit_interleaves`): flushes by several threads at a time. -/
theorem trace_in_order_partial (n : Nat) (pre os : List Op) (hp : nobodyExits pre) (ho : nobodyExits os) :
    (ending (run (init n) pre).main = false → inOrder (run (init n) pre)) ∧
    (ending (run (init n) pre).main = false → (run (init n) pre).main ≠ .first → (run (init n) pre).running = false → (∀ f, (run (init n) pre).idle ≠ .flush f) →
      inOrder (run (init n) (pre ++ os)) ∧
      ∀ k, (run (init n) (pre ++ os)).main ≠ .close → (run (init n) (pre ++ (os ++ [.main k]))).main = .close →
        (run (init n) (pre ++ (os ++ [.main k]))).sent = List.range (run (init n) (pre ++ (os ++ [.main k]))).next) := by
  have h1 : ending (run (init n) pre).main = false → One (run (init n) pre) := fun he =>
    (one_run n pre hp).elim (fun h => by rw [he] at h; cases h) id
  refine ⟨fun he => (h1 he).inOrder, fun he hm hr hi => ?_⟩
  have h := h1 he
  simp only [run_append]
  generalize run (init n) pre = s at *
  have := run_inv' (I := fun s => One s ∧ s.running = false ∧ s.main ≠ .first ∧ ∀ f, s.idle ≠ .flush f) (P := fun o => ∀ j k, o ≠ .exit j k) (fun s o ho h => ?_) os s ho ⟨h, hr, hm, hi⟩
  · refine ⟨this.1.inOrder, fun k hm hc => ?_⟩
    obtain ⟨c1, c2, c3, c4⟩ := this
    generalize run s os = u at *
    have ha := c1.all
    have hc' : (mainStep k u).main = .close := hc
    show (mainStep k u).sent = List.range (mainStep k u).next
    unfold mainStep at hc' ⊢
    cases hu : u.main with
    | flush f =>
      rw [hu, held_idle c4] at ha
      cases f with
      | send b => rw [hu] at hc'; simp [flushStep] at hc'
      | get =>
        cases hb : u.buf with
        | cons b bs => rw [hu] at hc'; simp [flushStep, hb] at hc'
        | nil => rw [hb] at ha; simpa [flushStep, hb, Sys.use, held] using ha
    | test => rw [hu] at hc'; simp [c2] at hc'
    | close => exact absurd hu hm
    | _ => rw [hu] at hc'; simp [hu] at hc'
  · obtain ⟨b1, b2, b3, b4⟩ := h
    rcases op_cases o with ⟨k, rfl⟩ | hm
    · refine ⟨one_main k b1 (fun _ => b4), (main_dist k b2 b3).1, (main_dist k b2 b3).2.1, ?_⟩
      simp only [step]
      unfold mainStep
      cases hm : s.main with
      | flush f =>
        have hf := (flush_frame s f).2.2.1
        simp only []
        split <;> rename_i he <;> rw [he] at hf <;> rw [← hf] at b4 <;> exact b4
      | test => simp only []; split <;> exact b4
      | resume => simp
      | _ => exact b4
    · obtain ⟨a1, _, a3, _, _, _⟩ := other_frame (s := s) hm
      refine ⟨one_other hm ho b1 (fun _ => b4), a3 b2, by rw [a1]; exact b3, ?_⟩
      cases o with
      | main k => exact absurd rfl (hm k)
      | exit j k => exact absurd rfl (ho j k)
      | stop => exact b4
      | call j k => simp only [step]; split <;> exact b4
      | ao j => simp only [step, aoStep, b1.ao j]; exact b4
      | idle =>
        simp only [step, idleStep]
        cases hc : s.idle with
        | flush f => exact absurd hc (b4 f)
        | test => simp [b2]
        | none => simp [hc]
        | sleep => simp
        | ended => simp [hc]

/-- The idle thread holds block 0 when the main thread flushes for the exit hook: the blocks arrive in the wrong order. The comment in
`rkh_fwk_enter` (rkhport.c:199-205) describes this corruption and avoids it at the start only. -/
theorem idle_and_main_interleave : ∃ os, nobodyExits os ∧ (run (init 2) os).sent = [1, 0] ∧ ¬inOrder (run (init 2) os) :=
  ⟨[.main 0, .main 0, .main 0, .idle, .idle, .stop, .main 0, .main 0, .main 0, .idle], by simp [nobodyExits], by decide, by unfold inOrder; decide⟩

/-- The same when an object calls `rkh_fwk_exit` while the idle thread is flushing. -/
theorem exit_interleaves : ∃ os, (run (init 2) os).running = true ∧ (run (init 2) os).sent = [1, 0] ∧ ¬inOrder (run (init 2) os) :=
  ⟨[.main 0, .main 0, .idle, .idle, .exit 3 0, .ao 3, .ao 3, .idle], by decide, by decide, by unfold inOrder; decide⟩

/-- Non-vacuity: two blocks before the start, one from a tick, one from an object after the stop. -/
example : (run (init 2) ([.main 0, .main 0, .idle, .idle, .main 0, .main 0, .main 1, .idle, .idle, .idle, .idle, .idle, .idle, .stop] ++
    ([.call 4 1, .idle, .main 0, .idle, .main 0, .main 0] ++ [.main 0]))).sent = [0, 1, 2, 3] :=
  ((trace_in_order_partial 2 _ _ (by simp [nobodyExits]) (by simp [nobodyExits])).2 (by decide) (by decide) (by decide) (notFlushing (by decide))).2 0 (by decide) (by decide)

/-! ## C197: the exit hook -/

theorem exits_law : ∀ (os : List Op) (s : Sys),
    (run s os).exits + (ending s.main).toNat = s.exits + exitCalls s os + (ending (run s os).main).toNat
  | [], s => rfl
  | o :: os, s => by
    have ih := exits_law os (step s o)
    show (run (step s o) os).exits + _ = _ + _ + (ending (run (step s o) os).main).toNat
    have key : (step s o).exits + (ending s.main).toNat + exitCalls (step s o) os = s.exits + exitCalls s (o :: os) + (ending (step s o).main).toNat := by
      cases o with
      | main k =>
        simp only [exitCalls]
        generalize exitCalls (step s (.main k)) os = c
        simp only [step]
        unfold mainStep
        cases hm : s.main with
        | flush f =>
          have hf := (flush_frame s f).2.2.2.2.2.2.2.2
          simp only []
          split <;> rename_i he <;> rw [he] at hf <;> rw [← hf] <;> simp only [ending] <;> omega
        | test => simp only []; split <;> simp [ending] <;> omega
        | returned => simp [ending, hm]; omega
        | _ => simp [ending, Sys.use, Sys.record] <;> omega
      | exit j k =>
        have a1 := (other_frame (s := s) (o := .exit j k) (by simp)).1
        rw [a1]
        simp only [exitCalls, step]
        split
        · simp only []; omega
        · omega
      | idle =>
        have a1 := (other_frame (s := s) (o := .idle) (by simp)).1
        rw [a1]
        have : (step s .idle).exits = s.exits := by
          simp only [step, idleStep]
          split
          · rfl
          · split <;> rfl
          · rename_i f _
            have hf := (flush_frame s f).2.2.2.2.2.2.2.2
            split <;> rename_i he <;> rw [he] at hf <;> exact hf
          · rfl
          · rfl
        rw [this]
        simp only [exitCalls]
        omega
      | call j k =>
        have a1 := (other_frame (s := s) (o := .call j k) (by simp)).1
        rw [a1]
        have : (step s (.call j k)).exits = s.exits := by simp only [step]; split <;> rfl
        rw [this]
        simp only [exitCalls]
        omega
      | stop =>
        show s.exits + (ending s.main).toNat + exitCalls (step s .stop) os = s.exits + exitCalls (step s .stop) os + (ending s.main).toNat
        omega
      | ao j =>
        have a1 := (other_frame (s := s) (o := .ao j) (by simp)).1
        rw [a1]
        have : (step s (.ao j)).exits = s.exits := by
          simp only [step, aoStep]
          split
          · rfl
          · rename_i f _
            have hf := (flush_frame s f).2.2.2.2.2.2.2.2
            split <;> rename_i he <;> rw [he] at hf <;> exact hf
          · rfl
        rw [this]
        simp only [exitCalls]
        omega
    omega

theorem exitCalls_none : ∀ (os : List Op) (s : Sys), nobodyExits os → exitCalls s os = 0
  | [], _, _ => rfl
  | o :: os, s, h => by
    have ih := exitCalls_none os (step s o) (fun o' ho' => h o' (List.mem_cons_of_mem _ ho'))
    cases o with
    | exit j k => exact absurd rfl (h _ List.mem_cons_self j k)
    | _ => exact ih

/-- **C197.** The exit hook is called once for every call of `rkh_fwk_exit` and once more when the main loop ends. If no object calls
`rkh_fwk_exit`, it is called exactly once before `rkh_fwk_enter` returns.

Missing from the full property (`exit_hook_twice`): with `rkh_fwk_exit` the hook is called twice. -/
theorem exit_hook_once_partial (n : Nat) (os : List Op) :
    (run (init n) os).exits = exitCalls (init n) os + (if ending (run (init n) os).main then 1 else 0) ∧
    (nobodyExits os → (run (init n) os).main = .returned → (run (init n) os).exits = 1) := by
  have h := exits_law os (init n)
  have h' : (run (init n) os).exits = exitCalls (init n) os + (if ending (run (init n) os).main then 1 else 0) := by
    have e : (init n).exits = 0 ∧ ending (init n).main = false := ⟨rfl, rfl⟩
    rw [e.1, e.2] at h
    cases hx : ending (run (init n) os).main <;> rw [hx] at h <;> simp at h ⊢ <;> exact h
  refine ⟨h', fun hn hm => ?_⟩
  rw [h', exitCalls_none os _ hn, hm]
  rfl

/-- One call of `rkh_fwk_exit`: the exit hook is called twice. -/
theorem exit_hook_twice : ∃ os, exitCalls (init 0) os = 1 ∧ (run (init 0) os).main = .returned ∧ (run (init 0) os).exits = 2 :=
  ⟨[.main 0, .main 0, .main 0, .exit 0 0, .ao 0, .ao 0, .main 0, .main 0, .main 0, .main 0], by decide, by decide, by decide⟩

/-- Non-vacuity: stopped by a key. -/
example : (run (init 0) [.main 0, .main 0, .main 0, .stop, .main 0, .main 0, .main 0, .main 0]).exits = 1 :=
  (exit_hook_once_partial 0 _).2 (by simp [nobodyExits]) (by decide)

/-! ## C198: priorities of the threads -/

theorem labelsDiffer_iff (low : Nat) : labelsDiffer low = true ↔ low ≥ 4 := by
  unfold labelsDiffer
  simp only [decide_eq_true_eq, List.nodup_cons, List.mem_cons, List.not_mem_nil, or_false, not_or, List.nodup_nil, and_true]
  constructor <;> intro h <;> simp at h ⊢ <;> omega

/-- **C198.** If the port compiles, an object of higher priority (a lower number) never gets a thread of lower priority; and it gets one
of strictly higher priority unless both numbers lie between 2 and RKH_LOWEST_PRIO - 3.

Missing from the full property (`middle_priorities_are_equal`): the numbers in between, of which there are two or more as soon as
there are eight objects; and with four objects or fewer the port does not compile (`few_priorities_do_not_compile`). -/
theorem priorities_kept_partial (low p q : Nat) (hl : labelsDiffer low = true) (hpq : p < q) (hq : q ≤ low) :
    (winPrio low q).val ≤ (winPrio low p).val ∧ (¬(2 ≤ p ∧ q + 3 ≤ low) → (winPrio low q).val < (winPrio low p).val) := by
  have := (labelsDiffer_iff low).1 hl
  unfold winPrio
  refine ⟨?_, fun h => ?_⟩ <;> (repeat' split) <;> simp only [WPrio.val] <;> omega

/-- The objects with the numbers in between all get the same priority. -/
theorem middle_priorities_are_equal (low p q : Nat) (hp : 2 ≤ p) (hpq : p < q) (hq : q + 3 ≤ low) : winPrio low p = winPrio low q := by
  unfold winPrio
  (repeat' split) <;> first | omega | rfl

/-- With a RKH_CFG_FWK_MAX_SMA of 4 or less two case labels are equal. -/
theorem few_priorities_do_not_compile (low : Nat) : labelsDiffer low = false ↔ low + 1 ≤ 4 := by
  have := labelsDiffer_iff low
  cases h : labelsDiffer low with
  | false => rw [h] at this; simp at this; simp; omega
  | true => rw [h] at this; simp at this; simp; omega

/-- Non-vacuity: eight objects, of which those with the numbers 2, 3 and 4 have the same priority. -/
example : (winPrio 7 5).val < (winPrio 7 4).val ∧ winPrio 7 3 = winPrio 7 4 :=
  ⟨(priorities_kept_partial 7 4 5 (by decide) (by decide) (by decide)).2 (by decide), middle_priorities_are_equal 7 3 4 (by decide) (by decide) (by decide)⟩

end Verif.Life.Multi
