import Verif.Sys.Signals
import Verif.Fwk.Drain
/-
Lemmas about ticks and about extending a history of the system.
-/
namespace Verif.Sys
open Verif

theorem timer_ticks_length : ∀ (ops : List Timer.Op) (a : Timer.Spec.S),
    (Timer.Spec.ticks (Timer.Spec.run a ops).1).length = Timer.nticks ops := by
  intro ops
  induction ops with
  | nil => intro a; rfl
  | cons op ops ih =>
    intro a
    cases op <;> simp [Timer.Spec.run, Timer.Spec.step, Timer.Spec.ticks, ih, Timer.nticks]

theorem timer_ticks_append (xs ys : List Timer.Out) : Timer.Spec.ticks (xs ++ ys) = Timer.Spec.ticks xs ++ Timer.Spec.ticks ys := by
  induction xs with
  | nil => rfl
  | cons x xs ih => cases x <;> simp [Timer.Spec.ticks, ih]

/-- Running timers have receivers. -/
theorem timer_receivers {W : Nat} : ∀ (ops : List Timer.Op) (a : Timer.Spec.S), Timer.Spec.Legal W a ops →
    (∀ t v, (a.tm t).sched = some v → v.sma ≠ 0) → ∀ t v, ((Timer.Spec.run a ops).2.tm t).sched = some v → v.sma ≠ 0 := by
  intro ops
  induction ops with
  | nil => intro a _ h; exact h
  | cons op ops ih =>
    intro a hl h
    apply ih _ hl.2
    intro t v hv
    cases op with
    | init u e =>
      simp only [Timer.Spec.step, Timer.Spec.set] at hv
      split at hv
      · cases hv
      · exact h t v hv
    | stop u =>
      simp only [Timer.Spec.step, Timer.Spec.set] at hv
      split at hv
      · cases hv
      · exact h t v hv
    | start u sma i p =>
      simp only [Timer.Spec.step, Timer.Spec.set] at hv
      split at hv
      · simp only [Option.some.injEq] at hv; subst hv; exact hl.1.2.1
      · exact h t v hv
    | tick =>
      simp only [Timer.Spec.step, Timer.Spec.tickT] at hv
      cases hs : (a.tm t).sched with
      | none => simp [hs] at hv
      | some u =>
        have := h t u hs
        simp only [hs, Option.bind_some, Timer.Spec.tickSched] at hv
        repeat' split at hv
        all_goals simp at hv
        all_goals (subst hv; exact this)

/-- Posting in FIFO order appends to the queues. -/
theorem posts_append {c : Fwk.Cfg} : ∀ (l : List (Nat × Nat)) (a a' : Fwk.Spec.Abs) (o : List Fwk.Out),
    runOps (Fwk.Spec.step c) a (l.map fun p => Fwk.Op.postFifo p.1 p.2) = (o, .ok a') →
    ∀ ao, Fwk.itemsOf a' ao = Fwk.itemsOf a ao ++ (l.filter fun p => p.1 == ao).map (·.2) := by
  intro l
  induction l with
  | nil => intro a a' o h ao; simp only [List.map_nil, runOps, Prod.mk.injEq, Res.ok.injEq] at h; rw [h.2]; simp
  | cons p l ih =>
    intro a a' o h ao
    simp only [List.map_cons, runOps] at h
    rcases hs : Fwk.Spec.step c a (.postFifo p.1 p.2) with ⟨a1, o1⟩ | _ | _ <;> rw [hs] at h <;>
      simp only [Prod.mk.injEq, reduceCtorEq, and_false] at h
    have := ih a1 a' _ (Prod.ext rfl h.2) ao
    rw [this]
    simp only [Fwk.Spec.step, Res.map'_eq_ok] at hs
    obtain ⟨a2, hs, h2⟩ := hs
    simp only [Prod.mk.injEq] at h2
    obtain ⟨rfl, _⟩ := h2
    unfold Fwk.Spec.post at hs
    split at hs
    · cases hs
    · rename_i x hx
      rw [Res.bind'_eq_ok] at hs
      obtain ⟨q, hq, hs⟩ := hs
      simp only [Res.ok.injEq] at hs
      rw [← hs, Fwk.itemsOf_set hx]
      unfold Fwk.Spec.qput at hq
      split at hq
      · cases hq
      · simp only [Res.ok.injEq, Bool.false_eq_true, if_false] at hq
        rw [← hq]
        by_cases hao : ao = p.1
        · subst hao; simp [Fwk.itemsOf, hx]
        · rw [if_neg hao, List.filter_cons_of_neg (by simpa using fun h => hao h.symm)]

variable {c : Cfg} {slots : List MemPool.Pool} {hdr : Nat → Fwk.Evt} {heap : Nat → Timer.Tmr} {ops : List Op} {outs : List Out} {s : Sys}

/-- The framework calls of a history are a history of the framework. -/
theorem Run.fwk (h : Run c slots hdr heap ops outs s) : Fwk.Run c.fw slots hdr (Obs.fwkOps ops outs) (Obs.fwkOuts outs) s.w :=
  ⟨h.env, h.legalF, (project ops _ _ _ h.run).1⟩

theorem Run.tmr (h : Run c slots hdr heap ops outs s) :
    runOps (Timer.step c.tm) (Timer.moduleInit heap) (Obs.tmrOps ops) = (Obs.tmrOuts outs, .ok s.tm) :=
  (project ops _ _ _ h.run).2.1

theorem Run.tmrSpec (h : Run c slots hdr heap ops outs s) :
    Obs.tmrOuts outs = (Timer.Spec.run Timer.Spec.start0 (Obs.tmrOps ops)).1 := by
  have := (Timer.timers_refine heap _ h.legalT h.fuel).1
  rw [h.tmr] at this
  exact this

theorem fwkOps_append {xs ys : List Op} {os ps : List Out} (h : os.length = xs.length) :
    Obs.fwkOps (xs ++ ys) (os ++ ps) = Obs.fwkOps xs os ++ Obs.fwkOps ys ps := by
  induction xs generalizing os with
  | nil => cases os <;> simp_all [Obs.fwkOps]
  | cons x xs ih =>
    cases os with
    | nil => simp at h
    | cons o os => simp only [List.cons_append, Obs.fwkOps, ih (by simpa using h), List.append_assoc]

theorem tmrOps_append (xs ys : List Op) : Obs.tmrOps (xs ++ ys) = Obs.tmrOps xs ++ Obs.tmrOps ys := by
  induction xs with
  | nil => rfl
  | cons x xs ih => rw [List.cons_append, tmrOps_cons, tmrOps_cons x xs, ih, List.append_assoc]

theorem tmrOuts_append (xs ys : List Out) : Obs.tmrOuts (xs ++ ys) = Obs.tmrOuts xs ++ Obs.tmrOuts ys := by
  induction xs with
  | nil => rfl
  | cons x xs ih => rw [List.cons_append, tmrOuts_cons, tmrOuts_cons x xs, ih, List.append_assoc]

theorem handled_append (ao : Nat) (xs ys : List Out) : Obs.handled ao (xs ++ ys) = Obs.handled ao xs ++ Obs.handled ao ys := by
  induction xs with
  | nil => rfl
  | cons x xs ih => rw [List.cons_append, handled_cons, handled_cons ao x xs, ih, List.append_assoc]

theorem fwkOuts_append (xs ys : List Out) : Obs.fwkOuts (xs ++ ys) = Obs.fwkOuts xs ++ Obs.fwkOuts ys := by
  simp [Obs.fwkOuts]

theorem runOps_len {S O U : Type} {f : S → O → Res (S × U)} : ∀ (ops : List O) (s s' : S) (outs : List U),
    runOps f s ops = (outs, .ok s') → outs.length = ops.length := by
  intro ops
  induction ops with
  | nil => intro s s' outs h; simp only [runOps, Prod.mk.injEq] at h; rw [← h.1]; rfl
  | cons op ops ih =>
    intro s s' outs h
    simp only [runOps] at h
    rcases hs : f s op with ⟨s1, o⟩ | _ | _ <;> rw [hs] at h <;> simp only [Prod.mk.injEq, reduceCtorEq, and_false] at h
    rw [← h.1, List.length_cons, List.length_cons, ih s1 s' _ (Prod.ext rfl h.2)]

theorem Run.len (h : Run c slots hdr heap ops outs s) : outs.length = ops.length := runOps_len _ _ _ _ h.run

/-- The last step of a history. -/
theorem Run.last {op : Op} {o : Out} {s' : Sys} (h : Run c slots hdr heap ops outs s)
    (h' : Run c slots hdr heap (ops ++ [op]) (outs ++ [o]) s') : step c s op = .ok (s', o) := by
  have h1 := h'.run
  obtain ⟨k1, k2⟩ := runOps_append_ok ops [op] (init c slots hdr heap) s (f := step c) (by rw [h.run])
  rw [h1] at k2
  rw [h1, h.run] at k1
  simp only [List.append_cancel_left_eq] at k1 k2
  simp only [runOps] at k1 k2
  rcases hs : step c s op with ⟨s1, o1⟩ | _ | _ <;> rw [hs] at k1 k2 <;> simp at k1 k2
  rw [k1, k2]

theorem Run.legal_last {op : Op} {o : Out} {s' : Sys} (h : Run c slots hdr heap ops outs s)
    (h' : Run c slots hdr heap (ops ++ [op]) (outs ++ [o]) s') {a : Fwk.Spec.Abs}
    (hr : runOps (Fwk.Spec.step c.fw) (Fwk.Spec.init fun e => (hdr e).sig) (Obs.fwkOps ops outs) = (Obs.fwkOuts outs, .ok a)) :
    Fwk.Spec.LegalRun c.fw a (Obs.fwkOps1 op o) := by
  have := h'.legalF
  rw [fwkOps_append h.len, Fwk.legalRun_append] at this
  simpa [Obs.fwkOps] using this.2 _ _ hr

/-- There is a state machine for every active object. -/
theorem objs_length (wf : Fwk.Wf c.fw) : ∀ (ops : List Op) (s s' : Sys) (outs : List Out) (a : Fwk.Spec.Abs),
    runOps (step c) s ops = (outs, .ok s') → Fwk.R c.fw s.w a → Fwk.Spec.LegalRun c.fw a (Obs.fwkOps ops outs) →
    s.objs.length = s.w.aos.length → s'.objs.length = s'.w.aos.length := by
  intro ops
  induction ops with
  | nil =>
    intro s s' outs a h _ _ hl
    simp only [runOps, Prod.mk.injEq, Res.ok.injEq] at h
    obtain ⟨rfl, rfl⟩ := h
    exact hl
  | cons op ops ih =>
    intro s s' outs a h hR hl hlen
    simp only [runOps] at h
    rcases hs : step c s op with ⟨s1, o⟩ | _ | _ <;> rw [hs] at h <;> simp only [Prod.mk.injEq, reduceCtorEq, and_false] at h
    obtain ⟨rfl, h⟩ := h
    have sp := split hs
    simp only [Obs.fwkOps] at hl
    rw [Fwk.legalRun_append] at hl
    obtain ⟨a1, hr1, hR1⟩ := sim_ok wf hR hl.1 sp.fwk
    have hb := Fwk.books_run wf _ _ _ _ _ hR hl.1 hr1
    refine ih s1 s' _ a1 (Prod.ext rfl h) hR1 (hl.2 _ _ hr1) ?_
    have hp := congrArg List.length hb.prio
    simp only [List.length_map, List.length_append] at hp
    rw [hR1.ao.aos.1, hp, ← hR.ao.aos.1, ← hlen]
    have hsh := sp.shape
    cases op with
    | activate =>
      cases o <;> simp only [Shape] at hsh
      rcases sp.new with ⟨h1, _⟩ | ⟨_, _, x, _, _, h2, _⟩
      · simp [Obs.machines] at h1
      · rw [h2]; simp [Obs.fwkOps1, Fwk.Obs.activations]
    | fetch =>
      cases o <;> simp only [Shape] at hsh
      rcases sp.new with ⟨_, h1⟩ | ⟨_, _, x, _, h2, _⟩
      · rw [h1]; simp [Obs.fwkOps1, Fwk.Obs.activations]
      · simp [Obs.machines] at h2
    | take =>
      cases o <;> simp only [Shape] at hsh
      rcases sp.new with ⟨_, h1⟩ | ⟨_, _, x, _, h2, _⟩
      · rw [h1]; simp [Obs.fwkOps1, Fwk.Obs.activations]
      · simp [Obs.machines] at h2
    | tick =>
      cases o <;> simp only [Shape] at hsh
      rename_i l
      rcases sp.new with ⟨_, h1⟩ | ⟨_, _, x, _, h2, _⟩
      · rw [h1]
        have : Fwk.Obs.activations (l.map fun p => Fwk.Op.postFifo (p.sma - 1) p.evt) = [] := by
          clear hp hb hr1 hl hs h sp
          induction l with
          | nil => rfl
          | cons p l ih => exact ih
        simp [Obs.fwkOps1, this]
      · simp [Obs.machines] at h2
    | tmr =>
      cases o <;> simp only [Shape] at hsh
      rcases sp.new with ⟨_, h1⟩ | ⟨_, _, x, _, h2, _⟩
      · rw [h1]; simp [Obs.fwkOps1, Fwk.Obs.activations]
      · simp [Obs.machines] at h2
    | call op =>
      cases o <;> simp only [Shape] at hsh
      rcases sp.new with ⟨_, h1⟩ | ⟨_, _, x, _, h2, _⟩
      · rw [h1]
        cases op <;> first | rfl | (simp [step] at hs)
      · simp [Obs.machines] at h2

end Verif.Sys
