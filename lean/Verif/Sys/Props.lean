import Verif.Sys.Ticks
/-
Properties C79-C84 of the whole system: framework, state machines and timers together.
-/
namespace Verif.Sys
open Verif

variable {c : Cfg} {slots : List MemPool.Pool} {hdr : Nat → Fwk.Evt} {heap : Nat → Timer.Tmr} {ops : List Op} {outs : List Out} {s : Sys}

/-! ### C79, C81: active objects do not interfere with each other -/

/-- **C79.** In every history of the system, the data of every active object (state, histories, everything its actions
recorded) are those its state machine has when it is run alone, without framework, on the signals of the events
dispatched to the object, in that order. -/
theorem object_behaves_as_alone (h : Run c slots hdr heap ops outs s) {ao : Nat} {m : SM.Machine} {env : SM.Env}
    (hm : (Obs.machines ops)[ao]? = some (m, env)) :
    ∃ x, s.objs[ao]? = some x ∧ x.m = m ∧ x.env = env ∧ Spec.Life m env (Obs.handled ao outs) x.mem := by
  have := born ops _ _ _ h.run ao m env hm
  simpa [init] using this

/-- **C81.** Two histories, possibly of different systems with other objects, priorities, timers, queue sizes and
interleavings: if the same state machine was given the same signals in both, it is in the same situation and did the
same. -/
theorem same_events_same_behaviour {c2 : Cfg} {slots2 : List MemPool.Pool} {hdr2 : Nat → Fwk.Evt} {heap2 : Nat → Timer.Tmr}
    {ops2 : List Op} {outs2 : List Out} {s2 : Sys} (h : Run c slots hdr heap ops outs s)
    (h2 : Run c2 slots2 hdr2 heap2 ops2 outs2 s2) {i j : Nat} {m : SM.Machine} {env : SM.Env}
    (hi : (Obs.machines ops)[i]? = some (m, env)) (hj : (Obs.machines ops2)[j]? = some (m, env))
    (he : Obs.handled i outs = Obs.handled j outs2) :
    ∃ x y, s.objs[i]? = some x ∧ s2.objs[j]? = some y ∧ x.mem = y.mem := by
  obtain ⟨x, hx, _, _, h3⟩ := object_behaves_as_alone h hi
  obtain ⟨y, hy, _, _, h4⟩ := object_behaves_as_alone h2 hj
  rw [← he] at h4
  exact ⟨x, y, hx, hy, h3.unique h4⟩

/-! ### C80: from sending to handling -/

theorem current_sig {w : Fwk.World} {a : Fwk.Spec.Abs} {c : Fwk.Cfg} (h : Fwk.R c w a) {ao e : Nat} (he : e ∈ Fwk.itemsOf a ao) :
    a.sig e = (w.hdr e).sig := by
  rcases (h.ev.hold e (mem_items_holders he)).2 with hs | ⟨k, hk⟩
  · rw [h.ev.hdrS e hs]
  · rw [h.ev.hdrU k e hk]

/-- **C80.** If nothing is posted to an object in LIFO order or recalled for it, then the signals sent to it (by posts of
other objects, interrupts and timers, and by publishing), each read at the moment of sending, are the signals its state machine was
given, in that order, followed by the signals of the events still in its queue. No event is lost, duplicated,
reordered, or changed on the way. -/
theorem handled_in_sending_order (h : Run c slots hdr heap ops outs s) {ao : Nat} {x : Fwk.Ao} (hx : s.w.aos[ao]? = some x)
    (hf : ∀ op ∈ Obs.fwkOps ops outs, (∀ e, op ≠ .postLifo ao e) ∧ ∀ i, op ≠ .recall ao i) :
    Obs.sentSigs ao ((Obs.fwkOps ops outs).zip (Obs.fwkOuts outs)) [] (fun _ => none) (fun _ _ => false) (fun e => (hdr e).sig) =
      Obs.handled ao outs ++ (Fwk.Obs.contents x.q).map fun e => (s.w.hdr e).sig := by
  obtain ⟨a, hR, hr, hb⟩ := h.fwk.full
  have h1 := fifo_sigs_run h.env.wf ao _ _ _ _ _ (Fwk.R_init h.env) h.legalF hr hf (by simp [Fwk.Spec.init])
  have h2 := handled_eq h.env.wf ao ops _ _ _ _ h.run (Fwk.R_init h.env) h.legalF
  rw [h2]
  refine Eq.trans (by rfl) (h1.trans ?_)
  congr 1
  have hlt : ao < a.aos.length := by rw [← hR.ao.aos.1]; exact (List.getElem?_eq_some_iff.mp hx).1
  have hrel := (hR.ao.aos.2 ao x _ hx (List.getElem?_eq_getElem hlt)).2
  have hit : Fwk.itemsOf a ao = Fwk.Obs.contents x.q := by
    rw [Fwk.contents_eq hrel]; simp [Fwk.itemsOf, List.getElem?_eq_getElem hlt]
  rw [← hit]
  exact List.map_congr_left fun e he => current_sig hR he

/-! ### C82: ticks -/

/-- **C82.** A tick appends to the queue of every active object the events of the timers that expire and address it, in the
order of the posts, and changes nothing else in the queues and nothing in the objects. A timer started with `n` ticks and
period `p`, and not touched since, posts at the tick exactly if it is due. A timer that was stopped or initialised since its
last start, or never started, posts nothing. -/
theorem tick_delivers_due_timers {s' : Sys} {o : Out} (h : Run c slots hdr heap ops outs s)
    (h' : Run c slots hdr heap (ops ++ [.tick]) (outs ++ [o]) s') :
    ∃ l, o = .posts l ∧ s'.objs = s.objs ∧
      (∀ ao x, s.w.aos[ao]? = some x → ∃ x', s'.w.aos[ao]? = some x' ∧
        Fwk.Obs.contents x'.q = Fwk.Obs.contents x.q ++ (l.filter fun p => p.sma == ao + 1).map (·.evt)) ∧
      (∀ t sma n p hist rest, Obs.tmrOps ops = hist ++ .start t sma n p :: rest → (∀ op ∈ rest, Timer.Spec.concerns t op = false) →
        l.filter (fun q => q.tmr == t) =
          if Timer.Spec.Fires n p (Timer.nticks rest + 1) then [⟨t, sma, Timer.Spec.lastEvt t hist⟩] else []) ∧
      (∀ t hist rest, Obs.tmrOps ops = hist ++ rest → hist = [] ∨ (∃ hist' op, hist = hist' ++ [op] ∧ (op = .stop t ∨ ∃ e, op = .init t e)) →
        (∀ sma n p, Timer.Op.start t sma n p ∉ rest) → l.filter (fun q => q.tmr == t) = []) := by
  have hs := h.last h'
  have sp := split hs
  have hsh := sp.shape
  cases o <;> simp only [Shape] at hsh
  rename_i l
  refine ⟨l, rfl, ?_, ?_, ?_, ?_⟩
  · simp only [step, Res.bind'_eq_ok] at hs
    obtain ⟨_, _, _, _, h3⟩ := hs
    simp only [Res.ok.injEq, Prod.mk.injEq] at h3
    rw [← h3.1]
  · intro ao x hx
    obtain ⟨a, hR, hr, _⟩ := h.fwk.full
    have hl := h.legal_last h' hr
    obtain ⟨a', hr', hR'⟩ := sim_ok h.env.wf hR hl sp.fwk
    have hi := posts_append (c := c.fw) (l.map fun p => (p.sma - 1, p.evt)) a a' (Obs.fwkOuts1 (.posts l)) (by
      rw [← hr']; simp [Obs.fwkOps1, Function.comp_def]) ao
    have hne : ∀ p ∈ l, p.sma ≠ 0 := by
      have h1 := h'.tmrSpec
      rw [tmrOps_append, tmrOuts_append, h.tmrSpec, Timer.run_append] at h1
      have h2 : Timer.Out.posts l = (Timer.Spec.step (Timer.Spec.run Timer.Spec.start0 (Obs.tmrOps ops)).2 .tick).2 := by
        simpa [Obs.tmrOps, Obs.tmrOuts, Timer.Spec.run] using h1
      simp only [Timer.Spec.step, Timer.Out.posts.injEq] at h2
      intro p hp
      rw [h2, List.mem_filterMap] at hp
      obtain ⟨t, _, hp⟩ := hp
      unfold Timer.Spec.fire at hp
      split at hp
      · rename_i v hv
        split at hp
        · simp only [Option.some.injEq] at hp
          rw [← hp]
          exact timer_receivers (Obs.tmrOps ops) Timer.Spec.start0 h.legalT (by simp [Timer.Spec.start0]) t v hv
        · cases hp
      · cases hp
    have hlt : ao < a.aos.length := by rw [← hR.ao.aos.1]; exact (List.getElem?_eq_some_iff.mp hx).1
    have hb := (Fwk.books_run h.env.wf _ _ _ _ _ hR hl hr').prio
    have hlt' : ao < a'.aos.length := by
      have := congrArg List.length hb
      simp only [List.length_map, List.length_append] at this
      omega
    obtain ⟨x', hx', _, hq'⟩ := hR'.ao.aos.get (List.getElem?_eq_getElem hlt')
    have hq := (hR.ao.aos.2 ao x _ hx (List.getElem?_eq_getElem hlt)).2
    refine ⟨x', hx', ?_⟩
    rw [Fwk.contents_eq hq', Fwk.contents_eq hq]
    simp only [Fwk.itemsOf, List.getElem?_eq_getElem hlt, List.getElem?_eq_getElem hlt', Option.map_some, Option.getD_some] at hi
    rw [hi]
    congr 1
    rw [List.filter_map, List.map_map]
    simp only [Function.comp_def]
    congr 1
    apply List.filter_congr
    intro p hp
    have := hne p hp
    rw [Bool.eq_iff_iff, beq_iff_eq, beq_iff_eq]
    omega
  · intro t sma n p hist rest hops hc
    have e1 : Obs.tmrOps (ops ++ [.tick]) = hist ++ .start t sma n p :: (rest ++ [.tick]) := by
      rw [tmrOps_append, hops]; simp [Obs.tmrOps]
    have hl' := h'.legalT
    have hf' := h'.fuel
    rw [e1] at hl' hf'
    refine Timer.timer_fires_exactly_when_due heap hist (rest ++ [.tick]) t sma n p hl' hf' ?_ (Timer.nticks rest) l ?_
    · intro op hop
      simp only [List.mem_append, List.mem_singleton] at hop
      rcases hop with hop | rfl
      · exact hc op hop
      · rfl
    · have h1 := h'.tmr
      rw [e1] at h1
      have h2 := h.tmrSpec
      rw [hops, Timer.run_append] at h2
      rw [h1]
      simp only [tmrOuts_append, Obs.tmrOuts]
      rw [h2]
      simp only [Timer.Spec.run]
      generalize hA : Timer.Spec.run Timer.Spec.start0 hist = A
      have hlen : A.1.length = hist.length := by rw [← hA]; exact Timer.run_length _ _
      rw [List.append_assoc, ← hlen, List.drop_append]
      simp only [List.drop_of_length_le (Nat.le_succ _), Nat.add_sub_cancel_left, List.nil_append, List.cons_append,
        List.drop_succ_cons, List.drop_zero]
      rw [timer_ticks_append, List.getElem?_append_right (by rw [timer_ticks_length]; exact Nat.le_refl _), timer_ticks_length]
      simp [Timer.Spec.ticks]
  · intro t hist rest hops hh hns
    have h1 := h'.tmrSpec
    rw [tmrOps_append, tmrOuts_append, h.tmrSpec, Timer.run_append, List.append_cancel_left_eq] at h1
    have hI := Timer.sinv_run Timer.sinv_start0 (hist)
    have hn : ((Timer.Spec.run Timer.Spec.start0 hist).2.tm t).sched = none := by
      rcases hh with rfl | ⟨hist', op, rfl, hop⟩
      · rfl
      · rw [Timer.run_append]
        simp only [Timer.Spec.run]
        rcases hop with rfl | ⟨e, rfl⟩ <;> simp [Timer.Spec.step, Timer.set_same]
    refine Timer.silent_run (rest ++ [.tick]) _ t hI hn ?_ l ?_
    · intro sma n p hm
      simp only [List.mem_append, List.mem_singleton, reduceCtorEq, or_false] at hm
      exact hns sma n p hm
    · rw [Timer.run_append, timer_ticks_append]
      apply List.mem_append_right
      rw [hops, Timer.run_append] at h1
      simp only [Obs.tmrOps, Obs.tmrOuts] at h1
      rw [← h1]
      simp [Timer.Spec.ticks]

/-! ### C84: all work gets done -/

theorem fetch_step {c : Cfg} {s : Sys} {w' : Fwk.World} {ao e f : Nat} {x : Obj}
    (h : Fwk.step c.fw s.w .fetch = .ok (w', .dispatch ao e)) (hx : s.objs[ao]? = some x)
    (hr : SM.Spec.Returns (SM.dispatch x.m x.env f (w'.hdr e).sig x.mem).2) :
    step c s (.fetch f) = .ok ({ s with w := w', objs := s.objs.set ao { x with mem := (SM.dispatch x.m x.env f (w'.hdr e).sig x.mem).1 } },
      .handled ao e (w'.hdr e).sig (SM.dispatch x.m x.env f (w'.hdr e).sig x.mem).2) := by
  simp only [Fwk.step] at h
  split at h
  · rename_i i hph
    rw [Res.map'_eq_ok] at h
    obtain ⟨⟨w1, e1⟩, h1, h2⟩ := h
    simp only [Prod.mk.injEq, Fwk.Out.dispatch.injEq] at h2
    obtain ⟨rfl, rfl, rfl⟩ := h2
    simp only at hr
    simp only [step, hph, h1, Res.bind'_ok, hx]
    rcases hr with hr | ⟨k, hr⟩ <;> simp [hr, ended]
  · cases h

/-- Every dispatch of every state machine of the system returns, now and after any sequence of events (the signal of the
creation event is reserved for `rkh_sm_init`). -/
def AlwaysReturn (s : Sys) : Prop :=
  ∀ (ao : Nat) (x : Obj), s.objs[ao]? = some x → ∀ (es : List Nat) (mem : SM.Mem), SM.sigCreation ∉ es →
    Spec.Dispatches x.m x.env x.mem es mem → ∀ e, e ≠ SM.sigCreation → ∃ f, SM.Spec.Returns (SM.dispatch x.m x.env f e mem).2

/-- `fs.length` rounds of the scheduler with the step budgets `fs`, and a last look for work. -/
def schedule (fs : List Nat) : List Op := fs.flatMap (fun f => [.call .select, .fetch f, .call .done]) ++ [.call .select]

theorem drain_sys (wf : Fwk.Wf c.fw) : ∀ (l : List (Nat × Nat)) (s : Sys) (a : Fwk.Spec.Abs), Fwk.R c.fw s.w a → a.ph = .none →
    Fwk.Spec.NoRecall a → Fwk.todoA c.fw a = l → s.objs.length = s.w.aos.length →
    AlwaysReturn s → (∀ y ∈ l, a.sig y.2 ≠ SM.sigCreation) → ∃ fs outs s', fs.length = l.length ∧ runOps (step c) s (schedule fs) = (outs ++ [.call .idle], .ok s') := by
  intro l
  induction l with
  | nil =>
    intro s a hR hph hnr ht hlen hterm hsig
    have h1 := Fwk.idle_spec ht
    obtain ⟨h2, _⟩ := Fwk.sim_step wf hR .select ⟨hph, hnr⟩
    rw [h1] at h2
    rcases hs : Fwk.step c.fw s.w .select with ⟨w', o⟩ | _ | _ <;> rw [hs] at h2 <;> simp only [StepRel] at h2
    obtain ⟨_, rfl⟩ := h2
    exact ⟨[], [], { s with w := w' }, rfl, by simp [schedule, runOps, step, hs, Res.map']⟩
  | cons y l ih =>
    intro s a hR hph hnr ht hlen hterm hsig
    obtain ⟨a1, a2, a3, s1, s2, s3, hl, hph3, hnr3, ht3⟩ := Fwk.round_spec hR hph hnr ht
    obtain ⟨hl1, hl'⟩ := hl
    obtain ⟨hl2, hl'⟩ := hl' _ _ s1
    obtain ⟨hl3, _⟩ := hl' _ _ s2
    obtain ⟨k1, _⟩ := Fwk.sim_step wf hR .select hl1
    rw [s1] at k1
    rcases e1 : Fwk.step c.fw s.w .select with ⟨w1, o1⟩ | _ | _ <;> rw [e1] at k1 <;> simp only [StepRel] at k1
    obtain ⟨hR1, rfl⟩ := k1
    obtain ⟨k2, _⟩ := Fwk.sim_step wf hR1 .fetch hl2
    rw [s2] at k2
    rcases e2 : Fwk.step c.fw w1 .fetch with ⟨w2, o2⟩ | _ | _ <;> rw [e2] at k2 <;> simp only [StepRel] at k2
    obtain ⟨hR2, rfl⟩ := k2
    obtain ⟨k3, _⟩ := Fwk.sim_step wf hR2 .done hl3
    rw [s3] at k3
    rcases e3 : Fwk.step c.fw w2 .done with ⟨w3, o3⟩ | _ | _ <;> rw [e3] at k3 <;> simp only [StepRel] at k3
    obtain ⟨hR3, rfl⟩ := k3
    have n1 := (Fwk.books hR s1).prio
    have n2 := (Fwk.books hR1 s2).prio
    have n3 := (Fwk.books hR2 s3).prio
    have hn1 : a1.aos.length = a.aos.length := by simpa [Fwk.Obs.activations] using congrArg List.length n1
    have hn3 : a3.aos.length = a.aos.length := by
      have h2 : a2.aos.length = a1.aos.length := by simpa [Fwk.Obs.activations] using congrArg List.length n2
      have h3 : a3.aos.length = a2.aos.length := by simpa [Fwk.Obs.activations] using congrArg List.length n3
      omega
    have hlt : y.1 < s.objs.length := by
      have : y.1 < a1.aos.length := by
        simp only [Fwk.Spec.step] at s2
        split at s2
        · split at s2
          · cases s2
          · rename_i ao _ x hx
            split at s2
            · cases s2
            · simp only [Res.ok.injEq, Prod.mk.injEq, Fwk.Out.dispatch.injEq] at s2
              rw [← s2.2.1]
              exact (List.getElem?_eq_some_iff.mp hx).1
        · cases s2
      rw [hlen, hR.ao.aos.1]; omega
    have hx : s.objs[y.1]? = some s.objs[y.1] := List.getElem?_eq_getElem hlt
    generalize s.objs[y.1] = x at hx
    have g1 : a1.sig = a.sig := (Fwk.books hR s1).sig
    have g2 : a2.sig = a1.sig := (Fwk.books hR1 s2).sig
    have g3 : a3.sig = a2.sig := (Fwk.books hR2 s3).sig
    have hsy : (w2.hdr y.2).sig ≠ SM.sigCreation := by
      have hph2 : a2.ph = .run y.1 y.2 := by
        simp only [Fwk.Spec.step] at s2
        split at s2
        · split at s2
          · cases s2
          · split at s2
            · cases s2
            · simp only [Res.ok.injEq, Prod.mk.injEq, Fwk.Out.dispatch.injEq] at s2
              rw [← s2.1, s2.2.1, s2.2.2]
        · cases s2
      have hin : y.2 ∈ Fwk.Spec.holders a2 := by simp [Fwk.Spec.holders, hph2, Fwk.Spec.phEvts]
      have : (w2.hdr y.2).sig = a2.sig y.2 := by
        rcases (hR2.ev.hold _ hin).2 with hs | ⟨k, hk⟩
        · rw [hR2.ev.hdrS _ hs]
        · rw [hR2.ev.hdrU k _ hk]
      rw [this, g2, g1]
      exact hsig y (by simp)
    obtain ⟨f, hf⟩ := hterm y.1 x hx [] x.mem (by simp) .nil (w2.hdr y.2).sig hsy
    have t2 := fetch_step (c := c) (s := { s with w := w1 }) (f := f) e2 hx hf
    generalize hs2 : ({ s with w := w2, objs := s.objs.set y.1 { x with mem := (SM.dispatch x.m x.env f (w2.hdr y.2).sig x.mem).1 } } : Sys) = S2 at t2
    have hterm3 : AlwaysReturn S2 := by
      intro ao z hz es mem hes hd e he
      rw [← hs2] at hz
      simp only [List.getElem?_set] at hz
      split at hz
      · simp only [Option.some.injEq] at hz
        subst hz
        exact hterm y.1 x hx _ mem (by simp [hes, Ne.symm hsy]) (.cons (f := f) rfl hf hd) e he
      · exact hterm ao z hz es mem hes hd e he
    obtain ⟨fs, outs, s', hlen', hrun⟩ := ih { S2 with w := w3 } a3 hR3 hph3 hnr3 ht3
      (by rw [← hs2]; simp only [List.length_set]; rw [hlen, hR.ao.aos.1, hR3.ao.aos.1, hn3]) hterm3 (by rw [g3, g2, g1]; exact fun z hz => hsig z (by simp [hz]))
    have hw2 : S2.w = w2 := by rw [← hs2]
    refine ⟨f :: fs, [.call (.chose y.1), .handled y.1 y.2 (w2.hdr y.2).sig (SM.dispatch x.m x.env f (w2.hdr y.2).sig x.mem).2, .call .unit] ++ outs, s', by simp [hlen'], ?_⟩
    have r3 : runOps (step c) s [.call .select, .fetch f, .call .done] =
        ([.call (.chose y.1), .handled y.1 y.2 (w2.hdr y.2).sig (SM.dispatch x.m x.env f (w2.hdr y.2).sig x.mem).2, .call .unit],
          .ok { S2 with w := w3 }) := by
      have t1 : step c s (.call .select) = .ok ({ s with w := w1 }, .call (.chose y.1)) := by simp [step, e1, Res.map']
      have t3 : step c S2 (.call .done) = .ok ({ S2 with w := w3 }, .call .unit) := by simp [step, hw2, e3, Res.map']
      simp [runOps, t1, t2, t3]
    have := runOps_append2 r3 hrun
    simpa [schedule] using this

theorem schedule_fwk : ∀ (fs : List Nat) (s s' : Sys) (outs : List Out), runOps (step c) s (schedule fs) = (outs, .ok s') →
    Obs.fwkOps (schedule fs) outs = Fwk.Obs.rounds fs.length ++ [.select] := by
  intro fs
  induction fs with
  | nil =>
    intro s s' outs h
    have := runOps_len _ _ _ _ h
    simp only [schedule, List.flatMap_nil, List.nil_append] at this ⊢
    match outs, this with
    | [o], _ => rfl
  | cons f fs ih =>
    intro s s' outs h
    have e : schedule (f :: fs) = [.call .select, .fetch f, .call .done] ++ schedule fs := by simp [schedule]
    rw [e] at h ⊢
    have := runOps_len _ _ _ _ h
    match outs, this with
    | o1 :: o2 :: o3 :: outs, _ =>
      have key : ∀ (op : Op) (ops : List Op) (s s' : Sys) (o : Out) (outs : List Out),
          runOps (step c) s (op :: ops) = (o :: outs, .ok s') → ∃ s1, runOps (step c) s1 ops = (outs, .ok s') := by
        intro op ops s s' o outs h
        simp only [runOps] at h
        rcases hs : step c s op with ⟨s1, o'⟩ | _ | _ <;> rw [hs] at h <;>
          simp only [Prod.mk.injEq, reduceCtorEq, and_false, List.cons.injEq] at h
        exact ⟨s1, Prod.ext h.1.2 h.2⟩
      obtain ⟨_, h⟩ := key _ _ _ _ _ _ h
      obtain ⟨_, h⟩ := key _ _ _ _ _ _ h
      obtain ⟨_, h⟩ := key _ _ _ _ _ _ h
      have := ih _ _ _ h
      simp only [List.cons_append, List.nil_append, Obs.fwkOps, Obs.fwkOps1, this, Fwk.Obs.rounds, List.length_cons,
        List.replicate_succ, List.flatten_cons]

theorem procSigs_shown (ao : Nat) (sig : Nat → Nat) : ∀ (l : List (Nat × Nat)),
    procSigs ao ((Fwk.Obs.rounds l.length ++ [Fwk.Op.select]).zip (Fwk.shown l ++ [Fwk.Out.idle])) sig =
      (l.filter fun x => x.1 == ao).map fun x => sig x.2 := by
  intro l
  induction l with
  | nil => rfl
  | cons y l ih =>
    simp only [List.length_cons, Fwk.Obs.rounds, List.replicate_succ, List.flatten_cons, Fwk.shown, List.flatMap_cons, List.cons_append,
      List.nil_append, List.zip_cons_cons, procSigs]
    have e : ∀ (op : Fwk.Op) (o : Fwk.Out), (∀ n g, op ≠ .alloc n g) → Fwk.Obs.signal [(op, o)] sig = sig := by
      intro op o h
      cases op <;> first | rfl | exact absurd rfl (h _ _)
    rw [e .select _ (by simp), e .fetch _ (by simp), e .done _ (by simp)]
    have ih' : procSigs ao (((List.replicate l.length [Fwk.Op.select, Fwk.Op.fetch, Fwk.Op.done]).flatten ++ [Fwk.Op.select]).zip
        ((l.flatMap fun x => [Fwk.Out.chose x.1, Fwk.Out.dispatch x.1 x.2, Fwk.Out.unit]) ++ [Fwk.Out.idle])) sig = _ := ih
    rw [ih']
    by_cases hy : y.1 = ao
    · simp [Fwk.Obs.dispatched, hy]
    · simp [Fwk.Obs.dispatched, hy]

/-- **C84.** If the state machines always return from a dispatch, then the system left alone between two dispatches works off
everything: after exactly as many rounds as events were waiting it is idle, the queues of all registered objects are empty, no
call failed, and every object was given exactly the signals of the events that were waiting for it, in order. -/
theorem system_drains (h : Run c slots hdr heap ops outs s) (hph : s.w.ph = .none) (hnr : Fwk.Obs.NoRecall s.w)
    (hterm : AlwaysReturn s) (hsig : ∀ x ∈ Fwk.Obs.todo s.w, (s.w.hdr x.2).sig ≠ SM.sigCreation) : ∃ fs outs' s', fs.length = (Fwk.Obs.todo s.w).length ∧
      Run c slots hdr heap (ops ++ schedule fs) (outs ++ (outs' ++ [.call .idle])) s' ∧
      (∀ p x, Fwk.Obs.registered s'.w p = some x → Fwk.Obs.contents x.q = []) ∧
      ∀ ao, Obs.handled ao outs' = ((Fwk.Obs.todo s.w).filter fun x => x.1 == ao).map fun x => (s.w.hdr x.2).sig := by
  obtain ⟨a, hR, hr, hb⟩ := h.fwk.full
  have hlen := objs_length h.env.wf ops _ _ _ _ h.run (Fwk.R_init h.env) h.legalF rfl
  have hpha : a.ph = .none := by rw [← hR.ph]; exact hph
  have hnra : Fwk.Spec.NoRecall a := fun t ht => hnr t (by rw [hR.conts]; exact ht)
  have hcur : ∀ x ∈ Fwk.Obs.todo s.w, a.sig x.2 = (s.w.hdr x.2).sig := by
    intro x hx'
    rw [Fwk.todo_eq hR] at hx'
    unfold Fwk.todoA at hx'
    rw [List.mem_flatMap] at hx'
    obtain ⟨p, _, hx'⟩ := hx'
    unfold Fwk.todoP at hx'
    split at hx'
    · cases hx'
    · rw [List.mem_map] at hx'
      obtain ⟨e, he, rfl⟩ := hx'
      exact current_sig hR he
  have hsiga : ∀ x ∈ Fwk.Obs.todo s.w, a.sig x.2 ≠ SM.sigCreation := fun x hx => by rw [hcur x hx]; exact hsig x hx
  obtain ⟨fs, outs', s', hfs, hrun⟩ := drain_sys h.env.wf (Fwk.Obs.todo s.w) s a hR hpha hnra (Fwk.todo_eq hR).symm hlen hterm hsiga
  have hops := schedule_fwk fs _ _ _ hrun
  obtain ⟨hl, a', hsp, hph', hnr', ht'⟩ := Fwk.drain_spec h.env.wf (Fwk.Obs.todo s.w) s.w a hR hpha hnra (Fwk.todo_eq hR).symm
  rw [← hfs] at hl hsp
  have hpr := (project (schedule fs) s s' _ hrun).1
  rw [hops] at hpr
  obtain ⟨a2, hr2, hR2⟩ := sim_ok h.env.wf hR hl hpr
  rw [hsp] at hr2
  simp only [Prod.mk.injEq, Res.ok.injEq] at hr2
  obtain ⟨ho, rfl⟩ := hr2
  have htm : Obs.tmrOps (schedule fs) = [] := by
    unfold schedule
    rw [tmrOps_append]
    have : ∀ fs : List Nat, Obs.tmrOps (fs.flatMap fun f => [Op.call .select, .fetch f, .call .done]) = [] := by
      intro fs
      induction fs with
      | nil => rfl
      | cons f fs ih => simp only [List.flatMap_cons, tmrOps_append, ih]; rfl
    rw [this]; rfl
  have hRun : Run c slots hdr heap (ops ++ schedule fs) (outs ++ (outs' ++ [.call .idle])) s' := by
    refine ⟨h.env, ?_, ?_, ?_, ?_⟩
    · rw [fwkOps_append h.len, Fwk.legalRun_append]
      refine ⟨h.legalF, fun o b hb' => ?_⟩
      rw [hr] at hb'; cases hb'
      rw [hops]; exact hl
    · rw [tmrOps_append, htm, List.append_nil]; exact h.legalT
    · rw [tmrOps_append, htm, List.append_nil]; exact h.fuel
    · exact runOps_append2 h.run hrun
  refine ⟨fs, outs', s', hfs, hRun, ?_, ?_⟩
  · rw [← Fwk.todo_empty_iff hRun.fwk, Fwk.todo_eq hR2]
    exact ht'
  · intro ao
    have h1 := handled_eq h.env.wf ao (schedule fs) s s' _ a hrun hR (by rw [hops]; exact hl)
    rw [hops, ← ho, hfs, procSigs_shown] at h1
    rw [handled_append] at h1
    simp only [Obs.handled, List.append_nil] at h1
    rw [h1]
    apply List.map_congr_left
    intro x hx
    exact hcur x (List.mem_filter.mp hx).1

end Verif.Sys
