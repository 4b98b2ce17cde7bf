import Verif.Thread.Lemmas
/-
Properties of the ports that run each active object in a thread of its own: C117 (histories of threads are histories of the framework, events are
processed one at a time and in order), C118 (no lost wake-up). C119 and C120 (life and end of threads) are in `Life`.
-/
namespace Verif.Thread
open Verif
open Verif.Fwk.Spec (Abs Registered Legal LegalRun)
open Verif.Thread.Spec (calls results CallsLegal dispatched)

variable {c : Cfg} {slots : List MemPool.Pool} {hdr : Nat → Fwk.Evt} {ops ops2 : List Op} {outs outs2 : List Out} {s s2 : St}

/-! ### C117: threads are clients of the framework like any other -/

/-- Whatever the interleaving of the threads, interrupts, creators and terminators: if the clients respect the contract, the critical
sections form a history of the framework that respects the whole contract, with the same results and the same final state. So
everything proved of such histories (`Fwk.Run`) holds of systems of threads. -/
theorem threads_use_framework_correctly (h : Run c slots hdr ops outs s) : Fwk.Run c.fw slots hdr (calls outs) (results outs) s.w := by
  obtain ⟨h1, h2, _⟩ := erase_run h.env.wf ops _ _ _ _ (inv_init h.env) h.legal h.run
  exact ⟨h.env, h1, h2⟩

theorem Run.inv (h : Run c slots hdr ops outs s) : ∃ a, Inv c s a ∧
    runOps (Fwk.Spec.step c.fw) (Fwk.Spec.init fun e => (hdr e).sig) (calls outs) = (results outs, .ok a) := by
  obtain ⟨_, _, a, h3, h4⟩ := erase_run h.env.wf ops _ _ _ _ (inv_init h.env) h.legal h.run
  exact ⟨a, h4, h3⟩

/-- Events sent to an object (by FIFO posts and by publishing) are dispatched in that order by its thread; none is lost, duplicated or
invented: the ones not dispatched are in the queue. -/
theorem thread_processes_in_order (h : Run c slots hdr ops outs s) {ao : Nat} {x : Fwk.Ao} (hx : s.w.aos[ao]? = some x)
    (hf : ∀ op ∈ calls outs, (∀ e, op ≠ .postLifo ao e) ∧ ∀ i, op ≠ .recall ao i) :
    Fwk.Obs.sentTo ao (calls outs) [] (fun _ => none) (fun _ _ => false) = dispatched ao outs ++ Fwk.Obs.contents x.q :=
  Fwk.processed_in_order (threads_use_framework_correctly h) hx hf

/-- An object processes one event at a time: at most one dispatch of it is in progress, and only while its thread is dispatching. -/
theorem one_event_at_a_time (h : Run c slots hdr ops outs s) (ao : Nat) :
    s.w.conts.countP (isThr ao) = if (s.thr ao).pc = .run then 1 else 0 := by
  obtain ⟨a, hi, _⟩ := h.inv
  rw [hi.R.conts]; exact hi.thr ao

/-- A thread that looks for an event, or waits for one, never fails, and takes the event at the front of the queue if there is one. -/
theorem thread_takes_front (h : Run c slots hdr ops outs s) {ao : Nat} {x : Fwk.Ao} (hx : s.w.aos[ao]? = some x)
    (hp : (s.thr ao).pc = .top ∨ (s.thr ao).pc = .woke) :
    (∀ e rest, Fwk.Obs.contents x.q = e :: rest → ∃ s', step c s (.thread ao) = .ok (s', some (.take ao, .dispatch ao e)) ∧
      (s'.thr ao).pc = .run ∧ ∃ x', s'.w.aos[ao]? = some x' ∧ Fwk.Obs.contents x'.q = rest) ∧
    (Fwk.Obs.contents x.q = [] → ∃ s', step c s (.thread ao) = .ok (s', none) ∧ s'.w = s.w ∧ (s'.thr ao).pc = .wait) := by
  obtain ⟨a, hi, _⟩ := h.inv
  obtain ⟨y, hy⟩ := aos_get hi.R hx
  have hq := (hi.R.ao.aos.2 ao x y hx hy).2
  have hqty := qty_eq hi.R hx hy
  rw [Fwk.contents_eq hq]
  have hstep : step c s (.thread ao) = if x.q.qty = 0 then .ok (⟨s.w, upd s.thr ao { s.thr ao with pc := .wait }⟩, none)
      else fwk c s (upd s.thr ao { s.thr ao with pc := .run }) (.take ao) := by
    simp only [step, thread]
    rcases hp with hp | hp <;> simp only [hp, hx]
  constructor
  · intro e rest he
    have hne : x.q.qty ≠ 0 := by rw [hqty, he]; simp
    have hl := take_legal hi hx hne (by rcases hp with hp | hp <;> rw [hp] <;> simp) (by rcases hp with hp | hp <;> rw [hp] <;> simp)
    obtain ⟨hrel, _⟩ := Fwk.sim_step h.env.wf hi.R (.take ao) hl
    simp only [Fwk.Spec.step, hy, he] at hrel
    rcases hg : Fwk.step c.fw s.w (.take ao) with ⟨w', r⟩ | _ | _ <;> rw [hg] at hrel <;> simp only [StepRel] at hrel
    obtain ⟨hR, rfl⟩ := hrel
    rw [hstep, if_neg hne]
    refine ⟨⟨w', signals s.w w' (upd s.thr ao { s.thr ao with pc := .run })⟩, by simp [fwk, hg, Res.map'], by simp [upd_same], ?_⟩
    have hlt := (List.getElem?_eq_some_iff.mp hy).1
    have hy' : (a.aos.set ao { y with q := { y.q with items := rest } })[ao]? = some { y with q := { y.q with items := rest } } := by
      rw [List.getElem?_set_self hlt]
    obtain ⟨x', hx', _, hq'⟩ := hR.ao.aos.get hy'
    exact ⟨x', hx', Fwk.contents_eq hq'⟩
  · intro he
    have hz : x.q.qty = 0 := by rw [hqty, he]; rfl
    rw [hstep, if_pos hz]
    exact ⟨_, rfl, rfl, by simp [upd_same]⟩

/-! ### C118: no wake-up is lost -/

/-- A thread that is waiting although events are queued for it has been signalled: its wait is over. -/
theorem no_lost_wakeup (h : Run c slots hdr ops outs s) {ao : Nat} {x : Fwk.Ao} (hx : s.w.aos[ao]? = some x)
    (hp : (s.thr ao).pc = .wait) (hq : Fwk.Obs.contents x.q ≠ []) : (s.thr ao).sig = true := by
  obtain ⟨a, hi, _⟩ := h.inv
  obtain ⟨y, hy⟩ := aos_get hi.R hx
  rw [Fwk.contents_eq (hi.R.ao.aos.2 ao x y hx hy).2] at hq
  cases hsg : (s.thr ao).sig with
  | true => rfl
  | false => exact absurd (hi.wait ao y hp hsg hy) hq

/-- A history that continues another one. -/
theorem Run.split (h : Run c slots hdr ops outs s) (h2 : Run c slots hdr (ops ++ ops2) (outs ++ outs2) s2) :
    ∃ a, Inv c s a ∧ CallsLegal c.fw a (calls outs2) ∧ runOps (step c) s ops2 = (outs2, .ok s2) := by
  obtain ⟨a, hi, hr⟩ := h.inv
  have hrun := h2.run
  have happ := runOps_append_ok (f := step c) ops ops2 (init c slots hdr) s (by rw [h.run])
  have e1 : runOps (step c) (init c slots hdr) (ops ++ ops2) = (outs ++ (runOps (step c) s ops2).1, (runOps (step c) s ops2).2) := by
    rw [Prod.ext_iff]; exact ⟨by rw [happ.1, h.run], happ.2⟩
  rw [e1] at hrun
  simp only [Prod.mk.injEq, List.append_cancel_left_eq] at hrun
  refine ⟨a, hi, ?_, by rw [Prod.ext_iff]; exact hrun⟩
  have hleg := h2.legal
  have : ∀ (xs ys : List Fwk.Op) (b : Abs) r (b' : Abs), CallsLegal c.fw b (xs ++ ys) → runOps (Fwk.Spec.step c.fw) b xs = (r, .ok b') →
      CallsLegal c.fw b' ys := by
    intro xs
    induction xs with
    | nil => intro ys b r b' h1 h2; simp only [runOps, Prod.mk.injEq, Res.ok.injEq] at h2; rw [← h2.2]; exact h1
    | cons op xs ih =>
      intro ys b r b' h1 h2
      simp only [runOps] at h2
      rcases hf : Fwk.Spec.step c.fw b op with ⟨b1, o⟩ | _ | _ <;> rw [hf] at h2 <;> simp only [Prod.mk.injEq, reduceCtorEq, and_false] at h2
      exact ih ys b1 _ b' (h1.2 b1 o hf) (Prod.ext rfl h2.2)
  refine this (calls outs) (calls outs2) _ _ _ ?_ hr
  have e : calls (outs ++ outs2) = calls outs ++ calls outs2 := by simp [calls]
  rw [← e]; exact hleg

theorem dispatched_cons (ao : Nat) (o : Out) (outs : List Out) : dispatched ao (o :: outs) = dispatched ao [o] ++ dispatched ao outs := by
  cases o with
  | none => rfl
  | some x =>
    obtain ⟨op, r⟩ := x
    simp only [dispatched, results_some]
    exact Fwk.dispatched_cons ao r (results outs)

theorem take_dispatches {cf : Fwk.Cfg} {a a' : Abs} {ao : Nat} {r : Fwk.Out} (h : Fwk.Spec.step cf a (.take ao) = .ok (a', r)) :
    ∃ e, r = .dispatch ao e := by
  simp only [Fwk.Spec.step] at h
  split at h
  · cases h
  · split at h
    · cases h
    · simp only [Res.ok.injEq, Prod.mk.injEq] at h
      exact ⟨_, h.2.symm⟩

theorem goes_step {a : Abs} (wf : Fwk.Wf c.fw) (hi : Inv c s a) {ao : Nat} (hw : Waiting a ao) (hg : Goes (s.thr ao)) {op : Op} {o : Out}
    {s' : St} (hs : step c s op = .ok (s', o)) (hl : CallsLegal c.fw a (calls (o :: outs))) (ht : op ≠ .terminate ao) :
    dispatched ao [o] ≠ [] ∨ ∃ a', Inv c s' a' ∧ Waiting a' ao ∧ Goes (s'.thr ao) ∧ CallsLegal c.fw a' (calls outs) ∧
      need (s'.thr ao).pc + (if isThread ao op then 1 else 0) ≤ need (s.thr ao).pc := by
  have hn := inv_step wf hi hs (by rintro fop r rfl; exact hl.1)
  have pcs : ∀ {t : Thr}, t.pc ≠ .none → t.pc ≠ .dead → 1 ≤ need t.pc := by
    intro t h1 h2; cases h : t.pc <;> simp_all [need]
  by_cases hth : op = .thread ao
  · subst hth
    have hit : isThread ao (.thread ao) = true := by simp [isThread]
    simp only [hit, if_true]
    obtain ⟨x, hx, hxi⟩ := hw
    obtain ⟨y, hy, _, hyq⟩ := hi.R.ao.aos.get hx
    have hqty : y.q.qty ≠ 0 := by rw [qty_eq hi.R hy hx]; intro hh; exact hxi (List.length_eq_zero_iff.mp hh)
    simp only [step, thread, hy, hqty, if_false] at hs
    have takes : ∀ {f}, fwk c s f (.take ao) = .ok (s', o) → dispatched ao [o] ≠ [] := by
      intro f hs
      obtain ⟨r, rfl⟩ := fwk_out hs
      rcases hn with ⟨hh, _⟩ | ⟨fop, r', a', hh, _, h1, _⟩
      · cases hh
      · simp only [Option.some.injEq, Prod.mk.injEq] at hh
        obtain ⟨rfl, rfl⟩ := hh
        obtain ⟨e, rfl⟩ := take_dispatches h1
        simp [dispatched, results, Fwk.Obs.dispatched]
    split at hs
    · exact Or.inl (takes hs)
    · exact Or.inl (takes hs)
    · rename_i hp
      right
      split at hs <;> simp only [Res.ok.injEq, Prod.mk.injEq] at hs <;> obtain ⟨rfl, rfl⟩ := hs
      · rcases hn with ⟨_, _, hI⟩ | ⟨_, _, _, hh, _⟩
        · refine ⟨a, hI, ⟨x, hx, hxi⟩, ?_, hl, ?_⟩
          · simp [Goes, upd_same]
          · simp [upd_same, hp, need]
        · cases hh
      · rename_i hsg
        exact absurd (hi.wait ao x hp (by simpa using hsg) hx) hxi
    · rename_i hp
      split at hs
      · cases hs
      · split at hs
        · cases hs
        · right
          obtain ⟨r, rfl⟩ := fwk_out hs
          rcases hn with ⟨hh, _⟩ | ⟨fop, r', a', hh, _, h1, _, hI⟩
          · cases hh
          · simp only [Option.some.injEq, Prod.mk.injEq] at hh
            obtain ⟨rfl, rfl⟩ := hh
            have hs' := hs
            unfold fwk at hs'
            rw [Res.map'_eq_ok] at hs'
            obtain ⟨⟨w', r2⟩, _, h2⟩ := hs'
            simp only [Prod.mk.injEq] at h2
            obtain ⟨rfl, _⟩ := h2
            refine ⟨a', hI, waiting_step ⟨x, hx, hxi⟩ h1 (by simp [Sched]) (by simp), ?_, hl.2 a' r h1, ?_⟩
            · refine ⟨by simp [upd_same], Or.inl ?_⟩
              simp only [signals_handle, upd_same]
              rcases hg.2 with hh | hh | hh | hh
              · exact hh
              all_goals (rw [hp] at hh; cases hh)
            · simp [upd_same, hp, need]
    · rename_i hp
      have hh : (s.thr ao).handle = true := by
        rcases hg.2 with hh | hh | hh | hh
        · exact hh
        all_goals (rw [hp] at hh; cases hh)
      simp only [hh, if_true, Res.ok.injEq, Prod.mk.injEq] at hs
      obtain ⟨rfl, rfl⟩ := hs
      right
      rcases hn with ⟨_, _, hI⟩ | ⟨_, _, _, hh, _⟩
      · refine ⟨a, hI, ⟨x, hx, hxi⟩, ?_, hl, ?_⟩
        · simp [Goes, upd_same]
        · simp [upd_same, hp, need]
      · cases hh
    · cases hs
    · cases hs
  · right
    have hit : isThread ao op = false := by
      cases op <;> simp_all [isThread]
    simp only [hit, Bool.false_eq_true, if_false, Nat.add_zero]
    have hkeep : Goes (s'.thr ao) ∧ (s'.thr ao).pc = (s.thr ao).pc := by
      by_cases hc : op = .create ao
      · subst hc
        have hcr := hi.cr ao hg.1.1
        simp only [step] at hs
        split at hs
        · cases hs
        · split at hs <;> simp only [Res.ok.injEq, Prod.mk.injEq, reduceCtorEq] at hs <;> rename_i hc2
          · omega
          · omega
          · obtain ⟨rfl, rfl⟩ := hs
            simp only [upd_same]
            exact ⟨⟨hg.1, Or.inl rfl⟩, trivial⟩
      · obtain ⟨h1, h2, h3, _⟩ := thr_frame hs hth hc ht
        refine ⟨?_, h1⟩
        unfold Goes
        rw [h1, h3]; exact hg
    rcases hn with ⟨rfl, _, hI⟩ | ⟨fop, r, a', rfl, _, h1, _, hI⟩
    · exact ⟨a, hI, hw, hkeep.1, hl, by rw [hkeep.2]; exact Nat.le_refl _⟩
    · obtain ⟨h3, h4⟩ := step_out hs rfl
      refine ⟨a', hI, waiting_step hw h1 h3 (fun hh => hth (h4 ao hh)), hkeep.1, hl.2 a' r h1, by rw [hkeep.2]; exact Nat.le_refl _⟩

theorem goes_run (wf : Fwk.Wf c.fw) {ao : Nat} : ∀ (ops : List Op) (s : St) (a : Abs) (outs : List Out) (s2 : St), Inv c s a → Waiting a ao →
    Goes (s.thr ao) → CallsLegal c.fw a (calls outs) → runOps (step c) s ops = (outs, .ok s2) → .terminate ao ∉ ops →
    need (s.thr ao).pc ≤ ops.countP (isThread ao) → dispatched ao outs ≠ [] := by
  intro ops
  induction ops with
  | nil =>
    intro s a outs s2 _ _ hg _ _ _ hc
    obtain ⟨⟨h1, h2⟩, _⟩ := hg
    exfalso
    cases h : (s.thr ao).pc <;> simp_all [need]
  | cons op ops ih =>
    intro s a outs s2 hi hw hg hl hr ht hc
    simp only [runOps] at hr
    rcases hf : step c s op with ⟨s1, o⟩ | _ | _ <;> rw [hf] at hr <;> simp only [Prod.mk.injEq, reduceCtorEq, and_false] at hr
    obtain ⟨rfl, hr⟩ := hr
    rw [dispatched_cons]
    simp only [List.mem_cons, not_or] at ht
    rcases goes_step wf hi hw hg hf hl (fun hh => ht.1 hh.symm) with hd | ⟨a', hI, hw', hg', hl', hn⟩
    · simp [hd]
    · have := ih s1 a' _ s2 hI hw' hg' hl' (Prod.ext rfl hr) ht.2 (by
        rw [List.countP_cons] at hc; omega)
      simp [this]

/-- If events are waiting for an object whose thread exists and is not being ended, then in every continuation of the history the thread
begins an event within three of its own steps, whatever the others do in between (two, if it is sleeping; one, if it is about to
look). -/
theorem waiting_event_is_dispatched (h : Run c slots hdr ops outs s) {ao : Nat} {x : Fwk.Ao} (hx : s.w.aos[ao]? = some x)
    (hq : Fwk.Obs.contents x.q ≠ []) (hg : Goes (s.thr ao)) (h2 : Run c slots hdr (ops ++ ops2) (outs ++ outs2) s2)
    (ht : .terminate ao ∉ ops2) (hn : need (s.thr ao).pc ≤ ops2.countP (isThread ao)) : dispatched ao outs2 ≠ [] := by
  obtain ⟨a, hi, hl, hr⟩ := h.split h2
  obtain ⟨y, hy⟩ := aos_get hi.R hx
  rw [Fwk.contents_eq (hi.R.ao.aos.2 ao x y hx hy).2] at hq
  exact goes_run h.env.wf ops2 s a outs2 s2 hi ⟨y, hy, hq⟩ hg hl hr ht hn

/-- With nothing queued the thread sleeps after at most three steps (one of them may be a wake-up left over from an event already
processed), having touched nothing, and goes on sleeping however often it is given the processor. -/
theorem idle_thread_sleeps (h : Run c slots hdr ops outs s) {ao : Nat} {x : Fwk.Ao} (hx : s.w.aos[ao]? = some x)
    (hq : Fwk.Obs.contents x.q = []) (hp : (s.thr ao).pc = .top ∨ (s.thr ao).pc = .woke ∨ (s.thr ao).pc = .wait) (n : Nat) (hn : 3 ≤ n) :
    ∃ s', runOps (step c) s (List.replicate n (.thread ao)) = (List.replicate n none, .ok s') ∧ (s'.thr ao).pc = .wait ∧
      (s'.thr ao).sig = false ∧ s'.w = s.w ∧ ∀ i, i ≠ ao → s'.thr i = s.thr i := by
  obtain ⟨a, hi, _⟩ := h.inv
  obtain ⟨y, hy⟩ := aos_get hi.R hx
  rw [Fwk.contents_eq (hi.R.ao.aos.2 ao x y hx hy).2] at hq
  have hz : x.q.qty = 0 := by rw [qty_eq hi.R hx hy, hq]; rfl
  have key : ∀ (n : Nat) (t : St), t.w = s.w → (∀ i, i ≠ ao → t.thr i = s.thr i) →
      ((t.thr ao).pc = .wait ∧ (t.thr ao).sig = false) ∨ ((t.thr ao).pc = .wait ∧ 2 ≤ n) ∨
        (((t.thr ao).pc = .top ∨ (t.thr ao).pc = .woke) ∧ (((t.thr ao).sig = false ∧ 1 ≤ n) ∨ 3 ≤ n)) →
      ∃ s', runOps (step c) t (List.replicate n (.thread ao)) = (List.replicate n none, .ok s') ∧ (s'.thr ao).pc = .wait ∧
        (s'.thr ao).sig = false ∧ s'.w = s.w ∧ ∀ i, i ≠ ao → s'.thr i = s.thr i := by
    intro n
    induction n with
    | zero =>
      intro t ht hf hc
      rcases hc with ⟨h1, h2⟩ | ⟨_, h2⟩ | ⟨_, ⟨_, h2⟩ | h2⟩
      · exact ⟨t, rfl, h1, h2, ht, hf⟩
      all_goals omega
    | succ n ih =>
      intro t ht hf hc
      have go : ∀ t', step c t (.thread ao) = .ok (t', none) → t'.w = s.w → (∀ i, i ≠ ao → t'.thr i = s.thr i) →
          (((t'.thr ao).pc = .wait ∧ (t'.thr ao).sig = false) ∨ ((t'.thr ao).pc = .wait ∧ 2 ≤ n) ∨
            (((t'.thr ao).pc = .top ∨ (t'.thr ao).pc = .woke) ∧ (((t'.thr ao).sig = false ∧ 1 ≤ n) ∨ 3 ≤ n))) →
          ∃ s', runOps (step c) t (List.replicate (n + 1) (.thread ao)) = (List.replicate (n + 1) none, .ok s') ∧ (s'.thr ao).pc = .wait ∧
            (s'.thr ao).sig = false ∧ s'.w = s.w ∧ ∀ i, i ≠ ao → s'.thr i = s.thr i := by
        intro t' hs h1 h2 h3
        obtain ⟨s', h4, h5⟩ := ih t' h1 h2 h3
        exact ⟨s', by simp [List.replicate_succ, runOps, hs, h4], h5⟩
      have fr : ∀ th, ∀ i, i ≠ ao → upd t.thr ao th i = s.thr i := fun th i hne => by rw [upd_ne _ hne]; exact hf i hne
      by_cases hw : (t.thr ao).pc = .wait
      · cases hsg : (t.thr ao).sig with
        | false => exact go t (by simp [step, thread, hw, hsg]) ht hf (Or.inl ⟨hw, hsg⟩)
        | true =>
          refine go ⟨t.w, upd t.thr ao { t.thr ao with pc := .woke, sig := false }⟩ (by simp [step, thread, hw, hsg]) ht (fr _) ?_
          simp only [hw, hsg] at hc
          simp only [upd_same]
          rcases hc with hc | hc | hc
          · simp at hc
          · exact Or.inr (Or.inr ⟨Or.inr trivial, Or.inl ⟨trivial, by omega⟩⟩)
          · simp at hc
      · have hc' : ((t.thr ao).pc = .top ∨ (t.thr ao).pc = .woke) ∧ (((t.thr ao).sig = false ∧ 1 ≤ n + 1) ∨ 3 ≤ n + 1) := by
          rcases hc with hc | hc | hc
          · exact absurd hc.1 hw
          · exact absurd hc.1 hw
          · exact hc
        refine go ⟨t.w, upd t.thr ao { t.thr ao with pc := .wait }⟩ ?_ ht (fr _) ?_
        · rcases hc'.1 with hh | hh <;> simp [step, thread, hh, ht, hx, hz]
        · simp only [upd_same]
          rcases hc'.2 with hh | hh
          · exact Or.inl ⟨trivial, hh.1⟩
          · exact Or.inr (Or.inl ⟨trivial, by omega⟩)
  refine key n s rfl (fun _ _ => rfl) ?_
  rcases hp with hp | hp | hp
  · exact Or.inr (Or.inr ⟨Or.inl hp, Or.inr hn⟩)
  · exact Or.inr (Or.inr ⟨Or.inr hp, Or.inr hn⟩)
  · exact Or.inr (Or.inl ⟨hp, by omega⟩)

end Verif.Thread
