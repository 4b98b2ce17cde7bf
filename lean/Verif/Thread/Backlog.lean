import Verif.Thread.Demo
/-
Property C182: how fast a thread works off what is waiting for its object, whatever the other threads and interrupts do.
-/
namespace Verif.Thread
open Verif
open Verif.Fwk.Spec (Abs Registered Legal LegalRun)
open Verif.Thread.Spec (calls results CallsLegal dispatched)

variable {c : Cfg} {slots : List MemPool.Pool} {hdr : Nat → Fwk.Evt} {ops ops2 : List Op} {outs outs2 : List Out} {s s2 : St}

/-- The call does not put an event in front of those waiting for `ao`. -/
def Behind (ao : Nat) (op : Fwk.Op) : Prop := (∀ e, op ≠ .postLifo ao e) ∧ ∀ i, op ≠ .recall ao i

/-- At least as many events as in `l` are waiting for `ao`; if `F` holds, those of `l` in front, and nobody is about to put one before them. -/
def Backlog (F : Prop) (a : Abs) (ao : Nat) (l : List Nat) : Prop :=
  ∃ x, a.aos[ao]? = some x ∧ l.length ≤ x.q.items.length ∧ (F → l <+: x.q.items)

theorem backlog_post {F : Prop} {a a' : Abs} {front : Bool} {i e ao : Nat} {l : List Nat} (h : Backlog F a ao l) (hs : Fwk.Spec.post front a i e = .ok a')
    (hf : F → front = true → i ≠ ao) : Backlog F a' ao l := by
  obtain ⟨x, hx, hi, hp⟩ := h
  obtain ⟨y, q, hy, rfl, hq, _⟩ := Fwk.post_facts hs
  by_cases hia : i = ao
  · subst hia
    rw [hy] at hx; cases hx
    refine ⟨_, List.getElem?_set_self (List.getElem?_eq_some_iff.mp hy).1, ?_, fun hF => ?_⟩
    · rw [hq]; dsimp only; split <;> simp <;> omega
    · rw [hq]
      cases front with
      | true => exact absurd rfl (hf hF rfl)
      | false => exact (hp hF).trans (List.prefix_append _ _)
  · exact ⟨x, by dsimp only; rw [List.getElem?_set_ne hia]; exact hx, hi, hp⟩

theorem backlog_fold {F : Prop} {a' : Abs} {e ao : Nat} {sd : Option Nat} {ls : List Nat} : ∀ {l : List Nat} {a : Abs}, Backlog F a ao ls →
    RdyGrp.foldRes (Fwk.Spec.deliver e sd) a l = .ok a' → Backlog F a' ao ls := by
  intro l
  induction l with
  | nil => intro a h hs; simp only [RdyGrp.foldRes, Res.ok.injEq] at hs; exact hs ▸ h
  | cons p l ih =>
    intro a h hs
    simp only [RdyGrp.foldRes, Res.bind'_eq_ok] at hs
    obtain ⟨a1, h1, h2⟩ := hs
    refine ih ?_ h2
    simp only [Fwk.Spec.deliver] at h1
    split at h1
    · cases h1
    · split at h1
      · cases h1; exact h
      · exact backlog_post h h1 (by simp)

/-- Nobody but the thread takes events out of its queue. -/
theorem backlog_step {F : Prop} {cf : Fwk.Cfg} {a a' : Abs} {op : Fwk.Op} {o : Fwk.Out} {ao : Nat} {l : List Nat} (h : Backlog F a ao l)
    (hs : Fwk.Spec.step cf a op = .ok (a', o)) (hsc : ¬ Sched op) (ht : op ≠ .take ao) (hb : F → Behind ao op)
    (hr : F → ∀ t ∈ a.conts, isRecall ao t = false) : Backlog F a' ao l := by
  cases op with
  | select => exact absurd (Or.inl rfl) hsc
  | fetch => exact absurd (Or.inr (Or.inl rfl)) hsc
  | done => exact absurd (Or.inr (Or.inr rfl)) hsc
  | postFifo i e =>
    simp only [Fwk.Spec.step, Res.map'_eq_ok] at hs
    obtain ⟨a1, h1, h2⟩ := hs
    simp only [Prod.mk.injEq] at h2
    obtain ⟨rfl, rfl⟩ := h2
    exact backlog_post h h1 (by simp)
  | postLifo i e =>
    simp only [Fwk.Spec.step, Res.map'_eq_ok] at hs
    obtain ⟨a1, h1, h2⟩ := hs
    simp only [Prod.mk.injEq] at h2
    obtain ⟨rfl, rfl⟩ := h2
    exact backlog_post h h1 (fun hF _ hia => (hb hF).1 e (by rw [hia]))
  | publish ch e sd =>
    simp only [Fwk.Spec.step, Res.map'_eq_ok] at hs
    obtain ⟨a1, h1, h2⟩ := hs
    simp only [Prod.mk.injEq] at h2
    obtain ⟨rfl, rfl⟩ := h2
    exact backlog_fold (a := { a with conts := .gc1 e :: a.conts, fresh := a.fresh.erase e }) h h1
  | activate p m n =>
    simp only [Fwk.Spec.step] at hs
    split at hs
    · cases hs
    · simp only [Res.ok.injEq, Prod.mk.injEq] at hs
      obtain ⟨rfl, _⟩ := hs
      obtain ⟨x, hx, hi⟩ := h
      refine ⟨x, ?_, hi⟩
      have := (List.getElem?_eq_some_iff.mp hx).1
      simp [List.getElem?_append, this, ← hx]
  | take i =>
    have hia : i ≠ ao := fun hh => ht (by rw [hh])
    simp only [Fwk.Spec.step] at hs
    split at hs
    · cases hs
    · split at hs
      · cases hs
      · simp only [Res.ok.injEq, Prod.mk.injEq] at hs
        obtain ⟨rfl, _⟩ := hs
        obtain ⟨x, hx, hi⟩ := h
        exact ⟨x, by dsimp only; rw [List.getElem?_set_ne hia]; exact hx, hi⟩
  | resume k =>
    simp only [Fwk.Spec.step] at hs
    split at hs
    · cases hs
    · rename_i t ht
      simp only [Res.map'_eq_ok] at hs
      obtain ⟨a1, h1, h2⟩ := hs
      simp only [Prod.mk.injEq] at h2
      obtain ⟨rfl, rfl⟩ := h2
      cases t with
      | rc2 i e =>
        simp only [Fwk.Spec.resumeCont, Res.map'_eq_ok] at h1
        obtain ⟨a2, h2, h3⟩ := h1
        subst h3
        have := backlog_post (a := { a with conts := a.conts.eraseIdx k }) (a' := a2) h h2 (fun hF _ hia => by
          have := hr hF _ (List.mem_of_getElem? ht)
          simp [isRecall, hia] at this)
        exact this
      | put i e =>
        simp only [Fwk.Spec.resumeCont] at h1
        split at h1
        · cases h1
        · simp only [Res.ok.injEq] at h1; subst h1; exact h
      | _ => simp only [Fwk.Spec.resumeCont, Res.ok.injEq] at h1; subst h1; (try split) <;> exact h
  | _ =>
    simp only [Fwk.Spec.step] at hs
    (repeat' split at hs) <;> simp only [Res.ok.injEq, Prod.mk.injEq, reduceCtorEq, Res.map'_eq_ok] at hs <;>
      (first | (obtain ⟨rfl, _⟩ := hs; exact h) | (obtain ⟨q, _, rfl, _⟩ := hs; exact h))

/-- The thread takes the first of the waiting events. -/
theorem backlog_take {F : Prop} {cf : Fwk.Cfg} {a a' : Abs} {o : Fwk.Out} {ao e : Nat} {l : List Nat} (h : Backlog F a ao (e :: l))
    (hs : Fwk.Spec.step cf a (.take ao) = .ok (a', o)) : ∃ e', o = .dispatch ao e' ∧ (F → e' = e) ∧ Backlog F a' ao l := by
  obtain ⟨x, hx, hi, hp⟩ := h
  simp only [Fwk.Spec.step, hx] at hs
  split at hs
  · cases hs
  · rename_i e' t hq
    simp only [Res.ok.injEq, Prod.mk.injEq] at hs
    obtain ⟨rfl, rfl⟩ := hs
    rw [hq] at hi hp
    refine ⟨e', rfl, fun hF => ?_, _, List.getElem?_set_self (List.getElem?_eq_some_iff.mp hx).1, ?_, fun hF => ?_⟩
    · exact ((List.cons_prefix_cons.mp (hp hF)).1).symm
    · simpa using hi
    · exact (List.cons_prefix_cons.mp (hp hF)).2

/-- No recall for `ao` begins unless asked for. -/
theorem norecall_step {w : Fwk.World} {cf : Fwk.Cfg} {a a' : Abs} (hR : Fwk.R cf w a) {op : Fwk.Op} {o : Fwk.Out} {ao : Nat} (hs : Fwk.Spec.step cf a op = .ok (a', o))
    (hsc : ¬ Sched op) (hb : Behind ao op) (hr : ∀ t ∈ a.conts, isRecall ao t = false) : ∀ t ∈ a'.conts, isRecall ao t = false := by
  have hc := (conts_step hR hs hsc).1
  have gen : (a'.conts = a.conts ∨ ∃ e, a'.conts = .gc1 e :: a.conts) → ∀ t ∈ a'.conts, isRecall ao t = false := by
    rintro (e | ⟨x, e⟩) t ht
    · rw [e] at ht; exact hr t ht
    · rw [e] at ht
      rcases List.mem_cons.mp ht with rfl | ht
      · rfl
      · exact hr t ht
  cases op with
  | take i =>
    obtain ⟨x, e⟩ := hc
    intro t ht
    rw [e] at ht
    rcases List.mem_cons.mp ht with rfl | ht
    · rfl
    · exact hr t ht
  | recall i j =>
    rcases hc with e | ⟨x, e⟩
    · exact gen (.inl e)
    · intro t ht
      rw [e] at ht
      rcases List.mem_cons.mp ht with rfl | ht
      · have : i ≠ ao := fun hia => hb.2 j (by rw [hia])
        simp [isRecall, this]
      · exact hr t ht
  | resume k =>
    obtain ⟨t0, h0, e | ⟨t', e, _, hrec⟩⟩ := hc
    · intro t ht
      rw [e] at ht
      exact hr t (List.mem_of_mem_eraseIdx ht)
    · intro t ht
      rw [e] at ht
      rcases List.mem_cons.mp ht with rfl | ht
      · cases hx : isRecall ao t with
        | false => rfl
        | true =>
          have h9 := hrec ao hx
          rw [hr t0 (List.mem_of_getElem? h0)] at h9
          cases h9
      · exact hr t (List.mem_of_mem_eraseIdx ht)
  | _ => exact gen hc

/-- How many steps of its own the thread needs at most to begin `n` waiting events. -/
def budget (p : Pc) : Nat → Nat
  | 0 => 0
  | n + 1 => need p + 3 * n

theorem backlog_run (wf : Fwk.Wf c.fw) {F : Prop} {ao : Nat} : ∀ (ops : List Op) (s : St) (a : Abs) (outs : List Out) (s2 : St) (l : List Nat), Inv c s a →
    Backlog F a ao l → (F → ∀ t ∈ a.conts, isRecall ao t = false) → Alive (s.thr ao) → (s.thr ao).handle = true → CallsLegal c.fw a (calls outs) →
    runOps (step c) s ops = (outs, .ok s2) → .terminate ao ∉ ops → (F → ∀ op ∈ calls outs, Behind ao op) →
    budget (s.thr ao).pc l.length ≤ ops.countP (isThread ao) → l.length ≤ (dispatched ao outs).length ∧ (F → l <+: dispatched ao outs) := by
  intro ops
  induction ops with
  | nil =>
    intro s a outs s2 l hi hw hnr hg hh hl hr ht hF hc
    cases l with
    | nil => exact ⟨Nat.zero_le _, fun _ => List.nil_prefix⟩
    | cons e l =>
      exfalso
      simp only [List.length_cons, budget, List.countP_nil, Nat.le_zero, Nat.add_eq_zero_iff] at hc
      obtain ⟨h1, h2⟩ := hg
      cases h : (s.thr ao).pc <;> simp_all [need]
  | cons op ops ih =>
    intro s a outs s2 l hi hw hnr hg hh hl hr ht hF hc
    cases l with
    | nil => exact ⟨Nat.zero_le _, fun _ => List.nil_prefix⟩
    | cons e l =>
    simp only [runOps] at hr
    rcases hf : step c s op with ⟨s1, o⟩ | _ | _ <;> rw [hf] at hr <;> simp only [Prod.mk.injEq, reduceCtorEq, and_false] at hr
    obtain ⟨rfl, hr⟩ := hr
    rw [dispatched_cons]
    simp only [List.mem_cons, not_or] at ht
    generalize hout : (runOps (step c) s1 ops).1 = outs' at *
    have hrun : runOps (step c) s1 ops = (outs', .ok s2) := Prod.ext hout hr
    have hn := inv_step wf hi hf (by rintro fop r rfl; exact hl.1)
    have hF' : F → ∀ op ∈ calls outs', Behind ao op := by
      intro h x hx
      refine hF h x ?_
      cases o with
      | none => exact hx
      | some p => obtain ⟨p1, p2⟩ := p; rw [calls_some]; exact List.mem_cons_of_mem _ hx
    -- the state of the framework after a step which is not the thread's `rkh_sma_get`
    have other : (∀ r, o ≠ some (.take ao, r)) → ∃ a', Inv c s1 a' ∧ Backlog F a' ao (e :: l) ∧ (F → ∀ t ∈ a'.conts, isRecall ao t = false) ∧
        CallsLegal c.fw a' (calls outs') := by
      intro hno
      rcases hn with ⟨rfl, _, hI⟩ | ⟨fop, r, a', rfl, _, h1, _, hI⟩
      · exact ⟨a, hI, hw, hnr, hl⟩
      · obtain ⟨h3, _⟩ := step_out hf rfl
        have hbh : F → Behind ao fop := fun h => hF h fop (by rw [calls_some]; simp)
        exact ⟨a', hI, backlog_step hw h1 h3 (fun hx => hno r (by rw [hx])) hbh hnr, fun h => norecall_step hi.R h1 h3 (hbh h) (hnr h), hl.2 a' r h1⟩
    -- go on with the same list
    have goOn : (∀ r, o ≠ some (.take ao, r)) → Alive (s1.thr ao) → (s1.thr ao).handle = true →
        budget (s1.thr ao).pc (l.length + 1) ≤ ops.countP (isThread ao) →
        (e :: l).length ≤ (dispatched ao [o] ++ dispatched ao outs').length ∧ (F → e :: l <+: dispatched ao [o] ++ dispatched ao outs') := by
      intro hno h1 h2 h3
      obtain ⟨a', hI, hb, hc', hl'⟩ := other hno
      rw [dispatched_nil hf hno, List.nil_append]
      exact ih s1 a' outs' s2 (e :: l) hI hb hc' h1 h2 hl' hrun ht.2 hF' h3
    by_cases hth : op = .thread ao
    · subst hth
      have hcnt : budget (s.thr ao).pc (l.length + 1) ≤ ops.countP (isThread ao) + 1 := by
        have : isThread ao (.thread ao) = true := by simp [isThread]
        rw [List.countP_cons, if_pos this] at hc
        exact hc
      simp only [budget] at hcnt
      obtain ⟨o1, o2, o3⟩ := own_step hf
      have hne : ∀ x, s.w.aos[ao]? = some x → x.q.qty ≠ 0 := by
        intro x hx
        obtain ⟨y, hy, hlen, _⟩ := hw
        rw [qty_eq hi.R hx hy]
        simp at hlen
        omega
      -- the thread takes an event
      have takes : ((s1.thr ao).pc = .run ∧ ∃ r, o = some (.take ao, r)) → 3 * l.length ≤ ops.countP (isThread ao) →
          (e :: l).length ≤ (dispatched ao [o] ++ dispatched ao outs').length ∧ (F → e :: l <+: dispatched ao [o] ++ dispatched ao outs') := by
        rintro ⟨hp, r, rfl⟩ hle
        rcases hn with ⟨hx, _⟩ | ⟨fop, r', a', hx, _, h1, _, hI⟩
        · cases hx
        · simp only [Option.some.injEq, Prod.mk.injEq] at hx
          obtain ⟨rfl, rfl⟩ := hx
          obtain ⟨e', rfl, he, hb⟩ := backlog_take hw h1
          have hd : dispatched ao [some (.take ao, Fwk.Out.dispatch ao e')] = [e'] := by simp [dispatched, results, Fwk.Obs.dispatched]
          rw [hd]
          have hnr' : F → ∀ t ∈ a'.conts, isRecall ao t = false := fun h =>
            norecall_step hi.R h1 (by simp [Sched]) ⟨by simp, by simp⟩ (hnr h)
          obtain ⟨i1, i2⟩ := ih s1 a' outs' s2 l hI hb hnr' ⟨by rw [hp]; simp, by rw [hp]; simp⟩ (by rw [o2]; exact hh) (hl.2 a' _ h1) hrun ht.2 hF' (by
            rw [hp]
            cases l with
            | nil => exact Nat.zero_le _
            | cons b l => simp only [List.length_cons, budget, need] at hle ⊢; omega)
          refine ⟨by simp; omega, fun h => ?_⟩
          rw [he h]
          exact List.cons_prefix_cons.mpr ⟨rfl, i2 h⟩
      have sleeps : (s1.thr ao).pc = .wait → (s.thr ao).pc = .top ∨ (s.thr ao).pc = .woke → False := by
        intro h1 h2
        simp only [step, thread] at hf
        obtain ⟨y, hy, hlen, _⟩ := hw
        obtain ⟨x, hx, _⟩ := hi.R.ao.aos.get hy
        have hq := hne x hx
        rcases h2 with h2 | h2
        all_goals
          simp only [h2, hx, hq, if_false] at hf
          unfold fwk at hf
          rw [Res.map'_eq_ok] at hf
          obtain ⟨⟨w', r'⟩, _, h3⟩ := hf
          simp only [Prod.mk.injEq] at h3
          obtain ⟨rfl, _⟩ := h3
          simp [upd_same] at h1
      cases hp : (s.thr ao).pc with
      | none => exact absurd hp hg.1
      | dead => exact absurd hp hg.2
      | top =>
        rw [hp] at o3 hcnt
        simp only [need] at hcnt
        rcases o3 with ⟨h1, _⟩ | h1
        · exact (sleeps h1 (.inl hp)).elim
        · exact takes h1 (by omega)
      | woke =>
        rw [hp] at o3 hcnt
        simp only [need] at hcnt
        rcases o3 with ⟨h1, _⟩ | h1
        · exact (sleeps h1 (.inr hp)).elim
        · exact takes h1 (by omega)
      | wait =>
        rw [hp] at o3 hcnt
        simp only [need] at hcnt
        obtain ⟨h1 | h1, rfl⟩ := o3
        · exfalso
          simp only [step, thread, hp] at hf
          obtain ⟨y, hy, hlen, _⟩ := hw
          cases hsg : (s.thr ao).sig with
          | true =>
            simp only [hsg, if_true, Res.ok.injEq, Prod.mk.injEq] at hf
            obtain ⟨rfl, _⟩ := hf
            simp [upd_same] at h1
          | false =>
            have := hi.wait ao y hp hsg hy
            rw [this] at hlen; simp at hlen
        · exact goOn (by simp) ⟨by rw [h1]; simp, by rw [h1]; simp⟩ (by rw [o2]; exact hh) (by rw [h1]; simp only [budget, need]; omega)
      | run =>
        rw [hp] at o3 hcnt
        simp only [need] at hcnt
        obtain ⟨h1, k, r, rfl⟩ := o3
        exact goOn (by simp) ⟨by rw [h1]; simp, by rw [h1]; simp⟩ (by rw [o2]; exact hh) (by rw [h1]; simp only [budget, need]; omega)
      | test =>
        rw [hp] at o3 hcnt
        simp only [need] at hcnt
        simp only [hh, if_true] at o3
        obtain ⟨h1, rfl⟩ := o3
        exact goOn (by simp) ⟨by rw [h1]; simp, by rw [h1]; simp⟩ (by rw [o2]; exact hh) (by rw [h1]; simp only [budget, need]; omega)
    · have hit : isThread ao op = false := by
        cases op <;> simp_all [isThread]
      have hcnt : budget (s.thr ao).pc (l.length + 1) ≤ ops.countP (isThread ao) := by
        rw [List.countP_cons, hit] at hc
        simpa using hc
      have hno : ∀ r, o ≠ some (.take ao, r) := by
        rintro r rfl
        exact hth ((step_out hf rfl).2 ao rfl)
      have hkeep : (s1.thr ao).pc = (s.thr ao).pc ∧ (s1.thr ao).handle = true := by
        by_cases hcr : op = .create ao
        · subst hcr
          have hcr := hi.cr ao hg.1
          obtain ⟨_, _, h3, h4, _, h6⟩ := create_step hf
          refine ⟨h4 (by omega), ?_⟩
          rw [h6]; split
          · rfl
          · exact hh
        · obtain ⟨h1, _, h3, _⟩ := thr_frame hf hth hcr (fun hx => ht.1 hx.symm)
          exact ⟨h1, by rw [h3]; exact hh⟩
      exact goOn hno (by unfold Alive; rw [hkeep.1]; exact hg) hkeep.2 (by rw [hkeep.1]; exact hcnt)

/-- **C182.** `n` events or more are waiting for an object whose thread runs. In every continuation in which nobody terminates the object, whatever the other
threads, interrupts and activations do, the thread has begun at least `n` events by the time it has made 3n of its own steps (3n - 2 if it is about to
look, 3n - 1 if it sleeps). -/
theorem backlog_is_worked_off (h : Run c slots hdr ops outs s) {ao : Nat} {x : Fwk.Ao} (hx : s.w.aos[ao]? = some x)
    (ha : Alive (s.thr ao)) (hh : (s.thr ao).handle = true) (h2 : Run c slots hdr (ops ++ ops2) (outs ++ outs2) s2)
    (ht : .terminate ao ∉ ops2) {n : Nat} (hn : n < (Fwk.Obs.contents x.q).length) (hc : need (s.thr ao).pc + 3 * n ≤ ops2.countP (isThread ao)) :
    n < (dispatched ao outs2).length := by
  obtain ⟨a, hi, hl, hr⟩ := h.split h2
  obtain ⟨y, hy⟩ := aos_get hi.R hx
  rw [Fwk.contents_eq (hi.R.ao.aos.2 ao x y hx hy).2] at hn
  have := (backlog_run h.env.wf (F := False) (l := List.replicate (n + 1) 0) ops2 s a outs2 s2 hi ⟨y, hy, by simp; omega, False.elim⟩ (fun h => h.elim) ha hh hl hr ht
    (fun h => h.elim) (by simpa [budget] using hc)).1
  simp at this
  omega

/-- **C182 (order).** If moreover nobody puts an event in front of the queue, the events begun first are those that were waiting, in their order. -/
theorem backlog_in_order (h : Run c slots hdr ops outs s) {ao : Nat} {x : Fwk.Ao} (hx : s.w.aos[ao]? = some x)
    (ha : Alive (s.thr ao)) (hh : (s.thr ao).handle = true) (h2 : Run c slots hdr (ops ++ ops2) (outs ++ outs2) s2)
    (ht : .terminate ao ∉ ops2) (hne : Fwk.Obs.contents x.q ≠ []) (hnr : ∀ t ∈ s.w.conts, isRecall ao t = false)
    (hb : ∀ op ∈ calls outs2, (∀ e, op ≠ .postLifo ao e) ∧ ∀ i, op ≠ .recall ao i)
    (hc : need (s.thr ao).pc + 3 * ((Fwk.Obs.contents x.q).length - 1) ≤ ops2.countP (isThread ao)) :
    Fwk.Obs.contents x.q <+: dispatched ao outs2 := by
  obtain ⟨a, hi, hl, hr⟩ := h.split h2
  obtain ⟨y, hy⟩ := aos_get hi.R hx
  rw [Fwk.contents_eq (hi.R.ao.aos.2 ao x y hx hy).2] at hne hc ⊢
  refine (backlog_run h.env.wf (F := True) (l := y.q.items) ops2 s a outs2 s2 hi ⟨y, hy, Nat.le_refl _, fun _ => List.prefix_rfl⟩
    (fun _ t ht => hnr t (by rw [hi.R.conts]; exact ht)) ha hh hl hr ht (fun _ => hb) ?_).2 trivial
  cases hl : y.q.items with
  | nil => exact absurd hl hne
  | cons b l => rw [hl] at hc; simpa [budget] using hc

end Verif.Thread

namespace Verif.Thread.BacklogDemo
open Verif
open Verif.Thread.Spec (calls dispatched)
open Verif.Thread.Demo

/-- Two events wait for object 0, whose thread was woken. In the continuation another event is posted behind them and the other object runs. -/
def cont : List Op := [.thread 1, .thread 0, .thread 1, .thread 0, .call (.postFifo 1 900), .thread 0, .thread 0, .call (.postFifo 0 900), .thread 1]

/-- C182: hypotheses of `backlog_is_worked_off` and of `backlog_in_order`, and their conclusions. -/
example : Run (cfg false) Fwk.Demo.slots Fwk.Demo.hdr work (outs false work) (st false work) ∧
    (∃ x, (st false work).w.aos[0]? = some x ∧ Fwk.Obs.contents x.q = [900, 901]) ∧ Alive ((st false work).thr 0) ∧
    ((st false work).thr 0).handle = true ∧
    Run (cfg false) Fwk.Demo.slots Fwk.Demo.hdr (work ++ cont) (outs false work ++ more false work cont) (st false (work ++ cont)) ∧
    .terminate 0 ∉ cont ∧ (st false work).w.conts.length = 0 ∧
    need ((st false work).thr 0).pc + 3 * 1 ≤ cont.countP (isThread 0) ∧
    dispatched 0 (more false work cont) = [900, 901] :=
  ⟨mk (by decide +kernel), ⟨_, rfl, by decide +kernel⟩, ⟨by decide +kernel, by decide +kernel⟩, by decide +kernel,
    mk2 (by decide +kernel) (by decide +kernel), by simp [cont], by decide +kernel, by decide +kernel, by decide +kernel⟩

/-- One step less is not enough: the bound is exact. -/
example : need ((st false work).thr 0).pc + 3 * 1 = (cont.take 7).countP (isThread 0) ∧
    dispatched 0 (more false work (cont.take 7)) = [900, 901] ∧ dispatched 0 (more false work (cont.take 6)) = [900] := by
  decide +kernel

/-- The order can change if somebody posts at the front. -/
example : dispatched 0 (more false work [.thread 0, .call (.postLifo 0 900), .thread 0, .thread 0, .thread 0]) = [900, 900] := by
  decide +kernel

end Verif.Thread.BacklogDemo
