import Verif.Thread.Props
/-
Life and end of the thread of an active object: C119 (once it is activated a thread lives until it is told to end, and exactly when it ends
untold), C120 (what happens after it was told). Here C77 and C78 are followed up in the model of the whole framework.
-/
namespace Verif.Thread
open Verif
open Verif.Fwk.Spec (Abs Registered Legal LegalRun)
open Verif.Thread.Spec (calls results CallsLegal dispatched)

variable {c : Cfg} {slots : List MemPool.Pool} {hdr : Nat → Fwk.Evt} {ops ops2 : List Op} {outs outs2 : List Out} {s s' s2 : St}

theorem listed_iff {a : Abs} (h : Inv c s a) (ao : Nat) : Listed s ao ↔ Registered a ao := by
  constructor
  · rintro ⟨x, hx, hr⟩
    obtain ⟨y, hy⟩ := aos_get h.R hx
    have hp := (h.R.ao.aos.2 ao x y hx hy).1
    have hlt := h.R.ao.prioOk y (List.mem_of_getElem? hy)
    rw [hp, h.R.ao.tbl _ hlt] at hr
    exact ⟨y, hy, by simpa using hr⟩
  · rintro ⟨y, hy, hr⟩
    obtain ⟨x, hx, hp, _⟩ := h.R.ao.aos.get hy
    have hlt := h.R.ao.prioOk y (List.mem_of_getElem? hy)
    exact ⟨x, hx, by rw [hp, h.R.ao.tbl _ hlt, hr]⟩

/-- What a step of its own does to a thread. -/
theorem own_step {ao : Nat} {o : Out} (hs : step c s (.thread ao) = .ok (s', o)) :
    (s'.thr ao).cr = (s.thr ao).cr ∧ (s'.thr ao).handle = (s.thr ao).handle ∧
    match (s.thr ao).pc with
    | .top | .woke => ((s'.thr ao).pc = .wait ∧ o = none) ∨ ((s'.thr ao).pc = .run ∧ ∃ r, o = some (.take ao, r))
    | .wait => ((s'.thr ao).pc = .wait ∨ (s'.thr ao).pc = .woke) ∧ o = none
    | .run => (s'.thr ao).pc = .test ∧ ∃ k r, o = some (.resume k, r)
    | .test => if (s.thr ao).handle then (s'.thr ao).pc = .top ∧ o = none else (s'.thr ao).pc = .dead ∧ ∃ r, o = some (.terminate ao, r)
    | _ => False := by
  have key : ∀ {p fop}, fwk c s (upd s.thr ao { s.thr ao with pc := p }) fop = .ok (s', o) → (s'.thr ao).cr = (s.thr ao).cr ∧
      (s'.thr ao).handle = (s.thr ao).handle ∧ (s'.thr ao).pc = p ∧ ∃ r, o = some (fop, r) := by
    intro p fop hs
    obtain ⟨r, hr⟩ := fwk_out hs
    unfold fwk at hs
    rw [Res.map'_eq_ok] at hs
    obtain ⟨⟨w', r'⟩, _, h2⟩ := hs
    simp only [Prod.mk.injEq] at h2
    obtain ⟨rfl, _⟩ := h2
    exact ⟨by simp [upd_same], by simp [upd_same], by simp [upd_same], r, hr⟩
  simp only [step, thread] at hs
  split at hs <;> rename_i hp <;> simp only [hp]
  · split at hs
    · cases hs
    · split at hs
      · simp only [Res.ok.injEq, Prod.mk.injEq] at hs
        obtain ⟨rfl, rfl⟩ := hs
        simp [upd_same]
      · obtain ⟨h1, h2, h3, h4⟩ := key hs
        exact ⟨h1, h2, Or.inr ⟨h3, h4⟩⟩
  · split at hs
    · cases hs
    · split at hs
      · simp only [Res.ok.injEq, Prod.mk.injEq] at hs
        obtain ⟨rfl, rfl⟩ := hs
        simp [upd_same]
      · obtain ⟨h1, h2, h3, h4⟩ := key hs
        exact ⟨h1, h2, Or.inr ⟨h3, h4⟩⟩
  · split at hs <;> simp only [Res.ok.injEq, Prod.mk.injEq] at hs <;> obtain ⟨rfl, rfl⟩ := hs <;> simp [upd_same, hp]
  · split at hs
    · cases hs
    · split at hs
      · cases hs
      · obtain ⟨h1, h2, h3, r, h4⟩ := key hs
        exact ⟨h1, h2, h3, _, r, h4⟩
  · split at hs
    · rename_i hh
      simp only [Res.ok.injEq, Prod.mk.injEq] at hs
      obtain ⟨rfl, rfl⟩ := hs
      simp [upd_same, hh]
    · rename_i hh
      obtain ⟨h1, h2, h3, h4⟩ := key hs
      exact ⟨h1, h2, by rw [if_neg hh]; exact ⟨h3, h4⟩⟩
  · cases hs
  · cases hs

/-- What its creator does to a thread. -/
theorem create_step {ao : Nat} {o : Out} (hs : step c s (.create ao) = .ok (s', o)) :
    (s'.thr ao).cr = (s.thr ao).cr + 1 ∧ o = none ∧ (s.thr ao).cr < 3 ∧
    ((s.thr ao).cr ≠ 1 → (s'.thr ao).pc = (s.thr ao).pc) ∧ ((s.thr ao).cr = 1 → (s'.thr ao).pc = if c.testFirst then .test else .top) ∧
    (s'.thr ao).handle = if (s.thr ao).cr = 2 then true else (s.thr ao).handle := by
  simp only [step] at hs
  split at hs
  · cases hs
  · split at hs <;> simp only [Res.ok.injEq, Prod.mk.injEq, reduceCtorEq] at hs <;> rename_i hc <;> obtain ⟨rfl, rfl⟩ := hs <;>
      simp [upd_same, hc]

/-- Dispatches are the results of `take`. -/
theorem dispatched_nil {o : Out} {op : Op} (hs : step c s op = .ok (s', o)) {ao : Nat} (h : ∀ r, o ≠ some (.take ao, r)) :
    dispatched ao [o] = [] := by
  cases o with
  | none => rfl
  | some x =>
    obtain ⟨fop, r⟩ := x
    simp only [dispatched, results, List.filterMap_cons, Option.map_some, List.filterMap_nil]
    have hsc := (step_out hs rfl).1
    have hst : ∃ w', Fwk.step c.fw s.w fop = .ok (w', r) := by
      have : ∀ {f g}, fwk c s f g = .ok (s', some (fop, r)) → ∃ w', Fwk.step c.fw s.w fop = .ok (w', r) := by
        intro f g hs
        unfold fwk at hs
        rw [Res.map'_eq_ok] at hs
        obtain ⟨⟨w', r'⟩, h1, h2⟩ := hs
        simp only [Prod.mk.injEq, Option.some.injEq] at h2
        obtain ⟨_, rfl, rfl⟩ := h2
        exact ⟨w', h1⟩
      cases op with
      | activate p m n => exact this hs
      | create i => have := (create_step hs).2.1; cases this
      | terminate i => simp [step] at hs
      | thread i =>
        simp only [step, thread] at hs
        (repeat' split at hs) <;> first
          | (cases hs; done)
          | (simp at hs; done)
          | exact this hs
      | call op =>
        simp only [step] at hs
        split at hs
        · exact this hs
        · cases hs
    obtain ⟨w', hw⟩ := hst
    cases r with
    | dispatch i e =>
      simp only [Fwk.Obs.dispatched, List.append_nil, ite_eq_right_iff, reduceCtorEq, imp_false]
      rintro rfl
      have : fop = .take i := by
        cases fop <;> simp only [Fwk.step, Res.map'_eq_ok, Prod.mk.injEq, reduceCtorEq, and_false, exists_false, Res.ok.injEq] at hw
        case take j => obtain ⟨x, _, _, h, _⟩ := hw; rfl
        case select => exact absurd (Or.inl rfl) hsc
        case fetch => exact absurd (Or.inr (Or.inl rfl)) hsc
        case done => exact absurd (Or.inr (Or.inr rfl)) hsc
        case resume k => split at hw <;> simp [Res.map'_eq_ok] at hw
        case numUsed k =>
          split at hw
          · cases hw
          · split at hw <;> simp at hw
      exact h _ (by rw [this])
    | _ => rfl

/-- Step-wise invariants of one thread along a history. -/
theorem along {P : Thr → Prop} {ao : Nat} {Q : Op → Prop} (hP : ∀ s op o s', P (s.thr ao) → Q op → step c s op = .ok (s', o) → P (s'.thr ao)) :
    ∀ (ops : List Op) (s : St) (outs : List Out) (s2 : St), runOps (step c) s ops = (outs, .ok s2) → (∀ op ∈ ops, Q op) → P (s.thr ao) →
      P (s2.thr ao) := by
  intro ops
  induction ops with
  | nil => intro s outs s2 hr _ h; simp only [runOps, Prod.mk.injEq, Res.ok.injEq] at hr; rw [← hr.2]; exact h
  | cons op ops ih =>
    intro s outs s2 hr hq h
    simp only [runOps] at hr
    rcases hf : step c s op with ⟨s1, o⟩ | _ | _ <;> rw [hf] at hr <;> simp only [Prod.mk.injEq, reduceCtorEq, and_false] at hr
    exact ih s1 _ s2 (Prod.ext rfl hr.2) (fun x hx => hq x (List.mem_cons_of_mem _ hx)) (hP s op o s1 h (hq op (by simp)) hf)

/-! ### C119 -/

/-- Once activation is complete (the handle is stored) and unless it is told to end, a thread never ends, and its object stays
registered. (Before the handle is stored the thread may end: `ends_if_tested_early`, `Demo.activation_race`, C77.) -/
theorem lives_until_terminated (h : Run c slots hdr ops outs s) {ao : Nat} (hp : Alive (s.thr ao)) (hh : (s.thr ao).handle = true)
    (h2 : Run c slots hdr (ops ++ ops2) (outs ++ outs2) s2) (ht : .terminate ao ∉ ops2) :
    Alive (s2.thr ao) ∧ (s2.thr ao).handle = true ∧ Listed s2 ao := by
  obtain ⟨a, hi, _, hr⟩ := h.split h2
  have hcr := hi.hd ao hh
  have key := along (c := c) (P := fun t => Alive t ∧ t.handle = true ∧ t.cr = 3) (ao := ao) (Q := fun op => op ≠ .terminate ao) (by
    intro s op o s' ⟨h1, h2, h3⟩ hq hs
    by_cases hth : op = .thread ao
    · subst hth
      obtain ⟨e1, e2, e3⟩ := own_step hs
      rw [e1, e2]
      refine ⟨?_, h2, h3⟩
      unfold Alive at h1 ⊢
      cases hpc : (s.thr ao).pc <;> simp only [hpc, h2, if_true] at e3 h1 ⊢
      · rcases e3 with e3 | e3 <;> rw [e3.1] <;> simp
      · rcases e3.1 with e3 | e3 <;> rw [e3] <;> simp
      · rcases e3 with e3 | e3 <;> rw [e3.1] <;> simp
      · rw [e3.1]; simp
      · rw [e3.1]; simp
    · by_cases hc : op = .create ao
      · subst hc; have := (create_step hs).2.2.1; omega
      · obtain ⟨e1, e2, e3, _⟩ := thr_frame hs hth hc hq
        unfold Alive
        rw [e1, e2, e3]; exact ⟨h1, h2, h3⟩) ops2 s outs2 s2 hr (fun op hop hh => ht (hh ▸ hop)) ⟨hp, hh, hcr⟩
  refine ⟨key.1, key.2.1, ?_⟩
  obtain ⟨a2, hi2, _⟩ := h2.inv
  exact (listed_iff hi2 ao).2 (hi2.reg ao (exists_of_pc hi2 key.1.1) key.1.2)

/-- The race: a thread that comes to test its flag before its creator has stored it ends and unregisters its object. -/
theorem ends_if_tested_early (h : Run c slots hdr ops outs s) {ao : Nat} (hp : (s.thr ao).pc = .test) (hh : (s.thr ao).cr = 2)
    {x : Fwk.Ao} (hx : s.w.aos[ao]? = some x) (hq : Fwk.Obs.contents x.q = []) :
    ∃ s', step c s (.thread ao) = .ok (s', some (.terminate ao, .unit)) ∧ (s'.thr ao).pc = .dead ∧ ¬ Listed s' ao := by
  obtain ⟨a, hi, _⟩ := h.inv
  have hhd : (s.thr ao).handle = false := by
    cases hb : (s.thr ao).handle with
    | false => rfl
    | true => have := hi.hd ao hb; omega
  obtain ⟨y, hy⟩ := aos_get hi.R hx
  rw [Fwk.contents_eq (hi.R.ao.aos.2 ao x y hx hy).2] at hq
  obtain ⟨y', hy', hr⟩ := hi.reg ao (List.getElem?_eq_some_iff.mp hy).1 (by rw [hp]; simp)
  rw [hy] at hy'; cases hy'
  have hl : Legal c.fw a (.terminate ao) := ⟨y, hy, hr, hq⟩
  obtain ⟨hrel, _⟩ := Fwk.sim_step h.env.wf hi.R _ hl
  simp only [Fwk.Spec.step, hy, hr, if_true] at hrel
  rcases hg : Fwk.step c.fw s.w (.terminate ao) with ⟨w', r⟩ | _ | _ <;> rw [hg] at hrel <;> simp only [StepRel] at hrel
  obtain ⟨hR, rfl⟩ := hrel
  have hs : step c s (.thread ao) = .ok (⟨w', signals s.w w' (upd s.thr ao { s.thr ao with pc := .dead })⟩, some (.terminate ao, .unit)) := by
    simp [step, thread, hp, hhd, fwk, hg, Res.map']
  refine ⟨_, hs, by simp [upd_same], ?_⟩
  rcases inv_step h.env.wf hi hs (fun fop r ho => by
      simp only [Option.some.injEq, Prod.mk.injEq] at ho
      obtain ⟨rfl, _⟩ := ho
      exact Or.inr hl) with ⟨hh, _⟩ | ⟨fop, r, a', _, _, _, _, hI⟩
  · cases hh
  · intro hli
    exact hI.unreg ao (by simp [upd_same]) ((listed_iff hI ao).1 hli)

/-- A thread that has ended stays so: its object is not registered and handles no event any more. -/
theorem ended_forever (h : Run c slots hdr ops outs s) {ao : Nat} (hp : (s.thr ao).pc = .dead)
    (h2 : Run c slots hdr (ops ++ ops2) (outs ++ outs2) s2) : (s2.thr ao).pc = .dead ∧ dispatched ao outs2 = [] ∧ ¬ Listed s2 ao := by
  obtain ⟨a, hi, _, hr⟩ := h.split h2
  have hcr := hi.cr ao (by rw [hp]; simp)
  have key : ∀ (ops2 : List Op) (s : St) (outs2 : List Out) (s2 : St), runOps (step c) s ops2 = (outs2, .ok s2) → (s.thr ao).pc = .dead →
      2 ≤ (s.thr ao).cr → (s2.thr ao).pc = .dead ∧ dispatched ao outs2 = [] := by
    intro ops2
    induction ops2 with
    | nil =>
      intro s outs2 s2 hr hp _
      simp only [runOps, Prod.mk.injEq, Res.ok.injEq] at hr
      obtain ⟨rfl, rfl⟩ := hr
      exact ⟨hp, rfl⟩
    | cons op ops2 ih =>
      intro s outs2 s2 hr hp hcr
      simp only [runOps] at hr
      rcases hf : step c s op with ⟨s1, o⟩ | _ | _ <;> rw [hf] at hr <;> simp only [Prod.mk.injEq, reduceCtorEq, and_false] at hr
      obtain ⟨rfl, hr⟩ := hr
      have hth : op ≠ .thread ao := by
        rintro rfl; have := (own_step hf).2.2; rw [hp] at this; exact this
      have h1 : (s1.thr ao).pc = .dead ∧ 2 ≤ (s1.thr ao).cr := by
        by_cases hc : op = .create ao
        · subst hc
          obtain ⟨e1, _, _, e4, _⟩ := create_step hf
          exact ⟨by rw [e4 (by omega)]; exact hp, by omega⟩
        · by_cases htm : op = .terminate ao
          · subst htm
            simp only [step, Res.ok.injEq, Prod.mk.injEq] at hf
            obtain ⟨rfl, _⟩ := hf
            simp [upd_same, hp, hcr]
          · obtain ⟨e1, e2, _, _⟩ := thr_frame hf hth hc htm
            rw [e1, e2]; exact ⟨hp, hcr⟩
      obtain ⟨h2, h3⟩ := ih s1 _ s2 (Prod.ext rfl hr) h1.1 h1.2
      refine ⟨h2, ?_⟩
      rw [dispatched_cons, h3, List.append_nil]
      exact dispatched_nil hf fun r ho => hth ((step_out hf ho).2 ao rfl)
  obtain ⟨k1, k2⟩ := key ops2 s outs2 s2 hr hp hcr
  obtain ⟨a2, hi2, _⟩ := h2.inv
  exact ⟨k1, k2, fun hli => hi2.unreg ao k1 ((listed_iff hi2 ao).1 hli)⟩

/-! ### C119: exactly when a thread ends without being told to -/

/-- The only way for a thread to end although nobody told it to: at some point it tested its flag when it had been created but its handle
had not been stored yet. -/
theorem ends_untold_only_in_race (h : Run c slots hdr ops outs s) {ao : Nat} (ht : .terminate ao ∉ ops) (hp : (s.thr ao).pc = .dead) :
    ∃ pre post s1, ops = pre ++ .thread ao :: post ∧ (runOps (step c) (init c slots hdr) pre).2 = .ok s1 ∧
      (s1.thr ao).pc = .test ∧ (s1.thr ao).cr = 2 := by
  have hinit : (fun t : Thr => t.pc ≠ .dead ∧ (2 ≤ t.cr ∨ t.pc = .none) ∧ (t.cr = 3 ↔ t.handle = true) ∧ t.cr ≤ 3) ((init c slots hdr).thr ao) := by
    simp [init, thr0]
  have key : ∀ (ops : List Op) (s0 : St) (outs : List Out) (s2 : St), runOps (step c) s0 ops = (outs, .ok s2) → .terminate ao ∉ ops →
      ((s0.thr ao).pc ≠ .dead ∧ (2 ≤ (s0.thr ao).cr ∨ (s0.thr ao).pc = .none) ∧ ((s0.thr ao).cr = 3 ↔ (s0.thr ao).handle = true) ∧ (s0.thr ao).cr ≤ 3) →
      (s2.thr ao).pc = .dead → ∃ pre post s1, ops = pre ++ .thread ao :: post ∧ (runOps (step c) s0 pre).2 = .ok s1 ∧
        (s1.thr ao).pc = .test ∧ (s1.thr ao).cr = 2 := by
    intro ops
    induction ops with
    | nil =>
      intro s0 outs s2 hr _ h0 hd
      simp only [runOps, Prod.mk.injEq, Res.ok.injEq] at hr
      rw [hr.2] at h0
      exact absurd hd h0.1
    | cons op ops ih =>
      intro s0 outs s2 hr htm h0 hd
      simp only [runOps] at hr
      rcases hf : step c s0 op with ⟨s1, o⟩ | _ | _ <;> rw [hf] at hr <;> simp only [Prod.mk.injEq, reduceCtorEq, and_false] at hr
      simp only [List.mem_cons, not_or] at htm
      by_cases hrace : op = .thread ao ∧ (s0.thr ao).pc = .test ∧ (s0.thr ao).cr = 2
      · exact ⟨[], ops, s0, by rw [hrace.1]; rfl, rfl, hrace.2⟩
      · have h1 : (s1.thr ao).pc ≠ .dead ∧ (2 ≤ (s1.thr ao).cr ∨ (s1.thr ao).pc = .none) ∧ ((s1.thr ao).cr = 3 ↔ (s1.thr ao).handle = true) ∧
            (s1.thr ao).cr ≤ 3 := by
          by_cases hth : op = .thread ao
          · subst hth
            obtain ⟨e1, e2, e3⟩ := own_step hf
            rw [e1, e2]
            have hcr : 2 ≤ (s0.thr ao).cr := by
              rcases h0.2.1 with hh | hh
              · exact hh
              · rw [hh] at e3; exact e3.elim
            refine ⟨?_, Or.inl hcr, h0.2.2⟩
            cases hpc : (s0.thr ao).pc <;> simp only [hpc] at e3
            · rcases e3 with e3 | e3 <;> rw [e3.1] <;> simp
            · rcases e3.1 with e3 | e3 <;> rw [e3] <;> simp
            · rcases e3 with e3 | e3 <;> rw [e3.1] <;> simp
            · rw [e3.1]; simp
            · split at e3
              · rw [e3.1]; simp
              · rename_i hhd
                exfalso
                have hne : (s0.thr ao).cr ≠ 2 := fun hh => hrace ⟨rfl, hpc, hh⟩
                have := h0.2.2.2
                exact hhd (h0.2.2.1.1 (by omega))
          · by_cases hc : op = .create ao
            · subst hc
              obtain ⟨e1, _, e3, e4, e5, e6⟩ := create_step hf
              rw [e1, e6]
              by_cases hc1 : (s0.thr ao).cr = 1
              · rw [e5 hc1, hc1]
                refine ⟨by split <;> simp, Or.inl (by simp), ?_, by omega⟩
                have : (s0.thr ao).handle ≠ true := fun hh => by have := h0.2.2.1.2 hh; omega
                simp [this]
              · rw [e4 hc1]
                refine ⟨h0.1, ?_, ?_, by omega⟩
                · rcases h0.2.1 with hh | hh
                  · exact Or.inl (by omega)
                  · exact Or.inr hh
                · by_cases hc2 : (s0.thr ao).cr = 2
                  · simp [hc2]
                  · have h3 : (s0.thr ao).handle ≠ true := fun hh => by have := h0.2.2.1.2 hh; omega
                    simp only [hc2, if_false]
                    constructor
                    · intro hh; omega
                    · intro hh; exact absurd hh h3
            · obtain ⟨e1, e2, e3, _⟩ := thr_frame hf hth hc (fun hh => htm.1 hh.symm)
              rw [e1, e2, e3]; exact h0
        obtain ⟨pre, post, s3, rfl, hp1, hp2⟩ := ih s1 _ s2 (Prod.ext rfl hr.2) htm.2 h1 hd
        exact ⟨op :: pre, post, s3, rfl, by simp only [runOps, hf]; exact hp1, hp2⟩
  exact key ops _ outs s h.run ht hinit hp

/-! ### C120: after rkh_sma_terminate -/

/-- After `rkh_sma_terminate`, the object begins at most one more event; none, if it was processing an event then (for instance when it
terminates itself). (That it can be one is `Demo.terminated_handles_another`, C78.) -/
theorem terminated_at_most_one (h : Run c slots hdr ops outs s) {ao : Nat} (hh : (s.thr ao).handle = false) (hcr : (s.thr ao).cr = 3)
    (h2 : Run c slots hdr (ops ++ ops2) (outs ++ outs2) s2) :
    (dispatched ao outs2).length ≤ 1 ∧ ((s.thr ao).pc = .run ∨ (s.thr ao).pc = .test → dispatched ao outs2 = []) := by
  obtain ⟨a, hi, hl, hr⟩ := h.split h2
  have key : ∀ (ops2 : List Op) (s : St) (outs2 : List Out) (s2 : St), runOps (step c) s ops2 = (outs2, .ok s2) →
      (s.thr ao).handle = false → (s.thr ao).cr = 3 →
      (dispatched ao outs2).length ≤ (match (s.thr ao).pc with | .top => 1 | .woke => 1 | .wait => 1 | _ => 0) := by
    intro ops2
    induction ops2 with
    | nil =>
      intro s outs2 s2 hr _ _
      simp only [runOps, Prod.mk.injEq, Res.ok.injEq] at hr
      obtain ⟨rfl, rfl⟩ := hr
      exact Nat.zero_le _
    | cons op ops2 ih =>
      intro s outs2 s2 hr hh hcr
      simp only [runOps] at hr
      rcases hf : step c s op with ⟨s1, o⟩ | _ | _ <;> rw [hf] at hr <;> simp only [Prod.mk.injEq, reduceCtorEq, and_false] at hr
      obtain ⟨rfl, hr⟩ := hr
      rw [dispatched_cons, List.length_append]
      by_cases hth : op = .thread ao
      · subst hth
        obtain ⟨e1, e2, e3⟩ := own_step hf
        have ih1 := ih s1 (runOps (step c) s1 ops2).1 s2 (Prod.ext rfl hr) (by rw [e2]; exact hh) (by rw [e1]; exact hcr)
        have one : ∀ o : Out, (dispatched ao [o]).length ≤ 1 := by
          intro o
          cases o with
          | none => simp [dispatched, results, Fwk.Obs.dispatched]
          | some x =>
            obtain ⟨q, r⟩ := x
            cases r <;> simp [dispatched, results, Fwk.Obs.dispatched]
            split <;> simp
        have h1 := one o
        have hz : (∀ r, o ≠ some (.take ao, r)) → (dispatched ao [o]).length = 0 := fun hn => by rw [dispatched_nil hf hn]; rfl
        cases hpc : (s.thr ao).pc <;> simp only [hpc, hh] at e3
        · rcases e3 with ⟨e3, rfl⟩ | ⟨e3, e4⟩ <;> simp only [e3] at ih1
          · have := hz (by simp); simp only; omega
          · simp only; omega
        · obtain ⟨e3 | e3, rfl⟩ := e3 <;> simp only [e3] at ih1 <;> have := hz (by simp) <;> simp only <;> omega
        · rcases e3 with ⟨e3, rfl⟩ | ⟨e3, e4⟩ <;> simp only [e3] at ih1
          · have := hz (by simp); simp only; omega
          · simp only; omega
        · obtain ⟨e3, k, r, rfl⟩ := e3
          simp only [e3] at ih1
          have := hz (by simp); simp only; omega
        · simp only [Bool.false_eq_true, if_false] at e3
          obtain ⟨e3, r, rfl⟩ := e3
          simp only [e3] at ih1
          have := hz (by simp); simp only; omega
      · have hz : dispatched ao [o] = [] := dispatched_nil hf fun r ho => hth ((step_out hf ho).2 ao rfl)
        rw [hz]
        have hkeep : (s1.thr ao).pc = (s.thr ao).pc ∧ (s1.thr ao).cr = 3 ∧ (s1.thr ao).handle = false := by
          by_cases hc : op = .create ao
          · subst hc; have := (create_step hf).2.2.1; omega
          · by_cases htm : op = .terminate ao
            · subst htm
              simp only [step, Res.ok.injEq, Prod.mk.injEq] at hf
              obtain ⟨rfl, _⟩ := hf
              simp [upd_same, hcr]
            · obtain ⟨e1, e2, e3, _⟩ := thr_frame hf hth hc htm
              exact ⟨e1, by rw [e2]; exact hcr, by rw [e3]; exact hh⟩
        have ih1 := ih s1 (runOps (step c) s1 ops2).1 s2 (Prod.ext rfl hr) hkeep.2.2 hkeep.2.1
        rw [hkeep.1] at ih1
        simpa using ih1
  have := key ops2 s outs2 s2 hr hh hcr
  constructor
  · split at this <;> omega
  · rintro (hp | hp) <;> rw [hp] at this <;> exact List.length_eq_zero_iff.mp (Nat.le_zero.mp this)

/-- An object that sleeps when it is terminated stays registered, and its thread alive, until somebody posts to it: however often the
thread is given the processor, nothing happens. -/
theorem terminated_sleeper_stays (h : Run c slots hdr ops outs s) {ao : Nat} (hp : (s.thr ao).pc = .wait) (hs : (s.thr ao).sig = false) (n : Nat) :
    runOps (step c) s (List.replicate n (.thread ao)) = (List.replicate n none, .ok s) ∧ Listed s ao := by
  constructor
  · have h1 : step c s (.thread ao) = .ok (s, none) := by simp [step, thread, hp, hs]
    induction n with
    | zero => rfl
    | succ n ih => simp [List.replicate_succ, runOps, h1, ih]
  · obtain ⟨a, hi, _⟩ := h.inv
    exact (listed_iff hi ao).2 (hi.reg ao (exists_of_pc hi (by rw [hp]; simp)) (by rw [hp]; simp))

/-- An object that is processing an event when it is terminated (it terminates itself, say) is unregistered, and its thread ends, within two
further steps of the thread, whatever happens in between; it handles no other event. -/
theorem self_termination (h : Run c slots hdr ops outs s) {ao : Nat} (hp : (s.thr ao).pc = .run) (hh : (s.thr ao).handle = false)
    (hcr : (s.thr ao).cr = 3) (h2 : Run c slots hdr (ops ++ ops2) (outs ++ outs2) s2) (hn : 2 ≤ ops2.countP (isThread ao)) :
    dispatched ao outs2 = [] ∧ (s2.thr ao).pc = .dead ∧ ¬ Listed s2 ao := by
  refine ⟨(terminated_at_most_one h hh hcr h2).2 (Or.inl hp), ?_⟩
  obtain ⟨a, hi, hl, hr⟩ := h.split h2
  have key : ∀ (ops2 : List Op) (s : St) (outs2 : List Out) (s2 : St), runOps (step c) s ops2 = (outs2, .ok s2) →
      (s.thr ao).handle = false → (s.thr ao).cr = 3 →
      ((s.thr ao).pc = .run ∧ 2 ≤ ops2.countP (isThread ao)) ∨ ((s.thr ao).pc = .test ∧ 1 ≤ ops2.countP (isThread ao)) ∨
        (s.thr ao).pc = .dead → (s2.thr ao).pc = .dead := by
    intro ops2
    induction ops2 with
    | nil =>
      intro s outs2 s2 hr _ _ hp
      simp only [runOps, Prod.mk.injEq, Res.ok.injEq] at hr
      obtain ⟨rfl, rfl⟩ := hr
      simpa using hp
    | cons op ops2 ih =>
      intro s outs2 s2 hr hh hcr hp
      simp only [runOps] at hr
      rcases hf : step c s op with ⟨s1, o⟩ | _ | _ <;> rw [hf] at hr <;> simp only [Prod.mk.injEq, reduceCtorEq, and_false] at hr
      rw [List.countP_cons] at hp
      by_cases hth : op = .thread ao
      · subst hth
        have hit : isThread ao (.thread ao) = true := by simp [isThread]
        simp only [hit, if_true] at hp
        obtain ⟨e1, e2, e3⟩ := own_step hf
        refine ih s1 _ s2 (Prod.ext rfl hr.2) (by rw [e2]; exact hh) (by rw [e1]; exact hcr) ?_
        rcases hp with ⟨hp, hn⟩ | ⟨hp, hn⟩ | hp
        · simp only [hp] at e3
          exact Or.inr (Or.inl ⟨e3.1, by omega⟩)
        · simp only [hp, hh, Bool.false_eq_true, if_false] at e3
          exact Or.inr (Or.inr e3.1)
        · rw [hp] at e3; exact e3.elim
      · have hit : isThread ao op = false := by cases op <;> simp_all [isThread]
        simp only [hit, Bool.false_eq_true, if_false, Nat.add_zero] at hp
        have hkeep : (s1.thr ao).pc = (s.thr ao).pc ∧ (s1.thr ao).cr = 3 ∧ (s1.thr ao).handle = false := by
          by_cases hc : op = .create ao
          · subst hc; have := (create_step hf).2.2.1; omega
          · by_cases htm : op = .terminate ao
            · subst htm
              simp only [step, Res.ok.injEq, Prod.mk.injEq] at hf
              obtain ⟨rfl, _⟩ := hf
              simp [upd_same, hcr]
            · obtain ⟨e1, e2, e3, _⟩ := thr_frame hf hth hc htm
              exact ⟨e1, by rw [e2]; exact hcr, by rw [e3]; exact hh⟩
        refine ih s1 _ s2 (Prod.ext rfl hr.2) hkeep.2.2 hkeep.2.1 ?_
        rw [hkeep.1]; exact hp
  have hd := key ops2 s outs2 s2 hr hh hcr (Or.inl ⟨hp, hn⟩)
  obtain ⟨a2, hi2, _⟩ := h2.inv
  exact ⟨hd, fun hli => hi2.unreg ao hd ((listed_iff hi2 ao).1 hli)⟩

end Verif.Thread
