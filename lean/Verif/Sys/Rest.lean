import Verif.Sys.Props
import Verif.SM.Design
/-
C111: rules for the design of the state machines, checked on their tables, under which the whole system always comes to rest.
-/
namespace Verif.Sys.Spec
open Verif Verif.Sys

/-- The rules of C109 and C110 for one state machine. -/
structure SoundDesign (m : SM.Machine) : Prop where
  wf : SM.Spec.WellFormed m
  lim : SM.Spec.Limits m
  acyclic : SM.Spec.Acyclic m
  exhaustive : SM.Spec.Exhaustive m
  noCircle : SM.Spec.NoCompletionCircle m

/-- A dispatch took a transition or found none. -/
def Fine (r : SM.Ans Unit) : Prop := r = .ok () ∨ r = .stop (.rc .evtNFound)

end Verif.Sys.Spec

namespace Verif.Sys
open Verif Spec

variable {c : Cfg} {slots : List MemPool.Pool} {hdr : Nat → Fwk.Evt} {heap : Nat → Timer.Tmr} {ops : List Op} {outs : List Out} {s : Sys}

/-- Every object has a sound design and was not abandoned. -/
def AllReached (s : Sys) : Prop := ∀ x ∈ s.objs, SoundDesign x.m ∧ SM.Spec.Reached x.m x.env x.mem

theorem ended_fine {s x : SM.Mem} {r : SM.Ans Unit} (h : ended s r = .ok x) : x = s ∧ r ≠ .stop .fuel := by
  cases r with
  | ok u => simp only [ended, Res.ok.injEq] at h; exact ⟨h.symm, by simp⟩
  | stop k => cases k <;> simp only [ended, Res.ok.injEq, reduceCtorEq] at h; exact ⟨h.symm, by simp⟩

theorem rest_step {s s1 : Sys} {op : Op} {o : Out} (h : step c s op = .ok (s1, o)) (hi : AllReached s)
    (hm : ∀ p ∈ Obs.machines [op], SoundDesign p.1) (ho : ∀ ao e r, o ≠ .handled ao e SM.sigCreation r) :
    AllReached s1 ∧ ∀ ao e g r, o = .handled ao e g r → Fine r := by
  cases op with
  | activate p mem n m env f =>
    simp only [step, Res.bind'_eq_ok, Res.ok.injEq, Prod.mk.injEq] at h
    obtain ⟨r, _, x, h2, h3, rfl⟩ := h
    refine ⟨?_, by simp⟩
    obtain ⟨rfl, hf⟩ := ended_fine h2
    have d := hm (m, env) (by simp [Obs.machines])
    rw [← h3]
    intro y hy
    simp only [List.mem_append, List.mem_singleton] at hy
    rcases hy with hy | rfl
    · exact hi y hy
    · exact ⟨d, (SM.complete_design_starts d.wf d.lim d.exhaustive (Prod.ext rfl rfl) hf).2⟩
  | fetch f =>
    simp only [step] at h
    split at h
    · simp only [Res.bind'_eq_ok] at h
      obtain ⟨r, _, h⟩ := h
      split at h
      · cases h
      · rename_i x hx
        simp only [Res.bind'_eq_ok, Res.ok.injEq, Prod.mk.injEq] at h
        obtain ⟨y, h2, h3, rfl⟩ := h
        obtain ⟨rfl, hf⟩ := ended_fine h2
        obtain ⟨d, hr⟩ := hi x (List.mem_of_getElem? hx)
        have hsig : (r.1.hdr r.2).sig ≠ SM.sigCreation := fun hc => ho _ _ _ (by rw [hc])
        obtain ⟨h4, h5⟩ := SM.complete_design_never_fails d.wf d.lim d.exhaustive hr hsig (Prod.ext rfl rfl) hf
        refine ⟨?_, ?_⟩
        · rw [← h3]
          intro z hz
          rcases List.mem_or_eq_of_mem_set hz with hz | rfl
          · exact hi z hz
          · exact ⟨d, h5⟩
        · intro ao e g r' he
          cases he
          exact h4
    · cases h
  | take ao f =>
    simp only [step] at h
    simp only [Res.bind'_eq_ok] at h
    obtain ⟨r, _, h⟩ := h
    split at h
    · cases h
    · rename_i x hx
      simp only [Res.bind'_eq_ok, Res.ok.injEq, Prod.mk.injEq] at h
      obtain ⟨y, h2, h3, rfl⟩ := h
      obtain ⟨rfl, hf⟩ := ended_fine h2
      obtain ⟨d, hr⟩ := hi x (List.mem_of_getElem? hx)
      have hsig : (r.1.hdr r.2).sig ≠ SM.sigCreation := fun hc => ho _ _ _ (by rw [hc])
      obtain ⟨h4, h5⟩ := SM.complete_design_never_fails d.wf d.lim d.exhaustive hr hsig (Prod.ext rfl rfl) hf
      refine ⟨?_, ?_⟩
      · rw [← h3]
        intro z hz
        rcases List.mem_or_eq_of_mem_set hz with hz | rfl
        · exact hi z hz
        · exact ⟨d, h5⟩
      · intro ao e g r' he
        cases he
        exact h4
  | tick =>
    simp only [step, Res.bind'_eq_ok, Res.ok.injEq, Prod.mk.injEq] at h
    obtain ⟨r, _, w, _, h3, rfl⟩ := h
    exact ⟨by rw [← h3]; exact hi, by simp⟩
  | tmr op =>
    simp only [step] at h
    split at h
    · cases h
    · rw [Res.map'_eq_ok] at h
      obtain ⟨r, _, h3⟩ := h
      simp only [Prod.mk.injEq] at h3
      obtain ⟨h3, rfl⟩ := h3
      exact ⟨by rw [← h3]; exact hi, by simp⟩
  | call op =>
    simp only [step] at h
    split at h
    · cases h
    · cases h
    · cases h
    · rw [Res.map'_eq_ok] at h
      obtain ⟨r, _, h3⟩ := h
      simp only [Prod.mk.injEq] at h3
      obtain ⟨h3, rfl⟩ := h3
      exact ⟨by rw [← h3]; exact hi, by simp⟩

theorem rest_run : ∀ (ops : List Op) (s s' : Sys) (outs : List Out), runOps (step c) s ops = (outs, .ok s') → AllReached s →
    (∀ p ∈ Obs.machines ops, SoundDesign p.1) → (∀ ao e r, .handled ao e SM.sigCreation r ∉ outs) →
    AllReached s' ∧ ∀ ao e g r, .handled ao e g r ∈ outs → Fine r := by
  intro ops
  induction ops with
  | nil =>
    intro s s' outs h hi _ _
    simp only [runOps, Prod.mk.injEq, Res.ok.injEq] at h
    obtain ⟨rfl, rfl⟩ := h
    exact ⟨hi, by simp⟩
  | cons op ops ih =>
    intro s s' outs h hi hm ho
    simp only [runOps] at h
    rcases hs : step c s op with ⟨s1, o⟩ | _ | _ <;> rw [hs] at h <;> simp only [Prod.mk.injEq, reduceCtorEq, and_false] at h
    obtain ⟨rfl, h⟩ := h
    rw [machines_cons] at hm
    obtain ⟨h1, h2⟩ := rest_step hs hi (fun p hp => hm p (List.mem_append_left _ hp)) (fun ao e r he => ho ao e r (by rw [he]; simp))
    obtain ⟨h3, h4⟩ := ih s1 s' _ (Prod.ext rfl h) h1 (fun p hp => hm p (List.mem_append_right _ hp))
      (fun ao e r he => ho ao e r (List.mem_cons_of_mem _ he))
    refine ⟨h3, fun ao e g r hr => ?_⟩
    rcases List.mem_cons.1 hr with hr | hr
    · exact h2 _ _ _ _ hr.symm
    · exact h4 _ _ _ _ hr

theorem dispatches_reached {m : SM.Machine} {env : SM.Env} (d : SoundDesign m) {s s' : SM.Mem} {es : List Nat}
    (h : Dispatches m env s es s') : SM.sigCreation ∉ es → SM.Spec.Reached m env s → SM.Spec.Reached m env s' := by
  induction h with
  | nil => exact fun _ h => h
  | cons h1 hr _ ih =>
    intro hes hs
    simp only [List.mem_cons, not_or] at hes
    exact ih hes.2 (SM.complete_design_never_fails d.wf d.lim d.exhaustive hs (Ne.symm hes.1) h1 (SM.returns_not_fuel hr)).2

theorem allReached_return {s : Sys} (h : AllReached s) : AlwaysReturn s := by
  intro ao x hx es mem hes hd e he
  obtain ⟨d, hr⟩ := h x (List.mem_of_getElem? hx)
  have hr := dispatches_reached d hd hes hr
  obtain ⟨n, s', r, hf, hn⟩ := SM.no_circles_dispatch_ends d.wf d.lim d.acyclic d.noCircle hr he
  have h1 := hn n (Nat.le_refl _)
  refine ⟨n, ?_⟩
  rw [h1]
  rcases (SM.complete_design_never_fails d.wf d.lim d.exhaustive hr he h1 hf).1 with rfl | rfl
  · exact .inl rfl
  · exact .inr ⟨_, rfl⟩

/-- **C111.** In a system whose state machines all follow the rules, no dispatch ever fails: whatever was posted, published,
deferred, recalled, or sent by a timer, in whatever order, each event is processed or found without a transition. -/
theorem sound_designs_never_fail (h : Run c slots hdr heap ops outs s) (hd : ∀ p ∈ Obs.machines ops, SoundDesign p.1)
    (hc : ∀ ao e r, .handled ao e SM.sigCreation r ∉ outs) : ∀ ao e g r, .handled ao e g r ∈ outs → Fine r :=
  (rest_run ops _ _ _ h.run (by simp [AllReached, init]) hd hc).2

/-- **C111.** Left alone, such a system comes to rest: after as many rounds of the scheduler as events are waiting it is idle and
the queues are empty, every object was given exactly the signals that were waiting for it, in order, and no dispatch failed. The
hypotheses concern the tables of the machines only, not their executions. -/
theorem sound_designs_come_to_rest (h : Run c slots hdr heap ops outs s) (hd : ∀ p ∈ Obs.machines ops, SoundDesign p.1)
    (hc : ∀ ao e r, .handled ao e SM.sigCreation r ∉ outs) (hph : s.w.ph = .none) (hnr : Fwk.Obs.NoRecall s.w)
    (hsig : ∀ x ∈ Fwk.Obs.todo s.w, (s.w.hdr x.2).sig ≠ SM.sigCreation) : ∃ fs outs' s',
      fs.length = (Fwk.Obs.todo s.w).length ∧
      Run c slots hdr heap (ops ++ schedule fs) (outs ++ (outs' ++ [.call .idle])) s' ∧
      (∀ p x, Fwk.Obs.registered s'.w p = some x → Fwk.Obs.contents x.q = []) ∧
      (∀ ao, Obs.handled ao outs' = ((Fwk.Obs.todo s.w).filter fun x => x.1 == ao).map fun x => (s.w.hdr x.2).sig) ∧
      ∀ ao e g r, .handled ao e g r ∈ outs' → Fine r := by
  obtain ⟨hi, _⟩ := rest_run ops _ _ _ h.run (by simp [AllReached, init]) hd hc
  obtain ⟨fs, outs', s', h1, h2, h3, h4⟩ := system_drains h hph hnr (allReached_return hi) hsig
  refine ⟨fs, outs', s', h1, h2, h3, h4, ?_⟩
  have hm : ∀ fs : List Nat, Obs.machines (schedule fs) = [] := by
    intro fs
    induction fs with
    | nil => rfl
    | cons f fs ih => exact ih
  have hmach : ∀ p ∈ Obs.machines (ops ++ schedule fs), SoundDesign p.1 := by
    have : ∀ (a b : List Op), Obs.machines (a ++ b) = Obs.machines a ++ Obs.machines b := by
      intro a b
      induction a with
      | nil => rfl
      | cons op a ih => rw [List.cons_append, machines_cons, ih, machines_cons op a, List.append_assoc]
    rw [this, hm, List.append_nil]
    exact hd
  have hhand : ∀ (ao e g : Nat) (r : SM.Ans Unit) (l : List Out), .handled ao e g r ∈ l → g ∈ Obs.handled ao l := by
    intro ao e g r l
    induction l with
    | nil => simp
    | cons o l ih =>
      intro hl
      rw [handled_cons]
      rcases List.mem_cons.1 hl with rfl | hl
      · simp [Obs.handled]
      · exact List.mem_append_right _ (ih hl)
  intro ao e g r hr
  refine sound_designs_never_fail h2 hmach ?_ ao e g r (by simp [hr])
  intro ao e r hr
  simp only [List.mem_append, List.mem_singleton, reduceCtorEq, or_false] at hr
  rcases hr with hr | hr
  · exact hc _ _ _ hr
  · have := hhand _ _ _ _ _ hr
    rw [h4, List.mem_map] at this
    obtain ⟨x, hx, he⟩ := this
    exact hsig x ((List.mem_filter.1 hx).1) he

end Verif.Sys
