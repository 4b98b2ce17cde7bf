import Verif.Sys.Spec
import Verif.SM.Fuel
/-
Projections of a system history onto its components.
-/
namespace Verif.Sys
open Verif

variable {c : Cfg}

theorem ended_ok {s s' : SM.Mem} {r : SM.Ans Unit} (h : ended s r = .ok s') : s' = s ∧ SM.Spec.Returns r := by
  unfold ended at h
  split at h <;> simp only [Res.ok.injEq, reduceCtorEq] at h
  · exact ⟨h.symm, .inl rfl⟩
  · exact ⟨h.symm, .inr ⟨_, rfl⟩⟩

theorem postAll_run {w w' : Fwk.World} {l : List Timer.Post} (h : postAll c.fw w l = .ok w') :
    runOps (Fwk.step c.fw) w (l.map fun p => .postFifo (p.sma - 1) p.evt) = (l.map fun _ => .unit, .ok w') := by
  induction l generalizing w with
  | nil => simp only [postAll, Res.ok.injEq] at h; subst h; rfl
  | cons p l ih =>
    simp only [postAll] at h
    rcases hp : Fwk.postFifo c.fw w (p.sma - 1) p.evt with w1 | _ | _ <;> rw [hp] at h <;>
      simp only [Res.bind'_ok, Res.bind'_assert, Res.bind'_ub, reduceCtorEq] at h
    have := ih h
    simp only [List.map_cons, runOps, Fwk.step, hp, Res.map', this]

/-- The objects before and after a step. -/
def ObjStep (s s' : Sys) (o : Out) : Prop :=
  ∀ ao x, s.objs[ao]? = some x → ∃ x', s'.objs[ao]? = some x' ∧ x'.m = x.m ∧ x'.env = x.env ∧
    Spec.Dispatches x.m x.env x.mem (Obs.handled ao [o]) x'.mem

theorem objStep_same {s s' : Sys} {o : Out} (h : s'.objs = s.objs) (ho : ∀ ao, Obs.handled ao [o] = []) : ObjStep s s' o :=
  fun ao x hx => ⟨x, by rw [h]; exact hx, rfl, rfl, by rw [ho]; exact .nil⟩

/-- The kind of result of each kind of operation. -/
def Shape : Op → Out → Prop
  | .activate _ _ _ _ _ _, .activated _ => True
  | .fetch _, .handled _ _ _ _ => True
  | .take _ _, .handled _ _ _ _ => True
  | .tick, .posts _ => True
  | .tmr _, .tmr _ => True
  | .call _, .call o => ∀ i e, o ≠ .dispatch i e
  | _, _ => False

theorem only_fetch_dispatches {c : Fwk.Cfg} {w w' : Fwk.World} {op : Fwk.Op} {i e : Nat}
    (h : Fwk.step c w op = .ok (w', .dispatch i e)) : op = .fetch ∨ ∃ ao, op = .take ao := by
  cases op <;> simp only [Fwk.step] at h <;> (try exact .inl rfl) <;> (try exact .inr ⟨_, rfl⟩) <;> (try (simp [Res.map'_eq_ok] at h; done))
  all_goals (repeat' split at h) <;> (try (simp [Res.map'_eq_ok] at h; done))
  rename_i hph
  rw [Res.map'_eq_ok] at h
  obtain ⟨⟨_, _ | _⟩, _, h2⟩ := h <;> simp at h2

/-- What one step does to each component. -/
structure Split (c : Cfg) (s : Sys) (op : Op) (s' : Sys) (o : Out) : Prop where
  fwk : runOps (Fwk.step c.fw) s.w (Obs.fwkOps1 op o) = (Obs.fwkOuts1 o, .ok s'.w)
  tmr : runOps (Timer.step c.tm) s.tm (Obs.tmrOps [op]) = (Obs.tmrOuts [o], .ok s'.tm)
  obj : ObjStep s s' o
  new : Obs.machines [op] = [] ∧ s'.objs.length = s.objs.length ∨
    ∃ m env x f, Obs.machines [op] = [(m, env)] ∧ s'.objs = s.objs ++ [x] ∧ x.m = m ∧ x.env = env ∧
      ∃ r, SM.init m env f (SM.mem0 m) = (x.mem, r) ∧ SM.Spec.Returns r
  sig : ∀ ao e sg r, o = .handled ao e sg r → (s'.w.ph = .run ao e ∨ .thr ao e ∈ s'.w.conts) ∧ (s'.w.hdr e).sig = sg
  old : ∀ ao, s.objs.length ≤ ao → Obs.handled ao [o] = []
  shape : Shape op o

theorem split_call {s s' : Sys} {op : Fwk.Op} {o : Fwk.Out} (hf : op ≠ .fetch) (ht : ∀ ao, op ≠ .take ao)
    (h : (Fwk.step c.fw s.w op).map' (fun r => (({ s with w := r.1 } : Sys), Out.call r.2)) = .ok (s', .call o)) :
    Split c s (.call op) s' (.call o) := by
  simp only [Res.map'_eq_ok] at h
  obtain ⟨⟨w', o'⟩, h1, h2⟩ := h
  simp only [Prod.mk.injEq, Out.call.injEq] at h2
  obtain ⟨rfl, rfl⟩ := h2
  refine ⟨?_, rfl, objStep_same rfl fun _ => rfl, .inl ⟨rfl, rfl⟩, by simp, fun _ _ => rfl, ?_⟩
  · simp only [Obs.fwkOps1, Obs.fwkOuts1, runOps, h1]
  · rintro i e rfl
    rcases only_fetch_dispatches h1 with h2 | ⟨ao, h2⟩
    · exact hf h2
    · exact ht ao h2

theorem split_tmr {s s' : Sys} {op : Timer.Op} {o : Timer.Out} (h : (Timer.step c.tm s.tm op).map' (fun r => (({ s with tm := r.1 } : Sys), Out.tmr r.2)) = .ok (s', .tmr o)) :
    Split c s (.tmr op) s' (.tmr o) := by
  simp only [Res.map'_eq_ok] at h
  obtain ⟨⟨w', o'⟩, h1, h2⟩ := h
  simp only [Prod.mk.injEq, Out.tmr.injEq] at h2
  obtain ⟨rfl, rfl⟩ := h2
  refine ⟨rfl, ?_, objStep_same rfl fun _ => rfl, .inl ⟨rfl, rfl⟩, by simp, fun _ _ => rfl, trivial⟩
  simp only [Obs.tmrOps, Obs.tmrOuts, runOps, h1]

theorem split {s s' : Sys} {op : Op} {o : Out} (h : step c s op = .ok (s', o)) : Split c s op s' o := by
  cases op with
  | activate p mem n m env f =>
    simp only [step, Res.bind'_eq_ok] at h
    obtain ⟨⟨w', i⟩, h1, x, h2, h3⟩ := h
    simp only [Res.ok.injEq, Prod.mk.injEq] at h3
    obtain ⟨rfl, rfl⟩ := h3
    obtain ⟨rfl, hr⟩ := ended_ok h2
    refine ⟨?_, rfl, ?_, .inr ⟨m, env, ⟨m, env, _⟩, f, rfl, rfl, rfl, rfl, _, rfl, hr⟩, by simp, fun _ _ => rfl, trivial⟩
    · simp only [Obs.fwkOps1, Obs.fwkOuts1, runOps, Fwk.step, h1, Res.map']
    · intro ao y hy
      refine ⟨y, ?_, rfl, rfl, .nil⟩
      simp only
      rw [List.getElem?_append_left (List.getElem?_eq_some_iff.mp hy).1]
      exact hy
  | fetch f =>
    simp only [step] at h
    split at h
    · rename_i ao hph
      simp only [Res.bind'_eq_ok] at h
      obtain ⟨⟨w', e⟩, h1, h2⟩ := h
      split at h2
      · cases h2
      · rename_i x hx
        simp only [Res.bind'_eq_ok] at h2
        obtain ⟨mem, h2, h3⟩ := h2
        simp only [Res.ok.injEq, Prod.mk.injEq] at h3
        obtain ⟨rfl, rfl⟩ := h3
        obtain ⟨rfl, hr⟩ := ended_ok h2
        refine ⟨?_, rfl, ?_, .inl ⟨rfl, by simp⟩, ?_, ?_, trivial⟩
        · simp only [Obs.fwkOps1, Obs.fwkOuts1, runOps, Fwk.step, hph, h1, Res.map']
        · intro i y hy
          simp only [List.getElem?_set, Obs.handled, List.append_nil]
          by_cases hi : ao = i
          · subst hi
            rw [hx] at hy; cases hy
            have : ao < s.objs.length := (List.getElem?_eq_some_iff.mp hx).1
            refine ⟨{ x with mem := (SM.dispatch x.m x.env f (w'.hdr e).sig x.mem).1 }, by simp [this], rfl, rfl, ?_⟩
            rw [if_pos rfl]
            exact .cons rfl hr .nil
          · refine ⟨y, by simp [hi, hy], rfl, rfl, ?_⟩
            rw [if_neg hi]
            exact .nil
        · intro ao' e' sg r ho
          simp only [Out.handled.injEq] at ho
          obtain ⟨rfl, rfl, rfl, rfl⟩ := ho
          exact ⟨.inl rfl, rfl⟩
        · intro i hi
          have : ao < s.objs.length := (List.getElem?_eq_some_iff.mp hx).1
          simp only [Obs.handled, List.append_nil]
          rw [if_neg (by omega)]
    · cases h
  | take ao f =>
    simp only [step] at h
    simp only [Res.bind'_eq_ok] at h
    obtain ⟨⟨w', e⟩, h1, h2⟩ := h
    split at h2
    · cases h2
    · rename_i x hx
      simp only [Res.bind'_eq_ok] at h2
      obtain ⟨mem, h2, h3⟩ := h2
      simp only [Res.ok.injEq, Prod.mk.injEq] at h3
      obtain ⟨rfl, rfl⟩ := h3
      obtain ⟨rfl, hr⟩ := ended_ok h2
      refine ⟨?_, rfl, ?_, .inl ⟨rfl, by simp⟩, ?_, ?_, trivial⟩
      · simp only [Obs.fwkOps1, Obs.fwkOuts1, runOps, Fwk.step, h1, Res.map']
      · intro i y hy
        simp only [List.getElem?_set, Obs.handled, List.append_nil]
        by_cases hi : ao = i
        · subst hi
          rw [hx] at hy; cases hy
          have : ao < s.objs.length := (List.getElem?_eq_some_iff.mp hx).1
          refine ⟨{ x with mem := (SM.dispatch x.m x.env f (w'.hdr e).sig x.mem).1 }, by simp [this], rfl, rfl, ?_⟩
          rw [if_pos rfl]
          exact .cons rfl hr .nil
        · refine ⟨y, by simp [hi, hy], rfl, rfl, ?_⟩
          rw [if_neg hi]
          exact .nil
      · intro ao' e' sg r ho
        simp only [Out.handled.injEq] at ho
        obtain ⟨rfl, rfl, rfl, rfl⟩ := ho
        exact ⟨.inr (by simp), rfl⟩
      · intro i hi
        have : ao < s.objs.length := (List.getElem?_eq_some_iff.mp hx).1
        simp only [Obs.handled, List.append_nil]
        rw [if_neg (by omega)]
  | tick =>
    simp only [step, Res.bind'_eq_ok] at h
    obtain ⟨⟨tm', l⟩, h1, w', h2, h3⟩ := h
    simp only [Res.ok.injEq, Prod.mk.injEq] at h3
    obtain ⟨rfl, rfl⟩ := h3
    refine ⟨postAll_run h2, ?_, objStep_same rfl fun _ => rfl, .inl ⟨rfl, rfl⟩, by simp, fun _ _ => rfl, trivial⟩
    simp only [Obs.tmrOps, Obs.tmrOuts, runOps, Timer.step, h1, Res.map']
  | tmr op =>
    simp only [step] at h
    split at h
    · cases h
    · have h' := h
      rw [Res.map'_eq_ok] at h'
      obtain ⟨_, _, h2⟩ := h'
      simp only [Prod.mk.injEq] at h2
      obtain ⟨_, rfl⟩ := h2
      exact split_tmr h
  | call op =>
    simp only [step] at h
    split at h
    · cases h
    · cases h
    · cases h
    · rename_i hf ht
      have h' := h
      rw [Res.map'_eq_ok] at h'
      obtain ⟨_, _, h2⟩ := h'
      simp only [Prod.mk.injEq] at h2
      obtain ⟨_, rfl⟩ := h2
      exact split_call hf ht h

theorem tmrOps_cons (op : Op) (ops : List Op) : Obs.tmrOps (op :: ops) = Obs.tmrOps [op] ++ Obs.tmrOps ops := by
  cases op <;> simp [Obs.tmrOps]

theorem tmrOuts_cons (o : Out) (outs : List Out) : Obs.tmrOuts (o :: outs) = Obs.tmrOuts [o] ++ Obs.tmrOuts outs := by
  cases o <;> simp [Obs.tmrOuts]

theorem machines_cons (op : Op) (ops : List Op) : Obs.machines (op :: ops) = Obs.machines [op] ++ Obs.machines ops := by
  cases op <;> simp [Obs.machines]

theorem handled_cons (ao : Nat) (o : Out) (outs : List Out) :
    Obs.handled ao (o :: outs) = Obs.handled ao [o] ++ Obs.handled ao outs := by
  cases o <;> simp [Obs.handled]

theorem Spec.Dispatches.append {m : SM.Machine} {env : SM.Env} {s s1 s2 : SM.Mem} {xs ys : List Nat}
    (h : Spec.Dispatches m env s xs s1) (h2 : Spec.Dispatches m env s1 ys s2) : Spec.Dispatches m env s (xs ++ ys) s2 := by
  induction h with
  | nil => exact h2
  | cons h1 hr _ ih => exact .cons h1 hr (ih h2)

theorem runOps_append2 {S Op Out : Type} {f : S → Op → Res (S × Out)} {as bs : List Op} {s s1 s2 : S} {o1 o2 : List Out}
    (h1 : runOps f s as = (o1, .ok s1)) (h2 : runOps f s1 bs = (o2, .ok s2)) : runOps f s (as ++ bs) = (o1 ++ o2, .ok s2) := by
  obtain ⟨k1, k2⟩ := runOps_append_ok as bs s s1 (f := f) (by rw [h1])
  exact Prod.ext (by rw [k1, h1, h2]) (by rw [k2, h2])

/-- What a history does to each component. -/
theorem project : ∀ (ops : List Op) (s s' : Sys) (outs : List Out), runOps (step c) s ops = (outs, .ok s') →
    runOps (Fwk.step c.fw) s.w (Obs.fwkOps ops outs) = (Obs.fwkOuts outs, .ok s'.w) ∧
    runOps (Timer.step c.tm) s.tm (Obs.tmrOps ops) = (Obs.tmrOuts outs, .ok s'.tm) ∧
    (∀ ao x, s.objs[ao]? = some x → ∃ x', s'.objs[ao]? = some x' ∧ x'.m = x.m ∧ x'.env = x.env ∧
      Spec.Dispatches x.m x.env x.mem (Obs.handled ao outs) x'.mem) ∧
    s'.objs.length = s.objs.length + (Obs.machines ops).length := by
  intro ops
  induction ops with
  | nil =>
    intro s s' outs h
    simp only [runOps, Prod.mk.injEq, Res.ok.injEq] at h
    obtain ⟨rfl, rfl⟩ := h
    exact ⟨rfl, rfl, fun ao x hx => ⟨x, hx, rfl, rfl, .nil⟩, rfl⟩
  | cons op ops ih =>
    intro s s' outs h
    simp only [runOps] at h
    rcases hs : step c s op with ⟨s1, o⟩ | _ | _ <;> rw [hs] at h <;> simp only [Prod.mk.injEq, reduceCtorEq, and_false] at h
    obtain ⟨rfl, h⟩ := h
    obtain ⟨i1, i2, i3, i4⟩ := ih s1 s' _ (Prod.ext rfl h)
    have sp := split hs
    refine ⟨?_, ?_, ?_, ?_⟩
    · simp only [Obs.fwkOps, Obs.fwkOuts, List.flatMap_cons]
      exact runOps_append2 sp.fwk i1
    · rw [tmrOps_cons, tmrOuts_cons]
      exact runOps_append2 sp.tmr i2
    · intro ao x hx
      obtain ⟨x1, hx1, hm1, he1, hd1⟩ := sp.obj ao x hx
      obtain ⟨x2, hx2, hm2, he2, hd2⟩ := i3 ao x1 hx1
      refine ⟨x2, hx2, hm2.trans hm1, he2.trans he1, ?_⟩
      rw [handled_cons]
      rw [hm1, he1] at hd2
      exact hd1.append hd2
    · rw [machines_cons]
      rcases sp.new with ⟨h1, h2⟩ | ⟨m, env, x, f, h1, h2, _⟩
      · rw [i4, h1, h2]; simp
      · rw [i4, h1, h2]; simp; omega

/-- Objects activated during a history. -/
theorem born : ∀ (ops : List Op) (s s' : Sys) (outs : List Out), runOps (step c) s ops = (outs, .ok s') →
    ∀ k m env, (Obs.machines ops)[k]? = some (m, env) → ∃ x, s'.objs[s.objs.length + k]? = some x ∧ x.m = m ∧ x.env = env ∧
      Spec.Life m env (Obs.handled (s.objs.length + k) outs) x.mem := by
  intro ops
  induction ops with
  | nil => intro s s' outs _ k m env hk; simp [Obs.machines] at hk
  | cons op ops ih =>
    intro s s' outs h k m env hk
    simp only [runOps] at h
    rcases hs : step c s op with ⟨s1, o⟩ | _ | _ <;> rw [hs] at h <;> simp only [Prod.mk.injEq, reduceCtorEq, and_false] at h
    obtain ⟨rfl, h⟩ := h
    have hrun : runOps (step c) s1 ops = ((runOps (step c) s1 ops).1, .ok s') := Prod.ext rfl h
    have sp := split hs
    rw [machines_cons] at hk
    rw [handled_cons, sp.old _ (by omega), List.nil_append]
    rcases sp.new with ⟨h1, h2⟩ | ⟨m1, env1, x, f, h1, h2, hm, he, r, hi, hr⟩
    · rw [h1, List.nil_append] at hk
      rw [← h2]
      exact ih s1 s' _ hrun k m env hk
    · rw [h1] at hk
      have hl : s1.objs.length = s.objs.length + 1 := by rw [h2]; simp
      cases k with
      | zero =>
        simp only [List.cons_append, List.getElem?_cons_zero, Option.some.injEq, Prod.mk.injEq] at hk
        obtain ⟨rfl, rfl⟩ := hk
        have hx : s1.objs[s.objs.length + 0]? = some x := by rw [h2]; simp
        obtain ⟨_, _, i3, _⟩ := project ops s1 s' _ hrun
        obtain ⟨x', hx', hm', he', hd⟩ := i3 _ x hx
        rw [hm, he] at hd
        exact ⟨x', hx', hm'.trans hm, he'.trans he, f, x.mem, r, hi, hr, hd⟩
      | succ k =>
        have := ih s1 s' _ hrun k m env (by simpa using hk)
        rw [hl] at this
        rw [show s.objs.length + (k + 1) = s.objs.length + 1 + k by omega]
        exact this

theorem Spec.Dispatches.unique {m : SM.Machine} {env : SM.Env} {s s1 s2 : SM.Mem} {xs : List Nat}
    (h : Spec.Dispatches m env s xs s1) (h2 : Spec.Dispatches m env s xs s2) : s1 = s2 := by
  induction h with
  | nil => cases h2; rfl
  | cons h1 hr _ ih =>
    cases h2 with
    | cons k1 kr k2 =>
      have ne : ∀ {r : SM.Ans Unit}, SM.Spec.Returns r → r ≠ .stop .fuel := by
        rintro r (rfl | ⟨c, rfl⟩) <;> simp
      obtain ⟨rfl, _⟩ := SM.budget_is_irrelevant h1 (ne hr) k1 (ne kr)
      exact ih k2

theorem Spec.Life.unique {m : SM.Machine} {env : SM.Env} {s1 s2 : SM.Mem} {xs : List Nat}
    (h : Spec.Life m env xs s1) (h2 : Spec.Life m env xs s2) : s1 = s2 := by
  obtain ⟨f, a, r, h, hr, hd⟩ := h
  obtain ⟨g, b, q, k, kr, kd⟩ := h2
  exact (Spec.Dispatches.cons h hr hd).unique (.cons k kr kd)

end Verif.Sys
