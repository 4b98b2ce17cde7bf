import Verif.SM.Flat
import Verif.SM.Demo
/-
Property C85: the configuration without hierarchy.
-/
namespace Verif.SM
open Spec

/-- **C85.** A machine of basic states that are not nested and have no completion transitions behaves in the configuration without
hierarchy as it does with hierarchy: for every sequence of events after creation, and guards that depend on anything except entries
and exits, the result codes are the same, the current state is the same, and the same actions, guard calls and stable states are observed in
the same order. -/
theorem flat_configuration_same {m : Machine} (h : Flat m) (hn : NoCompletion m) (env : Env) (es : List Sig) {f : Nat} (hf : 5 ≤ f) :
    (serve (flatDispatch m env) (sigCreation :: es) (mem0 m)).2 =
      (serve (dispatch m (fun g e l => env g e (noEnEx l)) f) (sigCreation :: es) (mem0 m)).2 ∧
    (serve (flatDispatch m env) (sigCreation :: es) (mem0 m)).1.state =
      (serve (dispatch m (fun g e l => env g e (noEnEx l)) f) (sigCreation :: es) (mem0 m)).1.state ∧
    (serve (flatDispatch m env) (sigCreation :: es) (mem0 m)).1.log =
      noEnEx (serve (dispatch m (fun g e l => env g e (noEnEx l)) f) (sigCreation :: es) (mem0 m)).1.log := by
  obtain ⟨k, rfl⟩ : ∃ k, f = k + 5 := ⟨f - 5, by omega⟩
  have := corr_serve h hn env k (sigCreation :: es) (mem0 m) (mem0 m) ⟨rfl, rfl, rfl, m.istate, rfl, h.init⟩
  exact ⟨this.2, this.1.state, this.1.log⟩

/-- What a dispatch of `e` without hierarchy may show. -/
def OnlyFor (e : Sig) : Obs → Prop
  | .act _ e' => e' = e
  | .guard _ e' _ => e' = e
  | .stable _ => True
  | _ => False

/-- A piece of the engine that only shows things allowed by `P`. -/
def Adds (P : Obs → Prop) {α : Type} (x : Eng α) : Prop := ∀ s, ∃ l, (x s).1.log = s.log ++ l ∧ ∀ o ∈ l, P o

theorem Adds.bind {P : Obs → Prop} {α β : Type} {x : Eng α} {f : α → Eng β} (h : Adds P x) (hf : ∀ a, Adds P (f a)) : Adds P (x >>= f) := by
  intro s
  obtain ⟨l, h1, h2⟩ := h s
  show ∃ l, (Eng.bind x f s).1.log = _ ∧ _
  unfold Eng.bind
  rcases hx : x s with ⟨s1, a | c⟩ <;> rw [hx] at h1 <;> simp only at h1 ⊢
  · obtain ⟨l', h3, h4⟩ := hf a s1
    exact ⟨l ++ l', by rw [h3, h1, List.append_assoc], fun o ho => (List.mem_append.mp ho).elim (h2 o) (h4 o)⟩
  · exact ⟨l, h1, h2⟩

theorem Adds.pure {P : Obs → Prop} {α : Type} {a : α} : Adds P (Pure.pure a : Eng α) := fun s => ⟨[], (List.append_nil _).symm, by simp⟩
theorem Adds.stop {P : Obs → Prop} {α : Type} {c : Stop} : Adds P (Eng.stop c : Eng α) := fun s => ⟨[], (List.append_nil _).symm, by simp⟩
theorem Adds.emit {P : Obs → Prop} {o : Obs} (h : P o) : Adds P (Eng.emit o) := fun s => ⟨[o], rfl, by simpa using h⟩

theorem adds_guard {env : Env} {e : Sig} (g : Option Guard) : Adds (OnlyFor e) (evalGuard env e g) := by
  rcases g with _ | _ | g
  · exact Adds.pure
  · exact Adds.pure
  · intro s; exact ⟨[.guard g e (env g e s.log)], rfl, by simp [OnlyFor]⟩

theorem adds_findTrn {env : Env} {e : Sig} : ∀ tbl : List Tr, Adds (OnlyFor e) (findTrn env e tbl) := by
  intro tbl
  induction tbl with
  | nil => exact Adds.pure
  | cons t ts ih =>
    unfold findTrn
    by_cases h1 : t.event = sigAny
    · rw [if_pos h1]; exact Adds.pure
    rw [if_neg h1]
    by_cases h2 : t.event = e
    · rw [if_pos h2]
      refine (adds_guard _).bind fun b => ?_
      cases b
      · exact ih
      · exact Adds.pure
    · rw [if_neg h2]; exact ih

theorem adds_exec {e : Sig} : ∀ al : List Act, Adds (OnlyFor e) (exec e al) := by
  intro al
  induction al with
  | nil => exact Adds.pure
  | cons a al ih => exact (Adds.emit (by exact rfl)).bind fun _ => ih

theorem adds_pushAct {m : Machine} {P : Obs → Prop} {al : List Act} {a : Option Act} : Adds P (pushAct m al a) := by
  unfold pushAct
  cases addAct m al a with
  | none => exact Adds.stop
  | some l => exact Adds.pure

/-- **C85**, the difference: without hierarchy no completion event is raised. Whatever the machine, a dispatch calls guards and effects
with the dispatched event only; a transition triggered by completion is never taken, unless the application itself
dispatches the completion signal. -/
theorem flat_no_completion_event (m : Machine) (env : Env) (e : Sig) (s : Mem) :
    ∃ l, (flatDispatch m env e s).1.log = s.log ++ l ∧ ∀ o ∈ l, OnlyFor e o := by
  have hst : ∀ v, Adds (OnlyFor e) (do Eng.modify fun mem => { mem with state := some v }; Eng.emit (.stable v)) := by
    intro v
    refine Adds.bind (fun s => ⟨[], (List.append_nil _).symm, by simp⟩) fun _ => Adds.emit trivial
  revert s
  show Adds (OnlyFor e) (flatDispatch m env e)
  unfold flatDispatch
  cases e == sigCreation <;> simp only
  · refine Adds.bind (fun s => ⟨[], (List.append_nil _).symm, by simp⟩) fun mem => ?_
    cases mem.state with
    | none => exact Adds.stop
    | some cs =>
      simp only
      cases m.trtbl cs with
      | none => exact Adds.stop
      | some tbl =>
        refine (adds_findTrn tbl).bind fun r => ?_
        cases r with
        | none => exact Adds.stop
        | some t =>
          refine adds_pushAct.bind fun al => (adds_exec al).bind fun _ => ?_
          cases t.target with
          | none => exact Adds.pure
          | some v =>
            simp only
            cases m.vert v with
            | none => exact Adds.stop
            | some _ => exact hst _
  · refine adds_pushAct.bind fun al => (adds_exec al).bind fun _ => ?_
    cases m.vert m.istate with
    | none => exact Adds.stop
    | some _ => exact hst _

namespace FlatDemo

/-- Two states; signal 21 switches if the guard holds, 22 is internal. -/
def toggle : Machine := ofList [
  .basic none [Demo.tr 21 (some (.fn 3)) (some 5) (some 1), Demo.tr 22 none (some 7) none],
  .basic none [Demo.tr 21 none (some 6) (some 0), Demo.tr 23 none (some 8) (some 1)]] 0 (some 1) 1 1 true

/-- A guard that depends on the past. -/
def env : Env := fun _ _ l => l.length % 2 == 0

theorem toggle_flat : Flat toggle where
  basic := by
    intro v x h
    match v with
    | 0 => simp [toggle, ofList] at h; subst h; exact ⟨_, rfl, by decide +kernel⟩
    | 1 => simp [toggle, ofList] at h; subst h; exact ⟨_, rfl, by decide +kernel⟩
    | n + 2 => simp [toggle, ofList] at h
  init := by decide +kernel
  depth := by decide +kernel

theorem toggle_noCompletion : NoCompletion toggle := by
  intro v p tbl h
  match v with
  | 0 => simp [toggle, ofList] at h; obtain ⟨_, rfl⟩ := h; decide +kernel
  | 1 => simp [toggle, ofList] at h; obtain ⟨_, rfl⟩ := h; decide +kernel
  | n + 2 => simp [toggle, ofList] at h

-- The hypotheses of `flat_configuration_same` hold of this machine, and the common behaviour is not trivial.
example := flat_configuration_same toggle_flat toggle_noCompletion env [21, 22, 21, 23, 21, 99] (f := 9) (by decide)
example : (serve (flatDispatch toggle env) [sigCreation, 21, 22, 21, 23, 21, 99] (mem0 toggle)).1.log =
    [.act 1 sigCreation, .stable 0, .guard 3 21 true, .act 5 21, .stable 1, .act 6 21, .stable 0, .guard 3 21 false] ∧
  (serve (flatDispatch toggle env) [sigCreation, 21, 22, 21, 23, 21, 99] (mem0 toggle)).2 =
    [.ok (), .ok (), .stop (.rc .evtNFound), .ok (), .stop (.rc .evtNFound), .stop (.rc .evtNFound), .stop (.rc .evtNFound)] := by decide +kernel

/-- A basic state with a completion transition. -/
def compl : Machine := ofList [
  .basic none [Demo.tr 21 none none (some 1)], .basic none [Demo.tr sigCompletion none (some 6) (some 0)]] 0 none 1 1 true

-- With hierarchy the completion transition is taken, without it is not (the state machine stays in state 1).
example : (serve (dispatch compl env 9) [sigCreation, 21] (mem0 compl)).1.state = some 0 ∧
    (serve (flatDispatch compl env) [sigCreation, 21] (mem0 compl)).1.state = some 1 := by decide +kernel

end FlatDemo

end Verif.SM
