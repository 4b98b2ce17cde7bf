import Verif.Sys.Rest
import Verif.Sys.Demo
import Verif.SM.DesignDemo
/-
A system of two objects that follow the design rules.
-/
namespace Verif.Sys.RestDemo
open Verif Verif.Sys Verif.Sys.Demo

/-- A composite with a final state and a history; signal 21 leads to a conditional, from there to the final state or to a state
with a completion transition. -/
def machine : SM.Machine := SM.ofList [
  .composite none [SM.Demo.tr SM.sigCompletion none (some 4) (some 3)] 1 none (some 5),
  .basic (some 0) [SM.Demo.tr 21 none (some 5) (some 4)],
  .final (some 0),
  .basic none [SM.Demo.tr SM.sigCompletion none none (some 0)],
  .cond [SM.Demo.tr 0 (some (.fn 1)) (some 6) (some 2), SM.Demo.tr 0 (some .els) none (some 3)],
  .hist false (some 0) (SM.Demo.tr 0 none none none)] 0 none 2 3 true

theorem sound : Spec.SoundDesign machine where
  wf := (SM.ofList_sound (by decide +kernel)).1
  lim := (SM.ofList_sound (by decide +kernel)).2
  acyclic := SM.okAcyclic_sound (n := 6) (rank := fun v => if v = 4 then 1 else 0) (fun v hv => List.getElem?_eq_none hv) (by decide +kernel)
  exhaustive := SM.okExhaustive_sound (n := 6) (len := fun v => if v = 4 then 1 else 0) (fun v hv => List.getElem?_eq_none hv)
    (by decide +kernel)
  noCircle := SM.okCircle_sound (SM.ofList_sound (by decide +kernel)).1 (n := 6) (rank := fun v => if v = 2 then 1 else 0)
    (fun v hv => List.getElem?_eq_none hv) (by decide +kernel)

/-- The two objects of `Demo.ops1` with this machine: three events are waiting. -/
def ops3 : List Op := [
  .activate 3 [0, 0, 0] 3 machine env 20, .activate 1 [0, 0] 2 machine env 20,
  .tmr (.init 1 900), .tmr (.init 2 901), .tmr (.start 1 1 2 3), .tmr (.start 2 2 2 0), .tick, .call (.postFifo 1 900),
  .call .select, .fetch 60, .call .done, .call (.resume 0), .call (.postFifo 1 900), .tick]

theorem machines3 : ∀ p ∈ Obs.machines ops3, Spec.SoundDesign p.1 := by
  have e : Obs.machines ops3 = [(machine, env), (machine, env)] := rfl
  intro p hp
  rw [e] at hp
  rcases List.mem_cons.1 hp with rfl | hp
  · exact sound
  · rw [List.mem_singleton.1 hp]; exact sound

theorem handled3 : ∀ ao e r, .handled ao e SM.sigCreation r ∉ (go ops3).1 := by
  have : (go ops3).1.all (fun o => match o with | .handled _ _ g _ => g != SM.sigCreation | _ => true) = true := by decide +kernel
  generalize (go ops3).1 = l at this
  intro ao e r hr
  have := List.all_eq_true.mp this _ hr
  simp at this

theorem good3 : good ops3 = true := by decide +kernel
theorem phase3 : after ops3 (fun s => s.w.ph == .none) = true := by decide +kernel
theorem conts3 : after ops3 (fun s => s.w.conts.isEmpty) = true := by decide +kernel
theorem todo3 : after ops3 (fun s => Fwk.Obs.todo s.w == [(1, 900), (1, 901), (0, 900)]) = true := by decide +kernel
theorem sigs3 : after ops3 (fun s => (Fwk.Obs.todo s.w).all fun x => (s.w.hdr x.2).sig != SM.sigCreation) = true := by decide +kernel
theorem first3 : Obs.handled 1 (go ops3).1 = [21] := by decide +kernel

attribute [local irreducible] go after good

-- sound_designs_never_fail, sound_designs_come_to_rest
example : ∃ s, Run cfg Fwk.Demo.slots Fwk.Demo.hdr heap ops3 (go ops3).1 s ∧ (∀ p ∈ Obs.machines ops3, Spec.SoundDesign p.1) ∧
    (∀ ao e r, .handled ao e SM.sigCreation r ∉ (go ops3).1) ∧ s.w.ph = .none ∧ Fwk.Obs.NoRecall s.w ∧
    (∀ x ∈ Fwk.Obs.todo s.w, (s.w.hdr x.2).sig ≠ SM.sigCreation) ∧ Obs.handled 1 (go ops3).1 = [21] ∧
    ∃ fs outs' s', fs.length = 3 ∧
      Run cfg Fwk.Demo.slots Fwk.Demo.hdr heap (ops3 ++ schedule fs) ((go ops3).1 ++ (outs' ++ [.call .idle])) s' := by
  obtain ⟨s, h, hs⟩ := mk good3
  have h1 : s.w.ph = .none := by
    have := after_ok hs phase3
    simpa using this
  have h2 : Fwk.Obs.NoRecall s.w := by
    have := after_ok hs conts3
    rw [List.isEmpty_iff] at this
    intro t ht; rw [this] at ht; cases ht
  have h3 : Fwk.Obs.todo s.w = [(1, 900), (1, 901), (0, 900)] := by
    have := after_ok hs todo3
    simpa using this
  have h4 : ∀ x ∈ Fwk.Obs.todo s.w, (s.w.hdr x.2).sig ≠ SM.sigCreation := by
    have := after_ok hs sigs3
    intro x hx
    simpa using List.all_eq_true.mp this x hx
  have h5 := machines3
  have h6 := handled3
  obtain ⟨fs, outs', s', hfs, hr, _⟩ := sound_designs_come_to_rest h h5 h6 h1 h2 h4
  rw [h3] at hfs
  exact ⟨s, h, h5, h6, h1, h2, h4, first3, fs, outs', s', hfs, hr⟩

end Verif.Sys.RestDemo
