import Verif.SM.Check
/-
A concrete state machine, and for every theorem about the engine a situation of it that meets the hypotheses.

  0 A composite, default 1 (initial action 20)      3 C composite, default 4, shallow history 7
  1 A1   2 A2 (completion transition)                4 C1   5 D composite, default 6, deep history 8
  9 choice   10 conditional                          6 D1   11 final state of D
-/
namespace Verif.SM.Demo
open Verif.SM Eng Spec

def tr (e : Sig) (g : Option Guard) (a : Option Act) (t : Option Vid) : Tr := ⟨e, g, a, t⟩

def A1 : List Tr := [
  tr 2 (some (.fn 0)) (some 12) (some 9), tr 2 none (some 13) none, tr 4 none (some 14) (some 7),
  tr 5 none (some 15) (some 8), tr 6 none (some 16) (some 10), tr 9 none none (some 1), tr 1 none (some 30) (some 2)]

def vertices : List Vertex := [
  .composite none [tr 1 none (some 10) (some 3)] 1 (some 20) none,
  .basic (some 0) A1,
  .basic (some 0) [tr sigCompletion (some (.fn 1)) none (some 1)],
  .composite none [tr 3 none (some 17) (some 0)] 4 none (some 7),
  .basic (some 3) [tr 7 none none (some 5)],
  .composite (some 3) [] 6 none (some 8),
  .basic (some 5) [tr 8 none none (some 11), tr 1 none none (some 4)],
  .hist false (some 3) (tr 0 none none none),
  .hist true (some 5) (tr 0 none (some 18) (some 6)),
  .choice [tr 0 none none (some 4), tr 0 (some (.fn 2)) (some 21) (some 2), tr 0 (some .els) none (some 4)],
  .cond [tr 0 (some (.fn 3)) (some 22) (some 5), tr 0 (some (.fn 4)) (some 23) (some 0)],
  .final (some 5)]

def m : Machine := ofList vertices 0 (some 40) 4 3 false

theorem wf : WellFormed m := (ofList_sound (by decide +kernel)).1
theorem lim : Limits m := (ofList_sound (by decide +kernel)).2

/-- Guards: 1 and 4 are false, the others true except guard 0, which is false until A1 has been left once. -/
def env : Env := fun g _ log => match g with
  | 0 => log.contains (.exit 1)
  | 1 => false
  | 4 => false
  | _ => true

/-- Guards are all false. -/
def env0 : Env := fun _ _ _ => false

/-- Situation after a sequence of events. -/
def at' (env : Env) (es : List Sig) : Mem := (life m env 50 (es.map fun e => (.dispatch e, 50))).1

theorem reached {env : Env} {es : List Sig} (hne : sigCreation ∉ es)
    (hok : (life m env 50 (es.map fun e => (.dispatch e, 50))).2.all (fun r => r == .ok ()) = true) :
    Reached m env (at' env es) := by
  refine life_reached wf lim (Prod.ext rfl rfl) ?_ ?_
  · intro n hn
    simp only [List.mem_map, Prod.mk.injEq, Op.dispatch.injEq] at hn
    obtain ⟨x, hx, rfl, rfl⟩ := hn
    exact hne hx
  · intro r hr
    have := List.all_eq_true.1 hok r hr
    simpa using this

/-- After creation the machine is in A1. -/
theorem start : Reached m env (at' env []) := reached (by decide) (by decide +kernel)
example : (at' env []).state = some 1 ∧ (at' env []).log = [.act 40 sigCreation, .entry 0, .act 20 sigCreation, .entry 1, .stable 1] := by
  decide +kernel

/-! In A1 -/

theorem path1 : Path m 1 [1, 0] := .child rfl (.root rfl)
theorem path0 : Path m 0 [0] := .root rfl
theorem path2 : Path m 2 [2, 0] := .child rfl (.root rfl)
theorem path3 : Path m 3 [3] := .root rfl
theorem path4 : Path m 4 [4, 3] := .child rfl (.root rfl)
theorem path5 : Path m 5 [5, 3] := .child rfl (.root rfl)
theorem path6 : Path m 6 [6, 5, 3] := .child rfl (.child rfl (.root rfl))

theorem inA1 : (at' env []).state = some 1 := by decide +kernel

abbrev log0 : List Obs := [.act 40 sigCreation, .entry 0, .act 20 sigCreation, .entry 1, .stable 1]

theorem log_start : (at' env []).log = log0 := by decide +kernel
theorem start0 : Reached m env0 (at' env0 []) := reached (by decide) (by decide +kernel)
theorem inA1_0 : (at' env0 []).state = some 1 := by decide +kernel
theorem log_start0 : (at' env0 []).log = log0 := by decide +kernel

/-- Event 1 is handled by A1 although its parent has a transition for it too (C34). -/
theorem sel1 : Selected m env 1 [1, 0] (at' env []).log 1 (tr 1 none (some 30) (some 2)) log0 :=
  ⟨[], [(0, tr 1 none (some 10) (some 3))], log0, by decide +kernel, by rw [log_start]; exact .nil, .none⟩

/-- Event 2: the first candidate's guard is false, the second is internal (C34, C35). -/
theorem sel2 : Selected m env 2 [1, 0] (at' env []).log 1 (tr 2 none (some 13) none) (log0 ++ [.guard 0 2 false]) :=
  ⟨[(1, tr 2 (some (.fn 0)) (some 12) (some 9))], [], log0 ++ [.guard 0 2 false], by decide +kernel, by
    rw [log_start]; exact .cons rfl .nil, .none⟩

/-- Event 4: transition to the shallow history of C. -/
theorem sel4 : Selected m env 4 [1, 0] (at' env []).log 1 (tr 4 none (some 14) (some 7)) log0 :=
  ⟨[], [], log0, by decide +kernel, by rw [log_start]; exact .nil, .none⟩

/-- Event 5: transition to the deep history of D. -/
theorem sel5 : Selected m env 5 [1, 0] (at' env []).log 1 (tr 5 none (some 15) (some 8)) log0 :=
  ⟨[], [], log0, by decide +kernel, by rw [log_start]; exact .nil, .none⟩

/-- Event 6: transition to the conditional. -/
theorem sel6 : Selected m env 6 [1, 0] (at' env []).log 1 (tr 6 none (some 16) (some 10)) log0 :=
  ⟨[], [], log0, by decide +kernel, by rw [log_start]; exact .nil, .none⟩

theorem sel6_0 : Selected m env0 6 [1, 0] (at' env0 []).log 1 (tr 6 none (some 16) (some 10)) log0 :=
  ⟨[], [], log0, by decide +kernel, by rw [log_start0]; exact .nil, .none⟩

variable {f : Nat} {s' : Mem} {r : Ans Unit}

-- first_enabled_is_taken, dispatch_refines
example (h : dispatch m env f 1 (at' env []) = (s', r)) (hr : r ≠ .stop .fuel) :
    ∃ o log2 cs', Takes m env 1 1 (tr 1 none (some 30) (some 2)) log0 o log2 ∧ s'.state = some cs' ∧
      Then m env 1 o log2 cs' s'.log r :=
  first_enabled_is_taken wf lim start (by decide) h hr inA1 path1 sel1

-- none_enabled_is_rejected, not_found_changes_nothing, failed_transition_keeps_state
theorem none99 : NoneEnabled m env 99 [1, 0] (at' env []).log log0 := by
  rw [log_start]; exact (GuardsFalse.nil : GuardsFalse env 99 [] log0 log0)

example (h : dispatch m env f 99 (at' env []) = (s', r)) (hr : r ≠ .stop .fuel) :
    r = .stop (.rc .evtNFound) ∧ s' = { at' env [] with log := log0 } :=
  none_enabled_is_rejected wf lim start (by decide) h hr inA1 path1 none99

example : dispatch m env 50 99 (at' env []) = ((dispatch m env 50 99 (at' env [])).1, .stop (.rc .evtNFound)) ∧
    (dispatch m env 50 99 (at' env [])).1.log = (at' env []).log ++ [] :=
  ⟨Prod.ext rfl (by decide +kernel), by decide +kernel⟩

-- internal_transition
example (h : dispatch m env f 2 (at' env []) = (s', r)) (hr : r ≠ .stop .fuel) :
    r = .ok () ∧ s' = { at' env [] with log := log0 ++ [.guard 0 2 false] ++ [.act 13 2] } :=
  internal_transition wf lim start (by decide) h hr inA1 path1 sel2 rfl

-- exit_effect_entry_order: through the conditional to D
theorem branch6 : Branch env 6 [tr 0 (some (.fn 3)) (some 22) (some 5), tr 0 (some (.fn 4)) (some 23) (some 0)] log0
    (tr 0 (some (.fn 3)) (some 22) (some 5)) (log0 ++ [.guard 3 6 true]) :=
  ⟨[], [tr 0 (some (.fn 4)) (some 23) (some 0)], log0, by decide +kernel, .nil, .fn rfl⟩

theorem follows6 : Follows m env 6 (histOf m log0) 10 [16] log0 5 [16, 22] (log0 ++ [.guard 3 6 true]) :=
  .cond (pend := [16]) rfl branch6 (by decide) rfl (.state ⟨some 3, rfl⟩)

theorem noChoice10 : ∀ x tbl, Reach m 10 x → m.vert x ≠ some (.choice tbl) := by
  intro x tbl h
  have : x ∈ closure m 12 [10] := reach_closed (by decide +kernel) h (by decide +kernel)
  have h2 : closure m 12 [10] = [10, 5, 0] := by decide +kernel
  rw [h2] at this
  simp only [List.mem_cons, List.not_mem_nil, or_false] at this
  rcases this with rfl | rfl | rfl <;> simp [m, ofList, vertices]

example (h : dispatch m env f 6 (at' env []) = (s', r)) (hr : r ≠ .stop .fuel) :
    ∃ gs rest, (∀ o ∈ gs, ∃ g b, o = Obs.guard g 6 b) ∧ s'.log = (at' env []).log ++ gs ++
      [.exit 1, .exit 0] ++ [.act 16 6, .act 22 6] ++ [.entry 3, .entry 5] ++ rest :=
  exit_effect_entry_order wf lim start (by decide) h hr inA1 path1 sel6 rfl noChoice10 follows6 path5

-- mem_exited, mem_entered, shallow_after_exits
example : exited [6, 5, 3] [4, 3] = [6, 5] ∧ entered [6, 5, 3] [4, 3] = [4] := by decide
example : exited [1, 0] [1, 0] = [1] ∧ entered [1, 0] [1, 0] = [1] := by decide
example (log : List Obs) : histOf m (log ++ (exited [6, 5, 3] [1, 0]).map .exit) 7 = some 5 :=
  shallow_after_exits (a := [6]) (r := []) rfl path6 path1 rfl (by decide) log

-- entries_and_exits_balance, life_is_balanced
example : ∃ cs l, (at' env [4, 7, 3, 4]).state = some cs ∧ IsLeaf m cs ∧ Path m cs l ∧
    replay m (at' env [4, 7, 3, 4]).log [] = some l :=
  life_is_balanced (os := [4, 7, 3, 4].map fun e => (.dispatch e, 50)) wf lim (Prod.ext rfl rfl)
    (by intro n; simp [sigCreation]) (by decide +kernel)

/-! After C was visited and D was active in it when it was left. -/

theorem back : Reached m env (at' env [4, 7, 3]) := reached (by decide) (by decide +kernel)
theorem inA1' : (at' env [4, 7, 3]).state = some 1 := by decide +kernel

abbrev log1 : List Obs := log0 ++ [.exit 1, .exit 0, .act 14 4, .entry 3, .entry 4, .stable 4, .exit 4, .entry 5,
  .entry 6, .stable 6, .exit 6, .exit 5, .exit 3, .act 17 3, .entry 0, .act 20 3, .entry 1, .stable 1]

theorem log_back : (at' env [4, 7, 3]).log = log1 := by decide +kernel

theorem sel4' : Selected m env 4 [1, 0] (at' env [4, 7, 3]).log 1 (tr 4 none (some 14) (some 7)) log1 :=
  ⟨[], [], log1, by decide +kernel, by rw [log_back]; exact .nil, .none⟩
theorem sel5' : Selected m env 5 [1, 0] (at' env [4, 7, 3]).log 1 (tr 5 none (some 15) (some 8)) log1 :=
  ⟨[], [], log1, by decide +kernel, by rw [log_back]; exact .nil, .none⟩

-- shallow_history_restores: D was the direct child of C left last
example (h : dispatch m env f 4 (at' env [4, 7, 3]) = (s', r)) (hr : r ≠ .stop .fuel) :
    ∃ o log2 cs', Goes m env 4 1 5 [14] log1 o log2 ∧ s'.state = some cs' ∧ Then m env 1 o log2 cs' s'.log r :=
  shallow_history_restores wf lim back (by decide) h hr inA1' path1 sel4' rfl (c := 3) rfl
    (a := log0 ++ [.exit 1, .exit 0, .act 14 4, .entry 3, .entry 4, .stable 4, .exit 4, .entry 5, .entry 6, .stable 6,
      .exit 6])
    (b := [.exit 3, .act 17 3, .entry 0, .act 20 3, .entry 1, .stable 1]) log_back rfl
    (by intro x hx; simp at hx; subst hx; decide) (by decide)

-- shallow_history_owner: before C was ever left
example (h : dispatch m env f 4 (at' env []) = (s', r)) (hr : r ≠ .stop .fuel) :
    ∃ o log2 cs', Goes m env 4 1 3 [14] log0 o log2 ∧ s'.state = some cs' ∧ Then m env 1 o log2 cs' s'.log r :=
  shallow_history_owner wf lim start (by decide) h hr inA1 path1 sel4 rfl (c := 3) rfl (b := log0) (.inl log_start)
    (by intro x hx; simp at hx) rfl

theorem not_below : ¬ Below m 5 1 := by
  intro hb
  cases hb with
  | child h => exact absurd h (by decide)
  | trans h hb =>
    have : (some (some 0) : Option (Option Vid)) = some (some _) := h
    simp only [Option.some.injEq] at this
    subst this
    cases hb with
    | child h => exact absurd h (by decide)
    | trans h hb => exact absurd (show (some none : Option (Option Vid)) = some (some _) from h) (by simp)

-- deep_history_restores: D1 was the last stable state inside D
example (h : dispatch m env f 5 (at' env [4, 7, 3]) = (s', r)) (hr : r ≠ .stop .fuel) :
    ∃ cs', s'.state = some cs' ∧ Then m env 1 (.ok 6) (log1 ++ [.exit 1, .exit 0] ++ [.act 15 5] ++
      [.entry 3, .entry 5, .entry 6] ++ [.stable 6]) cs' s'.log r := by
  have hx : exited [1, 0] [6, 5, 3] = [1, 0] ∧ entered [1, 0] [6, 5, 3] = [6, 5, 3] := by decide
  have key := deep_history_restores (w := 6) (lw := [6, 5, 3]) wf lim back (by decide) h hr inA1' path1 sel5' rfl (c := 5)
    rfl (a := log0 ++ [.exit 1, .exit 0, .act 14 4, .entry 3, .entry 4, .stable 4, .exit 4, .entry 5, .entry 6])
    (b := [.exit 6, .exit 5, .exit 3, .act 17 3, .entry 0, .act 20 3, .entry 1, .stable 1]) log_back (.child rfl)
    (by intro x hx; simp at hx; subst hx; exact not_below) (by decide) path6
  rw [hx.1, hx.2] at key
  exact key

-- deep_history_default
example (h : dispatch m env f 5 (at' env []) = (s', r)) (hr : r ≠ .stop .fuel) :
    ∃ o log3 cs', Continues m env 5 1 6 [15, 18] log0 o log3 ∧ s'.state = some cs' ∧
      Then m env 1 o log3 cs' s'.log r := by
  refine deep_history_default wf lim start (by decide) h hr inA1 path1 sel5 rfl (c := 5) rfl (b := log0) (.inl log_start)
    (by intro x hx; simp at hx; subst hx; exact not_below) rfl .none (by decide)

-- no_branch_at_conditional
example (h : dispatch m env0 f 6 (at' env0 []) = (s', r)) (hr : r ≠ .stop .fuel) :
    r = .stop (.rc .cndNFound) ∧ s'.state = (at' env0 []).state ∧
      s'.log = log0 ++ [.guard 3 6 false] ++ [.guard 4 6 false] :=
  no_branch_at_conditional wf lim start0 (by decide) h hr inA1_0 path1 sel6_0 rfl rfl (.cons rfl (.cons rfl .nil))

-- branch_at_conditional
example (h : dispatch m env f 6 (at' env []) = (s', r)) (hr : r ≠ .stop .fuel) :
    ∃ o log3 cs', Continues m env 6 1 5 [16, 22] (log0 ++ [.guard 3 6 true]) o log3 ∧ s'.state = some cs' ∧
      Then m env 1 o log3 cs' s'.log r :=
  branch_at_conditional wf lim start (by decide) h hr inA1 path1 sel6 rfl rfl branch6 rfl (by decide)

/-! After a self-transition of A1 guard 0 is true: event 2 leads to the choice. -/

theorem self : Reached m env (at' env [9]) := reached (by decide) (by decide +kernel)
theorem inA1'' : (at' env [9]).state = some 1 := by decide +kernel

abbrev log2 : List Obs := log0 ++ [.exit 1, .entry 1, .stable 1]

theorem log_self : (at' env [9]).log = log2 := by decide +kernel

theorem sel2' : Selected m env 2 [1, 0] (at' env [9]).log 1 (tr 2 (some (.fn 0)) (some 12) (some 9))
    (log2 ++ [.guard 0 2 true]) :=
  ⟨[], [(1, tr 2 none (some 13) none)], log2, by decide +kernel, by rw [log_self]; exact .nil, .fn rfl⟩

/-- The branch without guard is not taken, although it comes first. -/
theorem branch2 : Branch env 2 [tr 0 none none (some 4), tr 0 (some (.fn 2)) (some 21) (some 2),
    tr 0 (some .els) none (some 4)] (log2 ++ [.guard 0 2 true] ++ [.act 12 2]) (tr 0 (some (.fn 2)) (some 21) (some 2))
    (log2 ++ [.guard 0 2 true] ++ [.act 12 2] ++ [.guard 2 2 true]) :=
  ⟨[], [tr 0 (some .els) none (some 4)], _, by decide +kernel, .nil, .fn rfl⟩

-- choice_effect_precedes_exits: effect 12 is executed before A1 is left (C44)
example (h : dispatch m env f 2 (at' env [9]) = (s', r)) (hr : r ≠ .stop .fuel) :
    ∃ gs gs' rest, (∀ o ∈ gs, ∃ g b, o = Obs.guard g 2 b) ∧ (∀ o ∈ gs', ∃ g b, o = Obs.guard g 2 b) ∧
      s'.log = (at' env [9]).log ++ gs ++ [.act 12 2] ++ gs' ++ [.exit 1] ++ [.act 21 2] ++ [.entry 2] ++ rest :=
  choice_effect_precedes_exits wf lim self (by decide) h hr inA1'' path1 sel2' rfl rfl rfl branch2 rfl path2

-- completion_is_dispatched_partial, handled_event_reported_not_found (C45, C46)
theorem turn1 : Turn m env 1 1 (at' env []).log (.ok 2) (log0 ++ [.exit 1] ++ [.act 30 1] ++ [.entry 2] ++ [.stable 2]) :=
  .taken path1 sel1 (.external rfl (.moves (.state ⟨some 0, rfl⟩)
    ((goes_leaf (.inl ⟨some 0, _, rfl⟩) path1 path2).2 ⟨rfl, rfl⟩)))

theorem due2 : CompletionDue m 2 := .inr ⟨some 0, _, rfl, tr sigCompletion (some (.fn 1)) none (some 1), by decide +kernel, rfl⟩

example (h : dispatch m env f 1 (at' env []) = (s', r)) (hr : r ≠ .stop .fuel) :
    ∃ s1 f', s1.state = some 2 ∧ s1.log = log0 ++ [.exit 1] ++ [.act 30 1] ++ [.entry 2] ++ [.stable 2] ∧
      dispatch m env f' sigCompletion s1 = (s', r) :=
  completion_is_dispatched_partial wf lim start (by decide) h hr inA1 turn1 due2

example (h : dispatch m env f 1 (at' env []) = (s', r)) (hr : r ≠ .stop .fuel) :
    s'.state = some 2 ∧ s'.log = log0 ++ [.exit 1] ++ [.act 30 1] ++ [.entry 2] ++ [.stable 2] ++
      [.guard 1 sigCompletion false] ∧ r = .stop (.rc .evtNFound) :=
  handled_event_reported_not_found wf lim start (by decide) h hr inA1 turn1 due2 path2 (.cons rfl .nil)

-- creation_order
example (h : init m env f (mem0 m) = (s', r)) (hr : r ≠ .stop .fuel) :
    ∃ o log1 rest, Completes m env sigCreation (fun _ => none) 0 ([.act 40 sigCreation] ++ [.entry 0]) o log1 ∧
      s'.log = log1 ++ rest ∧ match o with
      | .internal => False
      | .failed c => rest = [] ∧ r = .stop (shown m c)
      | .ok w => (¬ CompletionDue m w ∧ rest = [] ∧ s'.state = some w ∧ r = .ok ()) ∨
          (CompletionDue m w ∧ ∃ cs', s'.state = some cs' ∧ Dispatches m env sigCompletion w log1 cs' s'.log r) :=
  creation_order wf lim h hr path0

end Verif.SM.Demo
