import Verif.SM.Demo
/-
Where the engine deviates from its documentation or from UML: each deviation is a theorem about a concrete machine that
meets all hypotheses, or about all machines where the deviation is general.
-/
namespace Verif.SM.Findings
open Verif.SM Eng Spec Demo

/-- C44. The documented transition sequence "exit actions before transition actions" is not observed by every dispatch
of every well-formed machine: an effect of the event precedes an exit of the same transition (before any `.stable`). -/
theorem documented_order_fails : ¬ ∀ (m : Machine) (env : Env) (s s' : Mem) (f : Nat) (e : Sig) (r : Ans Unit),
    WellFormed m → Limits m → Reached m env s → e ≠ sigCreation → dispatch m env f e s = (s', r) → r ≠ .stop .fuel →
    ∀ new, s'.log = s.log ++ new → ∀ a b x y, new = a ++ .exit x :: b → (∀ v, .stable v ∉ a) → .act y e ∉ a := by
  intro h
  refine h m env (at' env [9]) (dispatch m env 50 2 (at' env [9])).1 50 2 (.stop (.rc .evtNFound)) Demo.wf Demo.lim self
    (by decide) (Prod.ext rfl (by decide +kernel)) (by simp)
    [.guard 0 2 true, .act 12 2, .guard 2 2 true, .exit 1, .act 21 2, .entry 2, .stable 2, .guard 1 sigCompletion false]
    (by decide +kernel) [.guard 0 2 true, .act 12 2, .guard 2 2 true]
    [.act 21 2, .entry 2, .stable 2, .guard 1 sigCompletion false] 1 12 rfl (by simp) (by decide)

/-- C46. It is not true that a dispatch returns success iff the current state was changed by it or an internal
transition was taken: here the event was handled, the state has changed and "not found" is returned. -/
theorem handled_but_not_found : ∃ s' : Mem, dispatch m env 50 1 (at' env []) = (s', .stop (.rc .evtNFound)) ∧
    Turn m env 1 1 (at' env []).log (.ok 2) (log0 ++ [.exit 1] ++ [.act 30 1] ++ [.entry 2] ++ [.stable 2]) ∧
    (at' env []).state = some 1 ∧ s'.state = some 2 :=
  ⟨(dispatch m env 50 1 (at' env [])).1, Prod.ext rfl (by decide +kernel), turn1, by decide +kernel, by decide +kernel⟩

/-! C45. Composite 0 has a completion transition to 3. Its child 2 is a basic state with a completion transition whose
guard is false. Entering 2 makes the engine leave 0 although 0 has no final state at all. -/

def completion : Machine := ofList [
  .composite none [tr sigCompletion none (some 7) (some 3)] 1 none none,
  .basic (some 0) [tr 1 none none (some 2)],
  .basic (some 0) [tr sigCompletion (some (.fn 0)) none (some 1)],
  .basic none []] 1 none 4 2 false

theorem completion_wf : WellFormed completion ∧ Limits completion := ofList_sound (by decide +kernel)

def completionAt : Mem := (init completion env0 50 (mem0 completion)).1

theorem completion_reached : Reached completion env0 completionAt :=
  init_success_is_settled (f := 50) completion_wf.1 completion_wf.2 (Prod.ext rfl (by decide +kernel))

/-- C45. A completion event reaches a composite state whose region has not reached its final state: no state of the
machine is final, and still the composite's completion transition is taken. -/
theorem composite_completed_without_final : ∃ s' : Mem,
    dispatch completion env0 50 1 completionAt = (s', .ok ()) ∧ s'.state = some 3 ∧
    s'.log = completionAt.log ++ [.exit 1, .entry 2, .stable 2, .guard 0 sigCompletion false, .exit 2, .exit 0,
      .act 7 sigCompletion, .entry 3, .stable 3] ∧ ∀ v p, completion.vert v ≠ some (.final p) := by
  refine ⟨(dispatch completion env0 50 1 completionAt).1, Prod.ext rfl (by decide +kernel), by decide +kernel,
    by decide +kernel, ?_⟩
  intro v p h
  have : (Vertex.final p) ∈ [
    Vertex.composite none [tr sigCompletion none (some 7) (some 3)] 1 none none,
    .basic (some 0) [tr 1 none none (some 2)],
    .basic (some 0) [tr sigCompletion (some (.fn 0)) none (some 1)],
    .basic none []] := List.mem_of_getElem? h
  simp at this

/-! C40, C38. State 0 has a transition to the composite 1, whose default transition leads to a conditional without
enabled branch. -/

def halfway : Machine := ofList [
  .basic none [tr 1 none (some 5) (some 1)],
  .composite none [] 3 none none,
  .basic (some 1) [],
  .cond [tr 0 (some (.fn 0)) none (some 2)]] 0 none 4 2 false

theorem halfway_wf : WellFormed halfway ∧ Limits halfway := ofList_sound (by decide +kernel)

def halfwayAt : Mem := (init halfway env0 50 (mem0 halfway)).1

theorem halfway_reached : Reached halfway env0 halfwayAt :=
  init_success_is_settled (f := 50) halfway_wf.1 halfway_wf.2 (Prod.ext rfl (by decide +kernel))

/-- C40. A dispatch that fails during default entry is not undone: state 0 was left and state 1 was entered, but the
current state is still 0. If the application goes on with the same machine, the next event leaves state 0 although it
is not active: entries and exits no longer balance. -/
theorem failure_half_way : ∃ s1 s2 : Mem,
    dispatch halfway env0 50 1 halfwayAt = (s1, .stop (.rc .cndNFound)) ∧ s1.state = some 0 ∧
    s1.log = halfwayAt.log ++ [.exit 0, .act 5 1, .entry 1, .guard 0 1 false] ∧
    replay halfway s1.log [] = some [1] ∧
    dispatch halfway env0 50 1 s1 = (s2, .stop (.rc .cndNFound)) ∧ replay halfway s2.log [] = none :=
  ⟨(dispatch halfway env0 50 1 halfwayAt).1, (dispatch halfway env0 50 1 (dispatch halfway env0 50 1 halfwayAt).1).1,
    Prod.ext rfl (by decide +kernel), by decide +kernel, by decide +kernel, by decide +kernel,
    Prod.ext rfl (by decide +kernel), by decide +kernel⟩

/-! C48. -/

/-- Three nested states and a configured depth of two. -/
def deep : Machine := ofList [.composite none [] 1 none none, .composite (some 0) [] 2 none none, .basic (some 1) []]
  2 none 2 2 true

/-- C48. The nesting limit is not checked on creation: the array of states to enter is overrun. -/
theorem creation_overruns : ∃ s' : Mem, init deep env0 50 (mem0 deep) = (s', .stop .ub) ∧
    ∃ l, Path deep deep.istate l ∧ deep.maxDepth < l.length :=
  ⟨(init deep env0 50 (mem0 deep)).1, Prod.ext rfl (by decide +kernel), [2, 1, 0],
    .child rfl (.child rfl (.root rfl)), by decide⟩

/-- As `deep`, with a root state from which event 1 leads to the innermost state and event 2 to a vertex of unknown
type. -/
def deepTarget : Machine := ofList [.composite none [] 1 none none, .composite (some 0) [] 2 none none,
  .basic (some 1) [], .basic none [tr 1 none (some 5) (some 2), tr 2 (some (.fn 0)) (some 5) (some 4)], .unknown] 3 none 2 2 true

theorem deepTarget_path : Path deepTarget 3 [3] := .root rfl

-- too_deep_target_is_reported
example {f : Nat} {s' : Mem} {r : Ans Unit} (h : dispatch deepTarget env0 f 1 (mem0 deepTarget) = (s', r))
    (hr : r ≠ .stop .fuel) : r = .stop .assert ∧ s' = mem0 deepTarget :=
  too_deep_target_is_reported (cs := 3) (w := 2) (lw := [2, 1, 0]) (v := 3) (t := tr 1 none (some 5) (some 2)) (log1 := [])
    (by decide) (by decide) h hr rfl deepTarget_path ⟨[], [], [], by decide +kernel, .nil, .none⟩ rfl
    (.child rfl (.child rfl (.root rfl))) (by decide) (by decide)

-- unknown_target_is_reported
example {f : Nat} {s' : Mem} {r : Ans Unit}
    (h : dispatch deepTarget (fun _ _ _ => true) f 2 (mem0 deepTarget) = (s', r))
    (hr : r ≠ .stop .fuel) : r = .stop .assert ∧ s' = { mem0 deepTarget with log := [.guard 0 2 true] } :=
  unknown_target_is_reported (cs := 3) (w := 4) (v := 3) (t := tr 2 (some (.fn 0)) (some 5) (some 4))
    (by decide) (by decide) h hr rfl deepTarget_path ⟨[], [], [], by decide +kernel, .nil, .fn rfl⟩ rfl rfl

-- too_deep_creation_is_undefined
example {env : Env} {f : Nat} {s' : Mem} {r : Ans Unit} (h : init deep env f (mem0 deep) = (s', r)) (hr : r ≠ .stop .fuel) :
    r = .stop .ub :=
  too_deep_creation_is_undefined (by decide) h hr (l := [2, 1, 0]) (.child rfl (.child rfl (.root rfl))) (by decide)

/-- A path with a single effect, and a configured number of one. -/
def oneSegment : Machine := ofList [.basic none [tr 1 none (some 5) (some 1)], .cond [tr 0 (some .els) none (some 2)],
  .basic none []] 0 none 2 1 false

theorem oneSegment_wf : WellFormed oneSegment ∧ Limits oneSegment := ofList_sound (by decide +kernel)

/-- C48. "Too many segments" is reported although the path has a single effect and the configuration admits one: a
segment without effect is refused when the list is full. -/
theorem segment_without_effect_refused : ∃ s' : Mem,
    dispatch oneSegment env0 50 1 (init oneSegment env0 50 (mem0 oneSegment)).1 = (s', .stop (.rc .exTseg)) ∧
    Follows { oneSegment with maxSegs := 2 } env0 1 (fun _ => none) 1 [5] [] 2 [5] [] :=
  ⟨(dispatch oneSegment env0 50 1 (init oneSegment env0 50 (mem0 oneSegment)).1).1, Prod.ext rfl (by decide +kernel),
    .cond (tbl := [tr 0 (some .els) none (some 2)]) (t := tr 0 (some .els) none (some 2)) (pend := [5]) rfl
      ⟨[], [], [], rfl, .nil, .els⟩ (by decide) rfl (.state ⟨none, rfl⟩)⟩

/-! Further deviations. -/

/-- A transition to an ancestor of the current state, in particular a self-transition of a composite state, neither
leaves nor enters that ancestor (UML: an external self-transition leaves and enters its source). -/
theorem ancestor_is_not_left {m : Machine} {cs ts : Vid} {l lt : List Vid} (hl : Path m cs l) (hlt : Path m ts lt)
    (hin : ts ∈ l) (hne : cs ≠ ts) : ts ∉ exited l lt ∧ ts ∉ entered l lt := by
  rw [mem_exited hl hlt, mem_entered hl hlt]
  obtain ⟨r, rfl⟩ := hlt.cons
  constructor
  · rintro (⟨_, h⟩ | ⟨h, _⟩)
    · simp at h
    · exact hne h
  · rintro (⟨_, h⟩ | ⟨h, _⟩)
    · exact h hin
    · exact hne h

example : (1 : Vid) ∉ exited [2, 1, 0] [1, 0] := (ancestor_is_not_left (m := deep) (cs := 2) (ts := 1)
  (.child rfl (.child rfl (.root rfl))) (.child rfl (.root rfl)) (by decide) (by decide)).1

/-- Composite 0 contains composite 1, which has a shallow history 3; the default transition of 0 leads to that history.
This is legal UML but not `WellFormed` here. -/
def nestedHistory : Machine := ofList [
  .composite none [tr 9 none none (some 4)] 3 none none,
  .composite (some 0) [] 2 none (some 3),
  .basic (some 1) [],
  .hist false (some 1) (tr 0 none none (some 2)),
  .basic none [tr 1 none none (some 0)]] 4 none 4 2 false

/-- Default entry through the history of a nested composite state skips the entry action of that state: 2 is entered
while its parent 1 is not active. -/
theorem nested_history_skips_entry : (life nestedHistory env0 50 [(.dispatch 1, 50)]).1.log =
    [.entry 4, .stable 4, .exit 4, .entry 0, .entry 2, .stable 2] ∧
    replay nestedHistory (life nestedHistory env0 50 [(.dispatch 1, 50)]).1.log [] = none := by
  decide +kernel

/-- Composite 0's default transition leads to its own history, which has no default transition. Well-formed here. -/
def ownHistory : Machine := ofList [
  .composite none [] 2 none (some 2), .basic (some 0) [], .hist false (some 0) (tr 0 none none none)] 0 none 4 2 false

theorem ownHistory_wf : WellFormed ownHistory ∧ Limits ownHistory := ofList_sound (by decide +kernel)

/-- Its creation never ends: for every number of steps the engine is still running. -/
theorem own_history_loops (env : Env) (f : Nat) : (init ownHistory env f (mem0 ownHistory)).2 = .stop .fuel := by
  rcases hx : init ownHistory env f (mem0 ownHistory) with ⟨s', r⟩
  rcases Classical.em (r = .stop .fuel) with h | h
  · exact h
  · exfalso
    obtain ⟨o, log1, rest, hc, _⟩ := creation_order ownHistory_wf.1 ownHistory_wf.2 hx h (l := [0]) (.root rfl)
    have hfol : ∀ {v ts : Vid} {pend pend' : List Act} {log log' : List Obs},
        Follows ownHistory env sigCreation (fun _ => none) v pend log ts pend' log' → v = 2 → ts = 0 := by
      intro v ts pend pend' log log' hf
      cases hf with
      | state hs => rintro rfl; obtain ⟨p, hp⟩ := hs; exact absurd hp (by simp [Machine.parent, ownHistory, ofList])
      | cond hv => rintro rfl; simp [ownHistory, ofList] at hv
      | choice hv => rintro rfl; simp [ownHistory, ofList] at hv
      | restore _ hw => simp at hw
      | default hv _ ht => rintro rfl; simp [ownHistory, ofList] at hv; rw [← hv.2.2] at ht; simp [tr] at ht
      | owner hv _ _ hf =>
        rintro rfl
        simp [ownHistory, ofList] at hv
        rw [← hv.2.1] at hf
        exact (hf.state_inv ⟨none, rfl⟩).1
    have hstk : ∀ {v : Vid} {pend : List Act} {log log' : List Obs} {c : RC},
        Stuck ownHistory env sigCreation (fun _ => none) v pend log c log' → v ≠ 2 := by
      intro v pend log log' c hf
      cases hf with
      | noCond hv => rintro rfl; simp [ownHistory, ofList] at hv
      | noChoice hv => rintro rfl; simp [ownHistory, ofList] at hv
      | fullCond hv => rintro rfl; simp [ownHistory, ofList] at hv
      | cond hv => rintro rfl; simp [ownHistory, ofList] at hv
      | choice hv => rintro rfl; simp [ownHistory, ofList] at hv
      | noDefault hv _ ht => rintro rfl; simp [ownHistory, ofList] at hv; rw [← hv.2.2] at ht; simp [tr] at ht
      | fullDefault hv _ ht => rintro rfl; simp [ownHistory, ofList] at hv; rw [← hv.2.2] at ht; simp [tr] at ht
      | default hv _ ht => rintro rfl; simp [ownHistory, ofList] at hv; rw [← hv.2.2] at ht; simp [tr] at ht
    have hd : ∀ {c v : Vid} {log log' : List Obs},
        DefaultEntry ownHistory env sigCreation (fun _ => none) c log v log' → c ≠ 0 := by
      intro c v log log' h
      induction h with
      | leaf hl =>
        rintro rfl
        rcases hl with ⟨p, t, h⟩ | ⟨p, h⟩ <;> simp [ownHistory, ofList] at h
      | composite hc hf _ _ _ ih =>
        rintro rfl
        simp [ownHistory, ofList] at hc
        exact ih (hfol hf hc.2.2.1.symm)
    have hs : ∀ {c : Vid} {log log' : List Obs} {r : RC},
        DefaultStuck ownHistory env sigCreation (fun _ => none) c log r log' → c ≠ 0 := by
      intro c log log' r h
      induction h with
      | path hc hst =>
        rintro rfl
        simp [ownHistory, ofList] at hc
        exact hstk hst hc.2.2.1.symm
      | later hc hf _ _ _ ih =>
        rintro rfl
        simp [ownHistory, ofList] at hc
        exact ih (hfol hf hc.2.2.1.symm)
    cases hc with
    | ok h => exact hd h rfl
    | failed h => exact hs h rfl

/-- `rkh_sm_dispatch` before `rkh_sm_init`: the event is dispatched in the initial state, which was not entered. -/
theorem dispatch_before_init : ∃ s' : Mem, dispatch halfway env0 50 7 (mem0 halfway) = (s', .stop (.rc .evtNFound)) ∧
    dispatch completion env0 50 1 (mem0 completion) = ((dispatch completion env0 50 1 (mem0 completion)).1, .ok ()) ∧
    replay completion (dispatch completion env0 50 1 (mem0 completion)).1.log [] = none :=
  ⟨(dispatch halfway env0 50 7 (mem0 halfway)).1, Prod.ext rfl (by decide +kernel), Prod.ext rfl (by decide +kernel),
    by decide +kernel⟩

/-- A branch without guard is never taken, although rkhsm.h says the guard of a branch is optional. -/
theorem branch_without_guard_is_ignored {env : Env} {e : Sig} {tbl : List Tr} {log log' : List Obs} {t : Tr}
    (h : Branch env e tbl log t log') : t.guard ≠ none := by
  obtain ⟨pre, post, _, hb, _⟩ := h
  have : t ∈ branches tbl := by rw [hb]; simp
  simp only [branches, List.mem_filter] at this
  intro hn
  simp [hn] at this

end Verif.SM.Findings
