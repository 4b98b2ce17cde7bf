import Verif.SM.DesignDemo
/-
Completion events and result codes, exactly: what happens to the completion events of a dispatch and what the call returns, and the
design rule under which composite states complete in their final state only and the result code tells whether the event was handled.
-/
namespace Verif.SM.Spec
open Verif.SM

/-- The dispatch of `e` in the state `cs` comes to the point where `e'` is looked for in the state `cs'`: `e` itself, or a completion event
after one or more compound transitions. -/
inductive Turns (m : Machine) (env : Env) : Sig → Vid → List Obs → Sig → Vid → List Obs → Prop where
  | start {e : Sig} {cs : Vid} {log : List Obs} : Turns m env e cs log e cs log
  | next {e e' : Sig} {cs w cs' : Vid} {log log1 log' : List Obs} : Turn m env e cs log (.ok w) log1 → CompletionDue m w →
      Turns m env sigCompletion w log1 e' cs' log' → Turns m env e cs log e' cs' log'

/-- The transition of `v` for the completion event is taken in the state `w` for the reason it is there: it is the state's own, or `w` is the
final state of `v`. -/
def Completed (m : Machine) (v w : Vid) : Prop :=
  (v = w ∧ ∃ p tbl, m.vert w = some (.basic p tbl)) ∨ m.vert w = some (.final (some v))

/-- Design rule: a basic state with completion transitions has one without guard (or with an else guard), and so has every composite state
with a final state. -/
structure Unconditional (m : Machine) : Prop where
  basic : ∀ v p tbl, m.vert v = some (.basic p tbl) → (∃ t ∈ rows tbl, t.event = sigCompletion) →
    ∃ t ∈ rows tbl, t.event = sigCompletion ∧ (t.guard = none ∨ t.guard = some .els)
  final : ∀ v p, m.vert v = some (.final (some p)) →
    ∃ tbl, m.trtbl p = some tbl ∧ ∃ t ∈ rows tbl, t.event = sigCompletion ∧ (t.guard = none ∨ t.guard = some .els)

/-- The same for an application whose guards are known: they cover all cases. -/
structure UnconditionalFor (m : Machine) (env : Env) : Prop where
  basic : ∀ v p tbl l l', m.vert v = some (.basic p tbl) → (∃ t ∈ rows tbl, t.event = sigCompletion) → ¬ NoneEnabled m env sigCompletion [v] l l'
  final : ∀ v p l l', m.vert v = some (.final (some p)) → ¬ NoneEnabled m env sigCompletion [p] l l'

end Verif.SM.Spec

namespace Verif.SM
open Eng Spec

section
variable {m : Machine} {env : Env} {e : Sig}

theorem candidates_split (v : Vid) (l : List Vid) : candidates m e (v :: l) = candidates m e [v] ++ candidates m e l := by
  simp [candidates]

theorem candidates_owner {v x : Vid} {t : Tr} (h : (x, t) ∈ candidates m e [v]) : x = v := by
  simp only [candidates, List.flatMap_cons, List.flatMap_nil, List.append_nil, List.mem_map, Prod.mk.injEq] at h
  obtain ⟨_, _, h, _⟩ := h
  exact h.symm

theorem row_candidate {v : Vid} {tbl : List Tr} {t : Tr} (h : m.trtbl v = some tbl) (ht : t ∈ rows tbl) (he : t.event = e) : (v, t) ∈ candidates m e [v] := by
  simp [candidates, h, ht, he]

/-- The first state whose guards are not all false decides. -/
theorem first_state_decides {v : Vid} {l : List Vid} {log : List Obs} (h : ∀ l', ¬ NoneEnabled m env e [v] log l') :
    ∃ t log1, Selected m env e (v :: l) log v t log1 := by
  rcases selected_or_none (m := m) (env := env) (e := e) (l := [v]) log with ⟨x, t, log1, hs⟩ | ⟨log1, hn⟩
  · have := candidates_owner (selected_mem hs)
    subst this
    obtain ⟨pre, post, log2, h1, h2, h3⟩ := hs
    exact ⟨t, log1, pre, post ++ candidates m e l, log2, by rw [candidates_split, h1]; simp, h2, h3⟩
  · exact absurd hn (h log1)

theorem final_candidates {w : Vid} {p : Option Vid} (h : m.vert w = some (.final p)) : candidates m e [w] = [] := by
  simp [candidates, Machine.trtbl, h, rows]

theorem _root_.Verif.SM.Spec.Unconditional.for (u : Unconditional m) (env : Env) : UnconditionalFor m env where
  basic v p tbl l l' hv hc hn := by
    obtain ⟨t, ht, he, hg⟩ := u.basic v p tbl hv hc
    have hm : (v, t) ∈ candidates m sigCompletion [v] := row_candidate (by simp [Machine.trtbl, hv]) ht he
    obtain ⟨n, hn⟩ := guardsFalse_fn hn _ (List.mem_map.2 ⟨_, hm, rfl⟩)
    rcases hg with hg | hg <;> simp [hg] at hn
  final v p l l' hv hn := by
    obtain ⟨tbl, h1, t, ht, he, hg⟩ := u.final v p hv
    have hm : (p, t) ∈ candidates m sigCompletion [p] := row_candidate h1 ht he
    obtain ⟨n, hn⟩ := guardsFalse_fn hn _ (List.mem_map.2 ⟨_, hm, rfl⟩)
    rcases hg with hg | hg <;> simp [hg] at hn

/-- Under the rule the completion event finds the transition it is meant for. -/
theorem completion_selected (u : UnconditionalFor m env) {w : Vid} {l : List Vid} (hp : Path m w l) (hd : CompletionDue m w) (log : List Obs) :
    ∃ v t log1, Selected m env sigCompletion l log v t log1 ∧ Completed m v w := by
  rcases hd with ⟨p, hv⟩ | ⟨p, tbl, hv, hc⟩
  · cases hp with
    | root h => simp [Machine.parent, hv] at h
    | @child _ q l h hp =>
      have hq : p = q := by simpa [Machine.parent, hv] using h
      subst hq
      have hl : ∃ l', l = p :: l' := by
        cases hp with
        | root => exact ⟨_, rfl⟩
        | child => exact ⟨_, rfl⟩
      obtain ⟨l', rfl⟩ := hl
      obtain ⟨t, log1, pre, post, log2, h1, h2⟩ := first_state_decides (l := l') (fun l1 => u.final w p log l1 hv)
      exact ⟨p, t, log1, ⟨pre, post, log2, by rw [candidates_split, final_candidates hv]; exact h1, h2⟩, .inr hv⟩
  · have hl : ∃ l', l = w :: l' := by
      cases hp with
      | root => exact ⟨_, rfl⟩
      | child => exact ⟨_, rfl⟩
    obtain ⟨l', rfl⟩ := hl
    obtain ⟨t, log1, h⟩ := first_state_decides (l := l') (fun l1 => u.basic w p tbl log l1 hv hc)
    exact ⟨w, t, log1, h, .inl ⟨rfl, p, tbl, hv⟩⟩

/-- What remains of a dispatch that has come to some point. -/
theorem dispatches_turns {e' : Sig} {cs w : Vid} {log log1 : List Obs} (ht : Turns m env e cs log e' w log1) {cs' : Vid} {log' : List Obs} {r : Ans Unit} :
    Dispatches m env e cs log cs' log' r → Dispatches m env e' w log1 cs' log' r := by
  induction ht with
  | start => exact id
  | next h1 h2 _ ih =>
    intro h
    cases h with
    | internal h' => exact absurd (h1.det h').1 (by simp)
    | ok h' hc =>
      have := (h1.det h').1
      simp only [Outcome.ok.injEq] at this
      subst this
      exact absurd h2 hc
    | failed h' => exact absurd (h1.det h').1 (by simp)
    | completion h' _ hd =>
      obtain ⟨h3, rfl⟩ := h1.det h'
      simp only [Outcome.ok.injEq] at h3
      subst h3
      exact ih hd

theorem turns_due {e' : Sig} {cs w : Vid} {log log1 : List Obs} (ht : Turns m env e cs log e' w log1) : (e' = e ∧ w = cs ∧ log1 = log) ∨ (e' = sigCompletion ∧ CompletionDue m w) := by
  induction ht with
  | start => exact .inl ⟨rfl, rfl, rfl⟩
  | next _ h2 _ ih =>
    rcases ih with ⟨rfl, rfl, rfl⟩ | h
    · exact .inr ⟨rfl, h2⟩
    · exact .inr h

/-- The last attempt of a dispatch. -/
theorem dispatches_last {cs cs' : Vid} {log log' : List Obs} {r : Ans Unit} (h : Dispatches m env e cs log cs' log' r) :
    ∃ e' w log1 o, Turns m env e cs log e' w log1 ∧ Turn m env e' w log1 o log' ∧
      match o with
      | .internal => cs' = w ∧ r = .ok ()
      | .ok x => cs' = x ∧ ¬ CompletionDue m x ∧ r = .ok ()
      | .failed c => cs' = w ∧ r = .stop (shown m c) := by
  induction h with
  | internal h => exact ⟨_, _, _, .internal, .start, h, rfl, rfl⟩
  | ok h hc => exact ⟨_, _, _, .ok _, .start, h, rfl, hc, rfl⟩
  | failed h => exact ⟨_, _, _, .failed _, .start, h, rfl, rfl⟩
  | completion h hc _ ih =>
    obtain ⟨e', w, log1, o, h1, h2, h3⟩ := ih
    exact ⟨e', w, log1, o, .next h hc h1, h2, h3⟩

theorem turn_path {cs : Vid} {log log' : List Obs} {o : Outcome} (h : Turn m env e cs log o log') : ∃ l, Path m cs l := by
  cases h with
  | none h => exact ⟨_, h⟩
  | taken h => exact ⟨_, h⟩

theorem dispatches_path {cs cs' : Vid} {log log' : List Obs} {r : Ans Unit} (h : Dispatches m env e cs log cs' log' r) : ∃ l, Path m cs l := by
  cases h with
  | internal h => exact turn_path h
  | ok h => exact turn_path h
  | failed h => exact turn_path h
  | completion h => exact turn_path h

theorem turn_selected {cs v : Vid} {l : List Vid} {t : Tr} {log log1 log' : List Obs} {o : Outcome} (hp : Path m cs l) (hs : Selected m env e l log v t log1)
    (h : Turn m env e cs log o log') : Takes m env e cs t log1 o log' := by
  cases h with
  | none hp' hn => rw [hp'.unique hp] at hn; exact (selected_none hs hn).elim
  | taken hp' hs' ht =>
    rw [hp'.unique hp] at hs'
    obtain ⟨rfl, rfl, rfl⟩ := selected_det hs hs'
    exact ht

/-- Under the rules the completion events are all handled. -/
theorem dispatches_handled (wf : WellFormed m) (ex : ExhaustiveFor m env) (u : UnconditionalFor m env) {cs cs' : Vid} {log log' : List Obs} {r : Ans Unit}
    (h : Dispatches m env e cs log cs' log' r) : (∀ l log1, Path m cs l → ¬ NoneEnabled m env e l log log1) → r = .ok () := by
  induction h with
  | internal => exact fun _ => rfl
  | ok => exact fun _ => rfl
  | failed ht =>
    intro hn
    cases ht with
    | none hp h => exact absurd h (hn _ _ hp)
    | taken hp hs ht =>
      exfalso
      obtain ⟨len, l1, l2, l3, l4, l5⟩ := ex.effects
      rcases ht with _ | ⟨hw, hc⟩
      cases hc with
      | stuck hst =>
        obtain ⟨tbl, h1, h2⟩ := candidate_row (selected_mem hs)
        have := l4 _ _ _ _ h1 h2 hw
        have := toList_le (Tr.action ‹Tr›)
        exact not_stuck wf ex l1 l2 l3 hst (by omega)
      | moves _ hg =>
        obtain ⟨_, _, _, _, hc⟩ := hg
        cases hc with
        | failed hds => exact not_defaultStuck wf ex hds
  | completion ht hd _ ih =>
    intro _
    refine ih fun l log1 hp hn => ?_
    obtain ⟨v, t, log2, hs, _⟩ := completion_selected u hp hd _
    exact selected_none hs hn

end

/-! ### The theorems -/

section
variable {m : Machine} {env : Env} {e : Sig} {f : Nat} {s s' : Mem} {r : Ans Unit} {cs : Vid} {l : List Vid} (wf : WellFormed m) (lim : Limits m)
include wf lim

/-- **C160.** What a dispatch returns, exactly: the result of its last attempt, which is for the event itself or, if compound transitions led
to states with completion events due, for the last of these. -/
theorem result_code_exact (hs : Reached m env s) (he : e ≠ sigCreation) (h : dispatch m env f e s = (s', r)) (hr : r ≠ .stop .fuel) (hcs : s.state = some cs) :
    ∃ e' w log1 o, Turns m env e cs s.log e' w log1 ∧ Turn m env e' w log1 o s'.log ∧
      match o with
      | .internal => s'.state = some w ∧ r = .ok ()
      | .ok x => s'.state = some x ∧ ¬ CompletionDue m x ∧ r = .ok ()
      | .failed c => s'.state = some w ∧ r = .stop (shown m c) := by
  obtain ⟨cs0, cs', h1, h2, hd⟩ := dispatch_refines wf lim hs he h hr
  rw [hcs] at h1
  simp only [Option.some.injEq] at h1
  subst h1
  obtain ⟨e', w, log1, o, h3, h4, h5⟩ := dispatches_last hd
  refine ⟨e', w, log1, o, h3, h4, ?_⟩
  cases o with
  | internal => exact ⟨by rw [h2, h5.1], h5.2⟩
  | ok x => exact ⟨by rw [h2, h5.1], h5.2⟩
  | failed c => exact ⟨by rw [h2, h5.1], h5.2⟩

/-- **C161.** If completion transitions are unconditional (or their guards cover all cases) and nothing else is left open, a dispatch that
returns reports that the event was processed exactly if a transition for it was enabled; otherwise it reports that there was none and has
changed nothing. -/
theorem result_code_of_complete_design (ex : ExhaustiveFor m env) (u : UnconditionalFor m env) (hs : Reached m env s) (he : e ≠ sigCreation)
    (h : dispatch m env f e s = (s', r)) (hr : r ≠ .stop .fuel) (hcs : s.state = some cs) (hl : Path m cs l) :
    ((∃ v t log1, Selected m env e l s.log v t log1) ∧ r = .ok ()) ∨
    ((∃ log1, NoneEnabled m env e l s.log log1 ∧ s' = { s with log := log1 }) ∧ r = .stop (.rc .evtNFound)) := by
  rcases selected_or_none (m := m) (env := env) (e := e) (l := l) s.log with hsel | ⟨log1, hn⟩
  · refine .inl ⟨hsel, ?_⟩
    obtain ⟨v, t, log1, hsel⟩ := hsel
    obtain ⟨cs0, cs', h1, h2, hd⟩ := dispatch_refines wf lim hs he h hr
    rw [hcs] at h1
    simp only [Option.some.injEq] at h1
    subst h1
    refine dispatches_handled wf ex u hd fun l' log2 hp hn => ?_
    rw [hp.unique hl] at hn
    exact selected_none hsel hn
  · have := none_enabled_is_rejected wf lim hs he h hr hcs hl hn
    exact .inr ⟨⟨log1, hn, this.2⟩, this.1⟩

/-- **C161.** The same for the initialisation, which always succeeds. -/
theorem complete_design_initialises (ex : ExhaustiveFor m env) (u : UnconditionalFor m env) (h : init m env f (mem0 m) = (s, r)) (hr : r ≠ .stop .fuel) : r = .ok () := by
  obtain ⟨cs, _, h1⟩ := init_refines wf lim h hr
  cases h1 with
  | ok => rfl
  | failed hc => exact (creates_failed wf ex hc).elim
  | completion _ hd hds =>
    refine dispatches_handled wf ex u hds fun l log1 hp hn => ?_
    obtain ⟨v, t, log2, hs, _⟩ := completion_selected u hp hd _
    exact selected_none hs hn

/-- **C162.** Under the same rule for completion transitions (alone): whenever a dispatch comes to a completion event, the transition that is
taken for it is the current state's own, or the current state is the final state of the composite state whose transition it is. -/
theorem completes_in_final_state_only (u : UnconditionalFor m env) (hs : Reached m env s) (he : e ≠ sigCreation) (he' : e ≠ sigCompletion)
    (h : dispatch m env f e s = (s', r)) (hr : r ≠ .stop .fuel) (hcs : s.state = some cs) {w : Vid} {log1 : List Obs}
    (ht : Turns m env e cs s.log sigCompletion w log1) :
    ∃ lw v t log2 o log3 q, Path m w lw ∧ Selected m env sigCompletion lw log1 v t log2 ∧ Completed m v w ∧ Takes m env sigCompletion w t log2 o log3 ∧
      s'.log = log3 ++ q := by
  obtain ⟨cs0, cs', h1, h2, hd⟩ := dispatch_refines wf lim hs he h hr
  rw [hcs] at h1
  simp only [Option.some.injEq] at h1
  subst h1
  have hd' := dispatches_turns ht hd
  obtain ⟨lw, hp⟩ := dispatches_path hd'
  have hdue : CompletionDue m w := by
    rcases turns_due ht with ⟨h, _⟩ | ⟨_, h⟩
    · exact absurd h.symm he'
    · exact h
  obtain ⟨v, t, log2, hsel, hc⟩ := completion_selected u hp hdue log1
  suffices hT : ∃ o log3 q, Turn m env sigCompletion w log1 o log3 ∧ s'.log = log3 ++ q by
    obtain ⟨o, log3, q, hT, hq⟩ := hT
    exact ⟨lw, v, t, log2, o, log3, q, hp, hsel, hc, turn_selected hp hsel hT, hq⟩
  cases hd' with
  | internal hT => exact ⟨_, _, [], hT, by simp⟩
  | ok hT => exact ⟨_, _, [], hT, by simp⟩
  | failed hT => exact ⟨_, _, [], hT, by simp⟩
  | completion hT _ hd =>
    obtain ⟨q, hq⟩ := dispatches_prefix hd
    exact ⟨_, _, q, hT, hq⟩

end

/-- A table check for the rule. -/
def okUnconditional (m : Machine) (n : Nat) : Bool :=
  let sure := fun (tbl : List Tr) => (rows tbl).any fun t => t.event == sigCompletion && (t.guard == none || t.guard == some .els)
  (List.range n).all fun v =>
    match m.vert v with
    | some (.basic _ tbl) => sure tbl || (rows tbl).all fun t => t.event != sigCompletion
    | some (.final (some p)) =>
      match m.trtbl p with
      | some tbl => sure tbl
      | none => false
    | _ => true

theorem okUnconditional_sound {m : Machine} {n : Nat} (hn : ∀ v, n ≤ v → m.vert v = none) (h : okUnconditional m n = true) : Unconditional m := by
  have key : ∀ v x, m.vert v = some x → v < n := by
    intro v x hv
    rcases Nat.lt_or_ge v n with h | h
    · exact h
    · rw [hn v h] at hv; cases hv
  unfold okUnconditional at h
  rw [List.all_eq_true] at h
  constructor
  · intro v p tbl hv hc
    have := h v (List.mem_range.2 (key v _ hv))
    simp only [hv, Bool.or_eq_true] at this
    rcases this with this | this
    · obtain ⟨t, h1, h2⟩ := List.any_eq_true.1 this
      simp only [Bool.and_eq_true, Bool.or_eq_true, beq_iff_eq] at h2
      exact ⟨t, h1, h2⟩
    · obtain ⟨t, h1, h2⟩ := hc
      have := List.all_eq_true.1 this t h1
      simp [h2] at this
  · intro v p hv
    have := h v (List.mem_range.2 (key v _ hv))
    simp only [hv] at this
    cases ht : m.trtbl p with
    | none => simp [ht] at this
    | some tbl =>
      simp only [ht] at this
      obtain ⟨t, h1, h2⟩ := List.any_eq_true.1 this
      simp only [Bool.and_eq_true, Bool.or_eq_true, beq_iff_eq] at h2
      exact ⟨tbl, rfl, t, h1, h2⟩

end Verif.SM

namespace Verif.SM.CompletionDemo
open Verif.SM Eng Spec Demo

/-- Composite state 0 with the states 1 and 2, of which 2 completes at once, and the final state 3; the completion transition of 0 leads to 4. -/
def vertices : List Vertex := [
  .composite none [tr 2 none (some 10) (some 4), tr sigCompletion none (some 11) (some 4)] 1 none none,
  .basic (some 0) [tr 1 (some (.fn 0)) (some 12) (some 2)],
  .basic (some 0) [tr sigCompletion (some (.fn 1)) (some 13) (some 1), tr sigCompletion none (some 14) (some 3)],
  .final (some 0),
  .basic none [tr 3 none none (some 0)]]

def m : Machine := ofList vertices 0 (some 40) 4 3 false

theorem wf : WellFormed m := (ofList_sound (by decide +kernel)).1
theorem lim : Limits m := (ofList_sound (by decide +kernel)).2
theorem exhaustive : Exhaustive m := okExhaustive_sound (n := 5) (len := fun _ => 0) (fun v hv => List.getElem?_eq_none hv) (by decide +kernel)
theorem unconditional : Unconditional m := okUnconditional_sound (n := 5) (fun v hv => List.getElem?_eq_none hv) (by decide +kernel)

/-- Guard 0 is true, guard 1 false. -/
def env : Env := fun g _ _ => g == 0

def s0 : Mem := (init m env 50 (mem0 m)).1
theorem reached : Reached m env s0 := (complete_design_starts wf lim exhaustive (f := 50) (r := .ok ()) (Prod.ext rfl (by decide +kernel)) (by simp)).2

-- C161: event 1 is handled in state 1, event 3 is not
example : (dispatch m env 50 1 s0).2 = .ok () ∧ (dispatch m env 50 3 s0).2 = .stop (.rc .evtNFound) := by
  constructor
  · rcases result_code_of_complete_design wf lim (exhaustive.for env) (unconditional.for env) reached (e := 1) (f := 50) (s' := (dispatch m env 50 1 s0).1)
      (r := (dispatch m env 50 1 s0).2) (cs := 1) (l := [1, 0]) (by decide) rfl (by decide +kernel) (by decide +kernel) (.child rfl (.root rfl)) with h | h
    · exact h.2
    · exfalso
      have h2 : (dispatch m env 50 1 s0).2 = .ok () := by decide +kernel
      rw [h2] at h
      exact absurd h.2 (by simp)
  · rcases result_code_of_complete_design wf lim (exhaustive.for env) (unconditional.for env) reached (e := 3) (f := 50) (s' := (dispatch m env 50 3 s0).1)
      (r := (dispatch m env 50 3 s0).2) (cs := 1) (l := [1, 0]) (by decide) rfl (by decide +kernel) (by decide +kernel) (.child rfl (.root rfl)) with h | h
    · exfalso
      have h2 : (dispatch m env 50 3 s0).2 = .stop (.rc .evtNFound) := by decide +kernel
      rw [h2] at h
      exact absurd h.2 (by simp)
    · exact h.2

-- C160, C162: event 1 leads to 2, the completion event of 2 to the final state 3, that of 0 to 4
example : (dispatch m env 50 1 s0).1.state = some 4 ∧
    (dispatch m env 50 1 s0).1.log = s0.log ++ [.guard 0 1 true, .exit 1, .act 12 1, .entry 2, .stable 2, .guard 1 sigCompletion false, .exit 2, .act 14 sigCompletion,
      .entry 3, .stable 3, .exit 3, .exit 0, .act 11 sigCompletion, .entry 4, .stable 4] := by decide +kernel

example : ∃ w log1, Turns m env 1 1 s0.log sigCompletion w log1 := by
  obtain ⟨e', w, log1, o, h1, h2, h3⟩ := result_code_exact wf lim reached (e := 1) (f := 50) (s' := (dispatch m env 50 1 s0).1) (r := (dispatch m env 50 1 s0).2) (cs := 1)
    (by decide) rfl (by decide +kernel) (by decide +kernel)
  rcases turns_due h1 with ⟨rfl, rfl, rfl⟩ | ⟨rfl, _⟩
  · cases h1 with
    | start =>
      exfalso
      -- the state after the dispatch is 4, which is not where the first transition leads
      have hs : (dispatch m env 50 1 s0).1.state = some 4 := by decide +kernel
      have hl : (dispatch m env 50 1 s0).1.log = s0.log ++ [.guard 0 1 true, .exit 1, .act 12 1, .entry 2, .stable 2, .guard 1 sigCompletion false, .exit 2, .act 14 sigCompletion,
        .entry 3, .stable 3, .exit 3, .exit 0, .act 11 sigCompletion, .entry 4, .stable 4] := by decide +kernel
      have hT : Turn m env 1 1 s0.log (.ok 2) (s0.log ++ [.guard 0 1 true] ++ [.exit 1] ++ acts 1 [12] ++ [.entry 2] ++ [.stable 2]) :=
        .taken (l := [1, 0]) (v := 1) (t := tr 1 (some (.fn 0)) (some 12) (some 2)) (.child rfl (.root rfl))
          ⟨[], [], s0.log, by decide +kernel, .nil, .fn rfl⟩ (.external rfl (.moves (.state ⟨_, rfl⟩)
            ⟨[1, 0], [2, 0], .child rfl (.root rfl), .child rfl (.root rfl), .ok (.leaf (.inl ⟨_, _, rfl⟩))⟩))
      have := (hT.det h2).2
      rw [hl] at this
      simp [acts] at this
    | next h1 h2 h3 => exact ⟨_, _, .next h1 h2 .start⟩
  · exact ⟨w, log1, h1⟩

end Verif.SM.CompletionDemo
