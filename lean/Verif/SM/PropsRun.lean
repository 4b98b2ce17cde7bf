import Verif.SM.PropsPseudo
/-
Properties of the state machine engine, continued: what a dispatch does on paths through histories and choices,
completion events, result codes, creation, limits.
-/
namespace Verif.SM
open Eng Spec

/-- A transition to a basic or final state is completed at once. -/
theorem goes_leaf {m : Machine} {env : Env} {e : Sig} {cs w : Vid} {pend : List Act} {log log' : List Obs} {o : Outcome}
    {l lt : List Vid} (hw : IsLeaf m w) (hl : Path m cs l) (hlt : Path m w lt) :
    Goes m env e cs w pend log o log' ↔ o = .ok w ∧ log' = log ++ (exited l lt).map .exit ++ acts e pend ++
      (entered l lt).reverse.map .entry ++ [.stable w] := by
  have key : Goes m env e cs w pend log (.ok w) (log ++ (exited l lt).map .exit ++ acts e pend ++
      (entered l lt).reverse.map .entry ++ [.stable w]) := ⟨l, lt, hl, hlt, .ok (.leaf hw)⟩
  exact ⟨fun h => by obtain ⟨rfl, rfl⟩ := goes_det key h; exact ⟨rfl, rfl⟩, fun ⟨h1, h2⟩ => by rw [h1, h2]; exact key⟩

section
variable {m : Machine} {env : Env} {e : Sig} {f : Nat} {s s' : Mem} {r : Ans Unit} {cs : Vid} {l : List Vid}
variable (wf : WellFormed m) (lim : Limits m)
include wf lim

/-! ### C41: shallow history -/

/-- A transition to a shallow history of `c` goes to the direct child of `c` that was left last, if the history was not
cleared since. -/
theorem shallow_history_restores (hs : Reached m env s) (he : e ≠ sigCreation) (h : dispatch m env f e s = (s', r))
    (hr : r ≠ .stop .fuel) (hcs : s.state = some cs) (hl : Path m cs l) {v k c w : Vid} {t trn : Tr} {log1 a b : List Obs}
    (hsel : Selected m env e l s.log v t log1) (ht : t.target = some k)
    (hk : m.vert k = some (.hist false (some c) trn)) (hlog : s.log = a ++ .exit w :: b)
    (hw : m.parent w = some (some c)) (hb : ∀ x, .exit x ∈ b → m.parent x ≠ some (some c)) (hclr : .clear k ∉ b) :
    ∃ o log2 cs', Goes m env e cs w t.action.toList log1 o log2 ∧ s'.state = some cs' ∧
      Then m env cs o log2 cs' s'.log r := by
  obtain ⟨o, log2, cs', h1, h2, h3⟩ := external_transition wf lim hs he h hr hcs hl hsel ht
  have hh : histOf m log1 k = some w := by
    rw [histOf_ext (selected_ext hsel), shallow_refers_to hk]
    exact ⟨a, b, hlog, hw, hb, hclr⟩
  exact ⟨o, log2, cs', (continues_history hk hh).1 h1, h2, h3⟩

/-- A transition to a shallow history whose composite was never left, or that was cleared, goes on along the history's
default transition. -/
theorem shallow_history_default (hs : Reached m env s) (he : e ≠ sigCreation) (h : dispatch m env f e s = (s', r))
    (hr : r ≠ .stop .fuel) (hcs : s.state = some cs) (hl : Path m cs l) {v k c w : Vid} {t trn : Tr}
    {log1 log2 b : List Obs} (hsel : Selected m env e l s.log v t log1) (ht : t.target = some k)
    (hk : m.vert k = some (.hist false (some c) trn)) (hlog : s.log = b ∨ ∃ a, s.log = a ++ .clear k :: b)
    (hb : ∀ x, .exit x ∈ b → m.parent x ≠ some (some c)) (htd : trn.target = some w)
    (hg : GuardTrue env e trn.guard log1 log2) (hn : t.action.toList.length < m.maxSegs) :
    ∃ o log3 cs', Continues m env e cs w (t.action.toList ++ trn.action.toList) log2 o log3 ∧ s'.state = some cs' ∧
      Then m env cs o log3 cs' s'.log r := by
  obtain ⟨o, log3, cs', h1, h2, h3⟩ := external_transition wf lim hs he h hr hcs hl hsel ht
  have hh : histOf m log1 k = none := by
    rw [histOf_ext (selected_ext hsel), shallow_is_empty hk]
    exact ⟨b, hlog, hb⟩
  exact ⟨o, log3, cs', (continues_history_default hk hh htd hg hn).1 h1, h2, h3⟩

/-- Without default transition it is a transition to the composite state. -/
theorem shallow_history_owner (hs : Reached m env s) (he : e ≠ sigCreation) (h : dispatch m env f e s = (s', r))
    (hr : r ≠ .stop .fuel) (hcs : s.state = some cs) (hl : Path m cs l) {v k c : Vid} {t trn : Tr}
    {log1 b : List Obs} (hsel : Selected m env e l s.log v t log1) (ht : t.target = some k)
    (hk : m.vert k = some (.hist false (some c) trn)) (hlog : s.log = b ∨ ∃ a, s.log = a ++ .clear k :: b)
    (hb : ∀ x, .exit x ∈ b → m.parent x ≠ some (some c)) (htd : trn.target = none) :
    ∃ o log2 cs', Goes m env e cs c t.action.toList log1 o log2 ∧ s'.state = some cs' ∧
      Then m env cs o log2 cs' s'.log r := by
  obtain ⟨o, log2, cs', h1, h2, h3⟩ := external_transition wf lim hs he h hr hcs hl hsel ht
  have hh : histOf m log1 k = none := by
    rw [histOf_ext (selected_ext hsel), shallow_is_empty hk]
    exact ⟨b, hlog, hb⟩
  exact ⟨o, log2, cs', (continues_history_owner wf hk hh htd).1 h1, h2, h3⟩

/-! ### C42: deep history -/

/-- A transition to a deep history of `c` goes to the state inside `c` that was the last stable one, if the history was
not cleared since: that state becomes the current state and every state on the way that is not active is entered. -/
theorem deep_history_restores (hs : Reached m env s) (he : e ≠ sigCreation) (h : dispatch m env f e s = (s', r))
    (hr : r ≠ .stop .fuel) (hcs : s.state = some cs) (hl : Path m cs l) {v k c w : Vid} {t trn : Tr} {log1 a b : List Obs}
    {lw : List Vid} (hsel : Selected m env e l s.log v t log1) (ht : t.target = some k)
    (hk : m.vert k = some (.hist true (some c) trn)) (hlog : s.log = a ++ .stable w :: b)
    (hw : Below m c w) (hb : ∀ x, .stable x ∈ b → ¬ Below m c x) (hclr : .clear k ∉ b) (hlw : Path m w lw) :
    ∃ cs', s'.state = some cs' ∧ Then m env cs (.ok w) (log1 ++ (exited l lw).map .exit ++ acts e t.action.toList ++
      (entered l lw).reverse.map .entry ++ [.stable w]) cs' s'.log r := by
  obtain ⟨o, log2, cs', h1, h2, h3⟩ := external_transition wf lim hs he h hr hcs hl hsel ht
  obtain ⟨cs0, l0, hi⟩ := reached_inv wf lim hs
  have hh : histOf m log1 k = some w := by
    rw [histOf_ext (selected_ext hsel), deep_refers_to hk]
    exact ⟨a, b, hlog, hw, hb, hclr⟩
  have hg := (continues_history hk hh).1 h1
  obtain ⟨rfl, rfl⟩ := (goes_leaf (hi.stables w (by rw [hlog]; simp)) hl hlw).1 hg
  exact ⟨cs', h2, h3⟩

@[inherit_doc shallow_history_default]
theorem deep_history_default (hs : Reached m env s) (he : e ≠ sigCreation) (h : dispatch m env f e s = (s', r))
    (hr : r ≠ .stop .fuel) (hcs : s.state = some cs) (hl : Path m cs l) {v k c w : Vid} {t trn : Tr}
    {log1 log2 b : List Obs} (hsel : Selected m env e l s.log v t log1) (ht : t.target = some k)
    (hk : m.vert k = some (.hist true (some c) trn)) (hlog : s.log = b ∨ ∃ a, s.log = a ++ .clear k :: b)
    (hb : ∀ x, .stable x ∈ b → ¬ Below m c x) (htd : trn.target = some w)
    (hg : GuardTrue env e trn.guard log1 log2) (hn : t.action.toList.length < m.maxSegs) :
    ∃ o log3 cs', Continues m env e cs w (t.action.toList ++ trn.action.toList) log2 o log3 ∧ s'.state = some cs' ∧
      Then m env cs o log3 cs' s'.log r := by
  obtain ⟨o, log3, cs', h1, h2, h3⟩ := external_transition wf lim hs he h hr hcs hl hsel ht
  have hh : histOf m log1 k = none := by
    rw [histOf_ext (selected_ext hsel), deep_is_empty hk]
    exact ⟨b, hlog, hb⟩
  exact ⟨o, log3, cs', (continues_history_default hk hh htd hg hn).1 h1, h2, h3⟩

/-! ### C43, C44: branches -/

/-- A transition to a conditional without enabled branch: `RKH_CND_NFOUND`; nothing but guards has been called and the
current state is unchanged. -/
theorem no_branch_at_conditional (hs : Reached m env s) (he : e ≠ sigCreation) (h : dispatch m env f e s = (s', r))
    (hr : r ≠ .stop .fuel) (hcs : s.state = some cs) (hl : Path m cs l) {v k : Vid} {t : Tr} {tbl : List Tr}
    {log1 log2 : List Obs} (hsel : Selected m env e l s.log v t log1) (ht : t.target = some k)
    (hk : m.vert k = some (.cond tbl)) (hn : GuardsFalse env e ((branches tbl).map Tr.guard) log1 log2) :
    r = .stop (.rc .cndNFound) ∧ s'.state = s.state ∧ s'.log = log2 := by
  obtain ⟨o, log2, cs', h1, h2, h3⟩ := external_transition wf lim hs he h hr hcs hl hsel ht
  obtain ⟨rfl, rfl⟩ := (continues_no_cond hk hn).1 h1
  obtain ⟨rfl, h4, h5⟩ := h3
  exact ⟨h5, by rw [h2, hcs], h4⟩

/-- A transition to a choice without enabled branch: `RKH_CND_NFOUND`; the effect before the choice has been executed and
the current state is unchanged. -/
theorem no_branch_at_choice (hs : Reached m env s) (he : e ≠ sigCreation) (h : dispatch m env f e s = (s', r))
    (hr : r ≠ .stop .fuel) (hcs : s.state = some cs) (hl : Path m cs l) {v k : Vid} {t : Tr} {tbl : List Tr}
    {log1 log2 : List Obs} (hsel : Selected m env e l s.log v t log1) (ht : t.target = some k)
    (hk : m.vert k = some (.choice tbl))
    (hn : GuardsFalse env e ((branches tbl).map Tr.guard) (log1 ++ acts e t.action.toList) log2) :
    r = .stop (.rc .cndNFound) ∧ s'.state = s.state ∧ s'.log = log2 := by
  obtain ⟨o, log2, cs', h1, h2, h3⟩ := external_transition wf lim hs he h hr hcs hl hsel ht
  obtain ⟨rfl, rfl⟩ := (continues_no_choice hk hn).1 h1
  obtain ⟨rfl, h4, h5⟩ := h3
  exact ⟨h5, by rw [h2, hcs], h4⟩

/-- A transition through a conditional: the guards of the branches up to the first true one are called, then the
transition goes on along that branch with both effects pending. -/
theorem branch_at_conditional (hs : Reached m env s) (he : e ≠ sigCreation) (h : dispatch m env f e s = (s', r))
    (hr : r ≠ .stop .fuel) (hcs : s.state = some cs) (hl : Path m cs l) {v k w : Vid} {t b : Tr} {tbl : List Tr}
    {log1 log2 : List Obs} (hsel : Selected m env e l s.log v t log1) (ht : t.target = some k)
    (hk : m.vert k = some (.cond tbl)) (hb : Branch env e tbl log1 b log2) (hw : b.target = some w)
    (hn : t.action.toList.length < m.maxSegs) :
    ∃ o log3 cs', Continues m env e cs w (t.action.toList ++ b.action.toList) log2 o log3 ∧ s'.state = some cs' ∧
      Then m env cs o log3 cs' s'.log r := by
  obtain ⟨o, log3, cs', h1, h2, h3⟩ := external_transition wf lim hs he h hr hcs hl hsel ht
  exact ⟨o, log3, cs', (continues_cond hk hb hn hw).1 h1, h2, h3⟩

/-- A transition through a choice: the effect before the choice is executed, the guards of the branches up to the first
true one are called, then the transition goes on along that branch. -/
theorem branch_at_choice (hs : Reached m env s) (he : e ≠ sigCreation) (h : dispatch m env f e s = (s', r))
    (hr : r ≠ .stop .fuel) (hcs : s.state = some cs) (hl : Path m cs l) {v k w : Vid} {t b : Tr} {tbl : List Tr}
    {log1 log2 : List Obs} (hsel : Selected m env e l s.log v t log1) (ht : t.target = some k)
    (hk : m.vert k = some (.choice tbl)) (hb : Branch env e tbl (log1 ++ acts e t.action.toList) b log2)
    (hw : b.target = some w) :
    ∃ o log3 cs', Continues m env e cs w b.action.toList log2 o log3 ∧ s'.state = some cs' ∧
      Then m env cs o log3 cs' s'.log r := by
  obtain ⟨o, log3, cs', h1, h2, h3⟩ := external_transition wf lim hs he h hr hcs hl hsel ht
  exact ⟨o, log3, cs', (continues_choice hk hb hw).1 h1, h2, h3⟩

/-- The documented transition sequence, in which the source state is left before any effect is executed, does not hold
for a transition through a choice: the effect before the choice is executed first, and no state has been left
before. -/
theorem choice_effect_precedes_exits (hs : Reached m env s) (he : e ≠ sigCreation)
    (h : dispatch m env f e s = (s', r)) (hr : r ≠ .stop .fuel) (hcs : s.state = some cs) (hl : Path m cs l)
    {v k w : Vid} {t b : Tr} {a : Act} {tbl : List Tr} {log1 log2 : List Obs} {lw : List Vid}
    (hsel : Selected m env e l s.log v t log1) (ha : t.action = some a) (ht : t.target = some k)
    (hk : m.vert k = some (.choice tbl)) (hb : Branch env e tbl (log1 ++ [.act a e]) b log2)
    (hw : b.target = some w) (hlw : Path m w lw) :
    ∃ gs gs' rest, (∀ o ∈ gs, ∃ g b, o = .guard g e b) ∧ (∀ o ∈ gs', ∃ g b, o = .guard g e b) ∧
      s'.log = s.log ++ gs ++ [.act a e] ++ gs' ++ (exited l lw).map .exit ++ acts e b.action.toList ++
        (entered l lw).reverse.map .entry ++ rest := by
  have hacts : acts e t.action.toList = [.act a e] := by rw [ha]; rfl
  obtain ⟨o, log3, cs', h1, _, h3⟩ := branch_at_choice wf lim hs he h hr hcs hl hsel ht hk (by rw [hacts]; exact hb) hw
  obtain ⟨l', lt', hl', hlt', hcm⟩ := (continues_state hlw.isState).1 h1
  have := hl'.unique hl
  subst this
  have := hlt'.unique hlw
  subst this
  obtain ⟨gs, rfl, hgs⟩ := selected_guards hsel
  obtain ⟨gs', rfl, hgs'⟩ := branch_guards hb
  have : ∃ q', log3 = s.log ++ gs ++ [.act a e] ++ gs' ++ (exited l' lt').map .exit ++ acts e b.action.toList ++
      (entered l' lt').reverse.map .entry ++ q' := by
    cases hcm with
    | @ok sv _ hde => obtain ⟨q', _, rfl, _⟩ := hde.facts hlw; exact ⟨q' ++ [.stable sv], by simp⟩
    | failed hds => obtain ⟨q', rfl, _⟩ := hds.facts; exact ⟨q', rfl⟩
  obtain ⟨q', rfl⟩ := this
  obtain ⟨q, hq⟩ := then_prefix h3
  exact ⟨gs, gs', q' ++ q, hgs, hgs', by rw [hq]; simp⟩

/-! ### C45, C46: completion events, result code -/

/-- If the compound transition of an event leads to a state for which a completion event is due, the completion event
is dispatched at once, by the same rules as any other event, and its result is the result of the call. Missing from C45:
that a composite state completes only when its final state is reached, which is false of the code
(`Findings.composite_completed_without_final`). -/
theorem completion_is_dispatched_partial (hs : Reached m env s) (he : e ≠ sigCreation) (h : dispatch m env f e s = (s', r))
    (hr : r ≠ .stop .fuel) (hcs : s.state = some cs) {w : Vid} {log1 : List Obs}
    (ht : Turn m env e cs s.log (.ok w) log1) (hc : CompletionDue m w) :
    ∃ s1 f', s1.state = some w ∧ s1.log = log1 ∧ dispatch m env f' sigCompletion s1 = (s', r) := by
  obtain ⟨cs0, l0, hi⟩ := reached_inv wf lim hs
  have := hi.rep.state
  rw [hcs] at this
  simp only [Option.some.injEq] at this
  subst this
  have hd : dispatch m env f e = passes m env f e false := by
    unfold dispatch
    rw [show (e == sigCreation) = false by simpa using he]
  rw [hd] at h
  cases f with
  | zero => simp only [passes, Eng.stop, Prod.mk.injEq] at h; exact absurd h.2.symm hr
  | succ f =>
    have hcomp : wp (compound m env f e false)
        (fun a s1 => a = true ∧ s1.state = some w ∧ s1.log = log1) (fun c _ => c = .fuel) s := by
      refine compound_turn wf lim hi.rep (fun _ => rfl) (fun log' ht' _ => ?_) (fun s1 w' ht' hrep _ => ?_)
        (fun s1 c ht' _ _ => ?_)
      · exact absurd (ht.det ht').1 (by simp)
      · obtain ⟨h1, h2⟩ := ht.det ht'
        simp only [Outcome.ok.injEq] at h1
        subst h1
        exact ⟨isCompletion_iff.2 hc, hrep.state, h2.symm⟩
      · exact absurd (ht.det ht').1 (by simp)
    unfold passes at h
    rcases hx : compound m env f e false s with ⟨s1, a | c⟩
    · obtain ⟨rfl, h1, h2⟩ := wp_ok hcomp hx
      refine ⟨s1, f, h1, h2, ?_⟩
      have : (Eng.bind (compound m env f e false) fun c => match c with
        | false => pure ()
        | true => passes m env f sigCompletion false) s = (s', r) := h
      unfold Eng.bind at this
      rw [hx] at this
      exact this
    · have hf := wp_stopped hcomp hx
      subst hf
      have : (Eng.bind (compound m env f e false) fun c => match c with
        | false => pure ()
        | true => passes m env f sigCompletion false) s = (s', r) := h
      unfold Eng.bind at this
      rw [hx] at this
      simp only [Prod.mk.injEq] at this
      exact absurd this.2.symm hr

/-- Otherwise the call ends with that transition. -/
theorem no_completion_no_more (hs : Reached m env s) (he : e ≠ sigCreation) (h : dispatch m env f e s = (s', r))
    (hr : r ≠ .stop .fuel) (hcs : s.state = some cs) {w : Vid} {log1 : List Obs}
    (ht : Turn m env e cs s.log (.ok w) log1) (hc : ¬ CompletionDue m w) :
    s'.state = some w ∧ s'.log = log1 ∧ r = .ok () := by
  obtain ⟨cs', h1, h2⟩ := dispatch_turn wf lim hs he h hr hcs ht
  rcases h2 with ⟨_, rfl, h3, h4⟩ | ⟨h, _⟩
  · exact ⟨h1, h3, h4⟩
  · exact absurd h hc

/-- If no completion event is involved the result code says whether the event was handled. -/
theorem result_code_partial (hs : Reached m env s) (he : e ≠ sigCreation) (h : dispatch m env f e s = (s', r))
    (hr : r ≠ .stop .fuel) (hcs : s.state = some cs) {o : Outcome} {log1 : List Obs}
    (ht : Turn m env e cs s.log o log1) (hc : ∀ w, o = .ok w → ¬ CompletionDue m w) :
    r = .ok () ↔ ∀ c, o ≠ .failed c := by
  obtain ⟨cs', _, h2⟩ := dispatch_turn wf lim hs he h hr hcs ht
  cases o with
  | internal => simp [h2.2.2]
  | failed c => simp [h2.2.2]
  | ok w =>
    rcases h2 with ⟨_, _, _, h4⟩ | ⟨h, _⟩
    · simp [h4]
    · exact absurd h (hc w rfl)

/-- The result code is wrong whenever a handled event leads to a state for which a completion event is due that no
active state handles: the state has changed but the call reports that no transition was found. -/
theorem handled_event_reported_not_found (hs : Reached m env s) (he : e ≠ sigCreation)
    (h : dispatch m env f e s = (s', r)) (hr : r ≠ .stop .fuel) (hcs : s.state = some cs) {w : Vid}
    {log1 log2 : List Obs} {lw : List Vid} (ht : Turn m env e cs s.log (.ok w) log1) (hc : CompletionDue m w)
    (hlw : Path m w lw) (hn : NoneEnabled m env sigCompletion lw log1 log2) :
    s'.state = some w ∧ s'.log = log2 ∧ r = .stop (.rc .evtNFound) := by
  obtain ⟨cs', h1, h2⟩ := dispatch_turn wf lim hs he h hr hcs ht
  rcases h2 with ⟨h, _⟩ | ⟨_, hd⟩
  · exact absurd hc h
  · have hd' : Dispatches m env sigCompletion w log1 w log2 (.stop (shown m .evtNFound)) := .failed (.none hlw hn)
    obtain ⟨rfl, h3, rfl⟩ := hd'.det hd
    exact ⟨h1, h3.symm, rfl⟩

/-! ### C47: creation -/

/-- Creation executes the initial action, then enters the initial state and its ancestors, outermost first, then the
initial state's default descendants. No history refers to anything. -/
theorem creation_order (h : init m env f (mem0 m) = (s', r)) (hr : r ≠ .stop .fuel) (hl : Path m m.istate l) :
    ∃ o log1 rest, Completes m env sigCreation (fun _ => none) m.istate
        (acts sigCreation m.iaction.toList ++ l.reverse.map .entry) o log1 ∧ s'.log = log1 ++ rest ∧
      match o with
      | .internal => False
      | .failed c => rest = [] ∧ r = .stop (shown m c)
      | .ok w => (¬ CompletionDue m w ∧ rest = [] ∧ s'.state = some w ∧ r = .ok ()) ∨
          (CompletionDue m w ∧ ∃ cs', s'.state = some cs' ∧ Dispatches m env sigCompletion w log1 cs' s'.log r) := by
  obtain ⟨cs', h1, h2⟩ := init_refines wf lim h hr
  have hh : histOf m [] = fun _ => none := by
    funext k
    unfold histOf
    split <;> rfl
  have key : ∀ {o : Outcome} {log1 : List Obs}, Creates m env [] o log1 →
      Completes m env sigCreation (fun _ => none) m.istate
        (acts sigCreation m.iaction.toList ++ l.reverse.map .entry) o log1 := by
    rintro o log1 ⟨l', hl', hc⟩
    have := hl'.unique hl
    subst this
    rw [hh] at hc
    simpa using hc
  cases h2 with
  | ok hc hn => exact ⟨_, _, [], key hc, by simp, .inl ⟨hn, rfl, h1, rfl⟩⟩
  | failed hc => exact ⟨_, _, [], key hc, by simp, rfl, rfl⟩
  | completion hc hn hd =>
    obtain ⟨q, hq⟩ := dispatches_prefix hd
    exact ⟨_, _, q, key hc, hq, .inr ⟨hn, cs', h1, hd⟩⟩

/-! ### C48: limits -/

omit wf lim in
/-- The effects stored while a compound transition is followed never exceed the configured number. Missing from C48: the
nesting limit on creation, which the code does not check (`Findings.creation_overruns`). -/
theorem effects_bounded_partial {hist : Vid → Option Vid} {v ts : Vid} {pend pend' : List Act} {log log' : List Obs}
    (hseg : 0 < m.maxSegs) (h : Follows m env e hist v pend log ts pend' log') (hp : pend.length ≤ m.maxSegs) :
    pend'.length ≤ m.maxSegs := by
  induction h with
  | state => exact hp
  | @cond v w ts tbl t pend pend' log log1 log' _ _ hn _ _ ih =>
    refine ih ?_
    cases t.action <;> simp <;> omega
  | @choice v w ts tbl t pend pend' log log1 log' _ _ _ _ ih =>
    refine ih ?_
    cases t.action <;> simp <;> omega
  | restore _ _ _ ih => exact ih hp
  | @default v w ts d p trn pend pend' log log1 log' _ _ _ _ hn _ ih =>
    refine ih ?_
    cases trn.action <;> simp <;> omega
  | owner _ _ _ _ ih => exact ih hp

omit wf lim in
/-- One effect too many at a conditional is reported with `RKH_EX_TSEG`, before anything but guards is called. -/
theorem too_many_effects_at_conditional {v : Vid} {tbl : List Tr} {t : Tr} {pend : List Act} {log log1 log' : List Obs}
    {o : Outcome} (hv : m.vert v = some (.cond tbl)) (hb : Branch env e tbl log t log1) (hn : m.maxSegs ≤ pend.length) :
    Continues m env e cs v pend log o log' ↔ o = .failed .exTseg ∧ log' = log1 := by
  have hs : Continues m env e cs v pend log (.failed .exTseg) log1 := .stuck (.fullCond hv hb hn)
  exact ⟨fun h => by obtain ⟨rfl, rfl⟩ := hs.det h; exact ⟨rfl, rfl⟩, fun ⟨h1, h2⟩ => by rw [h1, h2]; exact hs⟩

omit wf lim in
@[inherit_doc too_many_effects_at_conditional]
theorem too_many_effects_at_history {v w : Vid} {d : Bool} {p : Option Vid} {trn : Tr} {pend : List Act}
    {log log1 log' : List Obs} {o : Outcome} (hv : m.vert v = some (.hist d p trn)) (hw : histOf m log v = none)
    (ht : trn.target = some w) (hg : GuardTrue env e trn.guard log log1) (hn : m.maxSegs ≤ pend.length) :
    Continues m env e cs v pend log o log' ↔ o = .failed .exTseg ∧ log' = log1 := by
  have hs : Continues m env e cs v pend log (.failed .exTseg) log1 := .stuck (.fullDefault hv hw ht hg hn)
  exact ⟨fun h => by obtain ⟨rfl, rfl⟩ := hs.det h; exact ⟨rfl, rfl⟩, fun ⟨h1, h2⟩ => by rw [h1, h2]; exact hs⟩

/-- Within the limits no dispatch is ever undefined, and the only errors are: no transition, no branch, history guard
false, too many effects. -/
theorem never_undefined (hs : Reached m env s) (he : e ≠ sigCreation) (h : dispatch m env f e s = (s', r))
    (hr : r ≠ .stop .fuel) : r = .ok () ∨ ∃ c, r = .stop (shown m c) ∧
      (c = .evtNFound ∨ c = .cndNFound ∨ c = .grdFalse ∨ c = .exTseg) := by
  obtain ⟨_, _, _, _, hd⟩ := dispatch_refines wf lim hs he h hr
  clear h hr
  exact dispatches_code hd

@[inherit_doc never_undefined]
theorem creation_never_undefined (h : init m env f (mem0 m) = (s', r)) (hr : r ≠ .stop .fuel) :
    r = .ok () ∨ ∃ c, r = .stop (shown m c) ∧
      (c = .evtNFound ∨ c = .cndNFound ∨ c = .grdFalse ∨ c = .exTseg) := by
  obtain ⟨_, _, hd⟩ := init_refines wf lim h hr
  clear h hr
  cases hd with
  | ok => exact .inl rfl
  | failed hc => obtain ⟨_, _, hc⟩ := hc; exact .inr ⟨_, rfl, completes_code hc⟩
  | completion _ _ hd => exact dispatches_code hd

end

/-- A transition to a state that is nested deeper than the configured depth is reported with `RKH_EX_HLEVEL` before any
state is left. This does not need the limits to be respected otherwise. -/
theorem too_deep_target_is_reported {m : Machine} {env : Env} {e : Sig} {f : Nat} {s s' : Mem} {r : Ans Unit} {cs : Vid}
    {l : List Vid} (hseg : 0 < m.maxSegs) (he : e ≠ sigCreation) (h : dispatch m env f e s = (s', r))
    (hr : r ≠ .stop .fuel) (hcs : s.state = some cs) (hl : Path m cs l) {v w : Vid} {t : Tr} {log1 : List Obs}
    {lw : List Vid} (hsel : Selected m env e l s.log v t log1) (ht : t.target = some w) (hlw : Path m w lw)
    (hdeep : m.maxDepth < lw.length) (hne : cs ∉ lw) :
    r = .stop (shown m .exHlevel) ∧ s' = { s with log := log1 } := by
  have hd : dispatch m env f e = passes m env f e false := by
    unfold dispatch
    rw [show (e == sigCreation) = false by simpa using he]
  rw [hd] at h
  cases f with
  | zero => simp only [passes, Eng.stop, Prod.mk.injEq] at h; exact absurd h.2.symm hr
  | succ f =>
    have hcomp : wp (passes m env (f + 1) e false) (fun _ _ => False)
        (fun c s1 => c = .fuel ∨ (c = shown m .exHlevel ∧ s1 = { s with log := log1 })) s := by
      unfold passes
      rw [wp_bind]
      unfold compound
      rw [wp_bind, wp_get, hcs]
      simp only
      rw [wp_bind]
      refine searchUp_wp hl (fun v' t' log' hsel' => ?_) (fun log' hn => ?_) (fun _ => .inl rfl)
      · obtain ⟨rfl, rfl, rfl⟩ := selected_det hsel hsel'
        simp only [ht]
        rw [wp_bind]
        cases f with
        | zero => exact .inl rfl
        | succ f =>
          unfold segLoop
          rw [wp_bind, pushAct_wp, if_pos (by simpa using hseg), wp_bind]
          cases f with
          | zero => exact .inl rfl
          | succ f =>
            have hres : ∀ (s1 : Mem) (al : List Act) (Q : Vid × Vid × List Act → Mem → Prop) (R : Stop → Mem → Prop),
                Q (v, w, al) s1 → wp (resolve m env e false (f + 1) v w al) Q R s1 := by
              intro s1 al Q R hq
              unfold resolve
              rcases hlw.isState.cases with (⟨p, t, hv⟩ | ⟨p, hv⟩) | ⟨p, t, d, i, k, hv⟩ <;> simp only [hv] <;> exact hq
            refine hres _ _ _ _ ?_
            simp only
            rw [wp_bind]
            unfold stage4 exits
            simp only
            rw [wp_bind]
            rcases findLca_path (x := cs) (f := f) (ent := []) hlw (by simp) with h1 | ⟨h1, _⟩ | ⟨a, b, h1, _⟩ | ⟨_, h1⟩
            · rw [h1]; exact .inl rfl
            · simp at h1; omega
            · rw [h1] at hne; simp at hne
            · rw [h1]; exact .inr ⟨rfl, by rw [hcs]⟩
      · exact (selected_none hsel hn).elim
    rcases r with a | c
    · exact (wp_ok hcomp h).elim
    · rcases wp_stopped hcomp h with rfl | ⟨rfl, h2⟩
      · exact absurd rfl hr
      · exact ⟨rfl, h2⟩

/-- A transition to a vertex of unknown type, e.g. to the history of a composite state created without history, is
reported with `RKH_UNKNOWN_STATE` before any action is called or any state is left. -/
theorem unknown_target_is_reported {m : Machine} {env : Env} {e : Sig} {f : Nat} {s s' : Mem} {r : Ans Unit} {cs : Vid}
    {l : List Vid} (hseg : 0 < m.maxSegs) (he : e ≠ sigCreation) (h : dispatch m env f e s = (s', r))
    (hr : r ≠ .stop .fuel) (hcs : s.state = some cs) (hl : Path m cs l) {v w : Vid} {t : Tr} {log1 : List Obs}
    (hsel : Selected m env e l s.log v t log1) (ht : t.target = some w) (hw : m.vert w = some .unknown) :
    r = .stop (shown m .unknState) ∧ s' = { s with log := log1 } := by
  have hd : dispatch m env f e = passes m env f e false := by
    unfold dispatch
    rw [show (e == sigCreation) = false by simpa using he]
  rw [hd] at h
  cases f with
  | zero => simp only [passes, Eng.stop, Prod.mk.injEq] at h; exact absurd h.2.symm hr
  | succ f =>
    have hcomp : wp (passes m env (f + 1) e false) (fun _ _ => False)
        (fun c s1 => c = .fuel ∨ (c = shown m .unknState ∧ s1 = { s with log := log1 })) s := by
      unfold passes
      rw [wp_bind]
      unfold compound
      rw [wp_bind, wp_get, hcs]
      simp only
      rw [wp_bind]
      refine searchUp_wp hl (fun v' t' log' hsel' => ?_) (fun log' hn => ?_) (fun _ => .inl rfl)
      · obtain ⟨rfl, rfl, rfl⟩ := selected_det hsel hsel'
        simp only [ht]
        rw [wp_bind]
        cases f with
        | zero => exact .inl rfl
        | succ f =>
          unfold segLoop
          rw [wp_bind, pushAct_wp, if_pos (by simpa using hseg), wp_bind]
          cases f with
          | zero => exact .inl rfl
          | succ f =>
            unfold resolve
            simp only [hw]
            exact .inr ⟨rfl, by rw [hcs]⟩
      · exact (selected_none hsel hn).elim
    rcases r with a | c
    · exact (wp_ok hcomp h).elim
    · rcases wp_stopped hcomp h with rfl | ⟨rfl, h2⟩
      · exact absurd rfl hr
      · exact ⟨rfl, h2⟩

/-- The same limit is not checked on creation: if the initial state is nested deeper than the configured depth, entries
are written beyond the end of the array of states to enter. -/
theorem too_deep_creation_is_undefined {m : Machine} {env : Env} {f : Nat} {s s' : Mem} {r : Ans Unit} {l : List Vid}
    (hseg : 0 < m.maxSegs) (h : init m env f s = (s', r)) (hr : r ≠ .stop .fuel) (hl : Path m m.istate l)
    (hdeep : m.maxDepth < l.length) : r = .stop .ub := by
  have loop : ∀ (f : Nat) {x : Vid} {l acc : List Vid}, Path m x l → m.maxDepth < acc.length + l.length →
      addTargetLoop m none f (some x) acc = .stop .fuel ∨ addTargetLoop m none f (some x) acc = .stop .ub := by
    intro f
    induction f with
    | zero => intro x l acc _ _; exact .inl rfl
    | succ f ih =>
      intro x l acc hl hlen
      unfold addTargetLoop
      rw [if_neg (by simp)]
      simp only
      by_cases hacc : acc.length < m.maxDepth
      · rw [if_pos hacc]
        obtain ⟨r, rfl⟩ := hl.cons
        rw [hl.parent_head]
        cases r with
        | nil => simp at hlen; omega
        | cons p r =>
          exact ih (hl.suffix (a := [x]) rfl) (by simp at hlen ⊢; omega)
      · rw [if_neg hacc]; exact .inr rfl
  have h : passes m env f sigCreation true s = (s', r) := h
  cases f with
  | zero => simp only [passes, Eng.stop, Prod.mk.injEq] at h; exact absurd h.2.symm hr
  | succ f =>
    have hw : wp (passes m env (f + 1) sigCreation true) (fun _ _ => False) (fun c _ => c = .fuel ∨ c = .ub) s := by
      unfold passes
      rw [wp_bind]
      unfold compound
      simp only
      rw [wp_bind]
      cases f with
      | zero => exact .inl rfl
      | succ f =>
        unfold segLoop
        rw [wp_bind, pushAct_wp, if_pos (by simpa using hseg), wp_bind]
        cases f with
        | zero => exact .inl rfl
        | succ f =>
          have hres : ∀ (al : List Act) (Q : Vid × Vid × List Act → Mem → Prop) (R : Stop → Mem → Prop),
              Q (m.istate, m.istate, al) s → wp (resolve m env sigCreation false (f + 1) m.istate m.istate al) Q R s := by
            intro al Q R hq
            unfold resolve
            rcases hl.isState.cases with (⟨p, t, hv⟩ | ⟨p, hv⟩) | ⟨p, t, d, i, k, hv⟩ <;> simp only [hv] <;> exact hq
          refine hres _ _ _ ?_
          simp only
          rw [wp_bind]
          unfold stage4
          simp only
          have : addTarget m (f + 1) m.istate none = .stop .fuel ∨ addTarget m (f + 1) m.istate none = .stop .ub := by
            unfold addTarget
            rcases hl.isState.cases with (⟨p, t, hv⟩ | ⟨p, hv⟩) | ⟨p, t, d, i, k, hv⟩ <;> simp only [hv] <;>
              exact loop (f + 1) hl (by simpa using hdeep)
          rcases this with h1 | h1 <;> rw [h1]
          · exact .inl rfl
          · exact .inr rfl
    rcases r with a | c
    · exact (wp_ok hw h).elim
    · rcases wp_stopped hw h with rfl | rfl
      · exact absurd rfl hr
      · rfl

end Verif.SM
