import Verif.SM.Runs
/-
Properties of the state machine engine. The vocabulary (paths, selected transition, reference semantics, reachable
situations) is in `Spec` and at the top of `Runs`. All statements hold for every step budget of the model that is not
exhausted; `Verif.SM.Fuel` shows when it is not.
-/
namespace Verif.SM
open Eng Spec

section
variable {m : Machine} {env : Env} {e : Sig} {f : Nat} {s s' : Mem} {r : Ans Unit} {cs : Vid} {l : List Vid}
variable (wf : WellFormed m) (lim : Limits m)
include wf lim

/-! ### Refinement -/

/-- The engine implements the reference semantics: a dispatch has an outcome of the reference semantics, computed from
the current state and the log only. -/
theorem dispatch_refines (hs : Reached m env s) (he : e ≠ sigCreation) (h : dispatch m env f e s = (s', r))
    (hr : r ≠ .stop .fuel) :
    ∃ cs cs', s.state = some cs ∧ s'.state = some cs' ∧ Dispatches m env e cs s.log cs' s'.log r := by
  obtain ⟨cs, l, hi⟩ := reached_inv wf lim hs
  obtain ⟨cs', h1, h2, _⟩ := dispatch_inv wf lim hi he h hr
  exact ⟨cs, cs', hi.rep.state, h2.state, h1⟩

/-- Creation likewise. -/
theorem init_refines (h : init m env f (mem0 m) = (s', r)) (hr : r ≠ .stop .fuel) :
    ∃ cs', s'.state = some cs' ∧ Inits m env [] cs' s'.log r := by
  obtain ⟨cs', h1, h2, _⟩ := create_refines wf lim (histInv_mem0 m) rfl h hr
  exact ⟨cs', h2, h1⟩

/-- An event whose first compound transition is known: the dispatch consists of it and what must follow. -/
theorem dispatch_turn (hs : Reached m env s) (he : e ≠ sigCreation) (h : dispatch m env f e s = (s', r))
    (hr : r ≠ .stop .fuel) (hcs : s.state = some cs) {o : Outcome} {log1 : List Obs}
    (ht : Turn m env e cs s.log o log1) : ∃ cs', s'.state = some cs' ∧ Then m env cs o log1 cs' s'.log r := by
  obtain ⟨cs0, cs', h1, h2, hd⟩ := dispatch_refines wf lim hs he h hr
  rw [hcs] at h1
  simp only [Option.some.injEq] at h1
  subst h1
  refine ⟨cs', h2, ?_⟩
  cases hd with
  | internal ht' => obtain ⟨rfl, rfl⟩ := ht.det ht'; exact ⟨rfl, rfl, rfl⟩
  | ok ht' hc => obtain ⟨rfl, rfl⟩ := ht.det ht'; exact .inl ⟨hc, rfl, rfl, rfl⟩
  | failed ht' => obtain ⟨rfl, rfl⟩ := ht.det ht'; exact ⟨rfl, rfl, rfl⟩
  | completion ht' hc hd => obtain ⟨rfl, rfl⟩ := ht.det ht'; exact .inr ⟨hc, hd⟩

/-! ### C34: which transition is taken -/

/-- Of the transitions triggered by the event, considered from the innermost active state outwards and in table order,
the first enabled one is taken. Guards of later candidates are not evaluated (`Selected` accounts for every guard call
in the log). -/
theorem first_enabled_is_taken (hs : Reached m env s) (he : e ≠ sigCreation) (h : dispatch m env f e s = (s', r))
    (hr : r ≠ .stop .fuel) (hcs : s.state = some cs) (hl : Path m cs l) {v : Vid} {t : Tr} {log1 : List Obs}
    (hsel : Selected m env e l s.log v t log1) :
    ∃ o log2 cs', Takes m env e cs t log1 o log2 ∧ s'.state = some cs' ∧ Then m env cs o log2 cs' s'.log r := by
  obtain ⟨cs0, cs', h1, h2, hd⟩ := dispatch_refines wf lim hs he h hr
  rw [hcs] at h1
  simp only [Option.some.injEq] at h1
  subst h1
  have key : ∀ {o : Outcome} {log2 : List Obs}, Turn m env e cs s.log o log2 → Takes m env e cs t log1 o log2 := by
    intro o log2 ht
    cases ht with
    | none hp hn =>
      have := hp.unique hl
      subst this
      exact (selected_none hsel hn).elim
    | taken hp hs' ht =>
      have := hp.unique hl
      subst this
      obtain ⟨rfl, rfl, rfl⟩ := selected_det hsel hs'
      exact ht
  cases hd with
  | internal ht => exact ⟨_, _, _, key ht, h2, rfl, rfl, rfl⟩
  | ok ht hc => exact ⟨_, _, _, key ht, h2, .inl ⟨hc, rfl, rfl, rfl⟩⟩
  | failed ht => exact ⟨_, _, _, key ht, h2, rfl, rfl, rfl⟩
  | completion ht hc hd => exact ⟨_, _, _, key ht, h2, .inr ⟨hc, hd⟩⟩

/-- If no candidate is enabled the event is rejected with `RKH_EVT_NFOUND`, nothing but guards has been called, and
neither the current state nor any history changes. -/
theorem none_enabled_is_rejected (hs : Reached m env s) (he : e ≠ sigCreation) (h : dispatch m env f e s = (s', r))
    (hr : r ≠ .stop .fuel) (hcs : s.state = some cs) (hl : Path m cs l) {log1 : List Obs}
    (hn : NoneEnabled m env e l s.log log1) : r = .stop (.rc .evtNFound) ∧ s' = { s with log := log1 } := by
  obtain ⟨cs0, l0, hi⟩ := reached_inv wf lim hs
  obtain ⟨cs', hd, h2, hx, _⟩ := dispatch_inv wf lim hi he h hr
  have := hi.rep.state
  rw [hcs] at this
  simp only [Option.some.injEq] at this
  subst this
  have ht : Turn m env e cs s.log (.failed .evtNFound) log1 := .none hl hn
  have hd' : Dispatches m env e cs s.log cs log1 (.stop (shown m .evtNFound)) := .failed ht
  obtain ⟨rfl, hlog, rfl⟩ := hd'.det hd
  refine ⟨rfl, ?_⟩
  have hh := hx (by rw [← hlog]; exact hn.ext)
  have hst := h2.state
  cases s'
  cases s
  simp_all

omit wf lim in
/-- For every event one of the two cases applies. -/
theorem selected_or_none (log : List Obs) : (∃ v t log1, Selected m env e l log v t log1) ∨
    ∃ log1, NoneEnabled m env e l log log1 := by
  suffices h : ∀ (c : List (Vid × Tr)) (log : List Obs),
      (∃ x log1, First env e (fun x : Vid × Tr => x.2.guard) c log x log1) ∨
      ∃ log1, GuardsFalse env e (c.map fun x => x.2.guard) log log1 by
    rcases h (candidates m e l) log with ⟨⟨v, t⟩, log1, h⟩ | h
    · exact .inl ⟨v, t, log1, h⟩
    · exact .inr h
  intro c
  induction c with
  | nil => intro log; exact .inr ⟨log, .nil⟩
  | cons x c ih =>
    intro log
    rcases hg : x.2.guard with _ | _ | g
    · exact .inl ⟨x, log, First.head (by show GuardTrue env e x.2.guard _ _; rw [hg]; exact .none)⟩
    · exact .inl ⟨x, log, First.head (by show GuardTrue env e x.2.guard _ _; rw [hg]; exact .els)⟩
    · cases hb : env g e log with
      | true => exact .inl ⟨x, _, First.head (by show GuardTrue env e x.2.guard _ _; rw [hg]; exact .fn hb)⟩
      | false =>
        have h1 : GuardsFalse env e ([x].map fun x => x.2.guard) log (log ++ [.guard g e false]) := by
          rw [List.map_cons, List.map_nil, hg]; exact .cons hb .nil
        rcases ih (log ++ [.guard g e false]) with ⟨y, log1, h⟩ | ⟨log1, h⟩
        · exact .inl ⟨y, log1, First.left h1 h⟩
        · exact .inr ⟨log1, by
            rw [List.map_cons]
            exact h1.append h⟩

omit wf lim in
/-- A rejected event only calls guards. -/
theorem none_enabled_calls_guards_only {log log1 : List Obs} (h : NoneEnabled m env e l log log1) :
    ∃ q, log1 = log ++ q ∧ ∀ o ∈ q, ∃ g, o = .guard g e false := by
  unfold NoneEnabled at h
  generalize (candidates m e l).map (fun x => x.2.guard) = gs at h
  induction h with
  | nil => exact ⟨[], by simp, by simp⟩
  | @cons g gs l l' _ _ ih =>
    obtain ⟨q, rfl, hq⟩ := ih
    refine ⟨.guard g e false :: q, by simp, fun o ho => ?_⟩
    rcases List.mem_cons.1 ho with rfl | ho
    · exact ⟨g, rfl⟩
    · exact hq o ho

/-! ### C35: internal transitions -/

/-- An internal transition executes its effect and nothing else; the call succeeds. -/
theorem internal_transition (hs : Reached m env s) (he : e ≠ sigCreation) (h : dispatch m env f e s = (s', r))
    (hr : r ≠ .stop .fuel) (hcs : s.state = some cs) (hl : Path m cs l) {v : Vid} {t : Tr} {log1 : List Obs}
    (hsel : Selected m env e l s.log v t log1) (hint : t.target = none) :
    r = .ok () ∧ s' = { s with log := log1 ++ acts e t.action.toList } := by
  obtain ⟨cs0, l0, hi⟩ := reached_inv wf lim hs
  obtain ⟨cs', hd, h2, hx, _⟩ := dispatch_inv wf lim hi he h hr
  have := hi.rep.state
  rw [hcs] at this
  simp only [Option.some.injEq] at this
  subst this
  have hd' : Dispatches m env e cs s.log cs (log1 ++ acts e t.action.toList) (.ok ()) :=
    .internal (.taken hl hsel (.internal hint))
  obtain ⟨rfl, hlog, rfl⟩ := hd'.det hd
  refine ⟨rfl, ?_⟩
  have hh := hx (by rw [← hlog]; exact (selected_ext hsel).trans (Ext.acts _ _ _))
  have hst := h2.state
  cases s'
  cases s
  simp_all

/-! ### C36, C37: external transitions -/

omit wf lim in
/-- States left: the active states that are neither the target nor one of its ancestors; and the current state itself if
it is the target. -/
theorem mem_exited {ts x : Vid} {lt : List Vid} (hl : Path m cs l) (hlt : Path m ts lt) :
    x ∈ exited l lt ↔ (x ∈ l ∧ x ∉ lt) ∨ (cs = ts ∧ x = cs) := by
  unfold exited
  obtain ⟨r, rfl⟩ := hl.cons
  obtain ⟨r', rfl⟩ := hlt.cons
  split
  · rename_i h
    rw [h]
    simp only [List.cons.injEq] at h
    obtain ⟨rfl, rfl⟩ := h
    simp only [List.take_succ_cons, List.take_zero, List.mem_singleton, true_and]
    exact ⟨.inr, fun h => h.elim (fun h => absurd h.1 h.2) id⟩
  · rename_i h
    have hne : cs ≠ ts := by rintro rfl; exact h (hl.unique hlt)
    simp [hne]

omit wf lim in
/-- States entered: the target and its ancestors that are not active; and the current state itself if it is the target. -/
theorem mem_entered {ts x : Vid} {lt : List Vid} (hl : Path m cs l) (hlt : Path m ts lt) :
    x ∈ entered l lt ↔ (x ∈ lt ∧ x ∉ l) ∨ (cs = ts ∧ x = cs) := by
  unfold entered
  obtain ⟨r, rfl⟩ := hl.cons
  obtain ⟨r', rfl⟩ := hlt.cons
  split
  · rename_i h
    rw [h]
    simp only [List.cons.injEq] at h
    obtain ⟨rfl, rfl⟩ := h
    simp only [List.take_succ_cons, List.take_zero, List.mem_singleton, true_and]
    exact ⟨.inr, fun h => h.elim (fun h => absurd h.1 h.2) id⟩
  · rename_i h
    have hne : cs ≠ ts := by rintro rfl; exact h (hl.unique hlt)
    simp [hne]

omit wf lim in
/-- States are left innermost first and entered outermost first, each once. -/
theorem exited_sublist (l lt : List Vid) : (exited l lt).Sublist l ∧ (entered l lt).Sublist lt := by
  unfold exited entered
  split
  · exact ⟨List.take_sublist _ _, List.take_sublist _ _⟩
  · exact ⟨List.filter_sublist, List.filter_sublist⟩

omit lim in
theorem follows_noChoice {hist : Vid → Option Vid} (hin : Inside m hist) {v ts : Vid} {pend pend' : List Act}
    {log log' : List Obs} (h : Follows m env e hist v pend log ts pend' log')
    (hno : ∀ x tbl, Reach m v x → m.vert x ≠ some (.choice tbl)) :
    ∃ q, log' = log ++ q ∧ ∀ o ∈ q, ∃ g b, o = .guard g e b := by
  have gt : ∀ {g : Option Guard} {a b : List Obs}, GuardTrue env e g a b →
      ∃ q, b = a ++ q ∧ ∀ o ∈ q, ∃ g b, o = Obs.guard g e b := by
    intro g a b h
    cases h with
    | none => exact ⟨[], by simp, by simp⟩
    | els => exact ⟨[], by simp, by simp⟩
    | fn _ => exact ⟨_, rfl, by simp⟩
  have gf : ∀ {g : List (Option Guard)} {a b : List Obs}, GuardsFalse env e g a b →
      ∃ q, b = a ++ q ∧ ∀ o ∈ q, ∃ g b, o = Obs.guard g e b := by
    intro g a b h
    induction h with
    | nil => exact ⟨[], by simp, by simp⟩
    | @cons g gs l l' _ _ ih =>
      obtain ⟨q, rfl, hq⟩ := ih
      refine ⟨.guard g e false :: q, by simp, fun o ho => ?_⟩
      rcases List.mem_cons.1 ho with rfl | ho
      · exact ⟨g, false, rfl⟩
      · exact hq o ho
  have app : ∀ {a b c : List Obs}, (∃ q, b = a ++ q ∧ ∀ o ∈ q, ∃ g b, o = Obs.guard g e b) →
      (∃ q, c = b ++ q ∧ ∀ o ∈ q, ∃ g b, o = Obs.guard g e b) →
      ∃ q, c = a ++ q ∧ ∀ o ∈ q, ∃ g b, o = Obs.guard g e b := by
    rintro a b c ⟨q, rfl, hq⟩ ⟨q', rfl, hq'⟩
    refine ⟨q ++ q', by simp, fun o ho => ?_⟩
    rcases List.mem_append.1 ho with ho | ho
    · exact hq o ho
    · exact hq' o ho
  induction h with
  | state => exact ⟨[], by simp, by simp⟩
  | cond hv hb _ ht _ ih =>
    obtain ⟨pre, post, l1, hbr, h1, h2⟩ := hb
    exact app (app (gf h1) (gt h2))
      (ih fun x tbl hx => hno x tbl (.cond hv (by rw [hbr]; simp) ht hx))
  | choice hv => exact absurd hv (hno _ _ .refl)
  | restore hv hw hf _ =>
    obtain ⟨c, rfl, _⟩ := wf.hist _ _ _ _ hv
    obtain ⟨_, _, rfl⟩ := hf.state_inv (hin _ _ _ _ _ hv hw).isState
    exact ⟨[], by simp, by simp⟩
  | default hv _ ht hg _ _ ih =>
    exact app (gt hg) (ih fun x tbl hx => hno x tbl (.default hv ht hx))
  | owner hv _ _ hf _ =>
    obtain ⟨c, hc, ⟨q, t, d, i, hcv⟩, _⟩ := wf.hist _ _ _ _ hv
    simp only [Option.some.injEq] at hc
    subst hc
    obtain ⟨_, _, rfl⟩ := hf.state_inv (IsComposite.isState ⟨q, t, d, i, _, hcv⟩)
    exact ⟨[], by simp, by simp⟩

/-- An external transition whose path has no choice pseudostate and can be followed to a state `ts`: after the guards,
first all states to be left are left, innermost first, then all effects on the path are executed in path order, then all
states down to `ts` are entered, outermost first. What comes after is the default entry of `ts`. -/
theorem exit_effect_entry_order (hs : Reached m env s) (he : e ≠ sigCreation) (h : dispatch m env f e s = (s', r))
    (hr : r ≠ .stop .fuel) (hcs : s.state = some cs) (hl : Path m cs l) {v w ts : Vid} {t : Tr} {log1 log2 : List Obs}
    {pend : List Act} {lt : List Vid} (hsel : Selected m env e l s.log v t log1) (ht : t.target = some w)
    (hno : ∀ x tbl, Reach m w x → m.vert x ≠ some (.choice tbl))
    (hf : Follows m env e (histOf m log1) w t.action.toList log1 ts pend log2) (hlt : Path m ts lt) :
    ∃ gs rest, (∀ o ∈ gs, ∃ g b, o = .guard g e b) ∧ s'.log = s.log ++ gs ++ (exited l lt).map .exit ++ acts e pend ++
      (entered l lt).reverse.map .entry ++ rest := by
  obtain ⟨gs1, rfl, hg1⟩ : ∃ q, log1 = s.log ++ q ∧ ∀ o ∈ q, ∃ g b, o = Obs.guard g e b := by
    obtain ⟨pre, post, lx, _, h1, h2⟩ := hsel
    have h3 : Ext s.log log1 ∧ ∀ q, log1 = s.log ++ q → ∀ o ∈ q, ∃ g b, o = Obs.guard g e b := by
      refine ⟨h1.ext.trans h2.ext, ?_⟩
      have : ∃ q, log1 = s.log ++ q ∧ ∀ o ∈ q, ∃ g b, o = Obs.guard g e b := by
        have hn := none_enabled_calls_guards_only (m := m) (env := env) (e := e) (l := []) (log := s.log) (log1 := s.log) .nil
        have gf : ∀ {g : List (Option Guard)} {a b : List Obs}, GuardsFalse env e g a b →
            ∃ q, b = a ++ q ∧ ∀ o ∈ q, ∃ g b, o = Obs.guard g e b := by
          intro g a b h
          induction h with
          | nil => exact ⟨[], by simp, by simp⟩
          | @cons g gs l l' _ _ ih =>
            obtain ⟨q, rfl, hq⟩ := ih
            refine ⟨.guard g e false :: q, by simp, fun o ho => ?_⟩
            rcases List.mem_cons.1 ho with rfl | ho
            · exact ⟨g, false, rfl⟩
            · exact hq o ho
        obtain ⟨q, rfl, hq⟩ := gf h1
        generalize t.guard = tg at h2
        cases h2 with
        | none => exact ⟨q, rfl, hq⟩
        | els => exact ⟨q, rfl, hq⟩
        | @fn g _ _ =>
          refine ⟨q ++ [.guard g e true], by simp, fun o ho => ?_⟩
          rcases List.mem_append.1 ho with ho | ho
          · exact hq o ho
          · simp only [List.mem_singleton] at ho; exact ⟨g, true, ho⟩
      obtain ⟨q, hq1, hq2⟩ := this
      intro q' hq'
      rw [hq1, List.append_cancel_left_eq] at hq'
      subst hq'
      exact hq2
    obtain ⟨⟨q, hq, _⟩, h4⟩ := h3
    exact ⟨q, hq, h4 q hq⟩
  obtain ⟨o, log3, cs', htk, _, hth⟩ := first_enabled_is_taken wf lim hs he h hr hcs hl hsel
  have hpre : ∃ q, s'.log = log3 ++ q := by
    cases o with
    | internal => exact ⟨[], by rw [hth.2.1]; simp⟩
    | failed c => exact ⟨[], by rw [hth.2.1]; simp⟩
    | ok w =>
      rcases hth with ⟨_, _, h, _⟩ | ⟨_, h⟩
      · exact ⟨[], by rw [h]; simp⟩
      · exact dispatches_prefix h
  obtain ⟨q, hq⟩ := hpre
  cases htk with
  | internal h0 => rw [ht] at h0; simp at h0
  | external h0 hc =>
    rw [ht] at h0
    simp only [Option.some.injEq] at h0
    subst h0
    cases hc with
    | stuck hst => exact (hf.not_stuck hst).elim
    | moves hf' hg =>
      obtain ⟨rfl, rfl, rfl⟩ := hf.det hf'
      obtain ⟨gs2, rfl, hg2⟩ := follows_noChoice wf inside_histOf hf hno
      obtain ⟨l', lt', hl', hlt', hcm⟩ := hg
      have := hl'.unique hl
      subst this
      have := hlt'.unique hlt
      subst this
      have : ∃ q', log3 = s.log ++ gs1 ++ gs2 ++ (exited l' lt').map .exit ++ acts e pend ++
          (entered l' lt').reverse.map .entry ++ q' := by
        cases hcm with
        | @ok sv _ hde => obtain ⟨q', _, rfl, _⟩ := hde.facts hlt; exact ⟨q' ++ [.stable sv], by simp⟩
        | failed hds => obtain ⟨q', rfl, _⟩ := hds.facts; exact ⟨q', rfl⟩
      obtain ⟨q', hq'⟩ := this
      refine ⟨gs1 ++ gs2, q' ++ q, fun o ho => ?_, by rw [hq, hq']; simp⟩
      rcases List.mem_append.1 ho with ho | ho
      · exact hg1 o ho
      · exact hg2 o ho

/-- In general (paths with choices, histories, errors): an external transition is followed from its target vertex, see
`Continues`. -/
theorem external_transition (hs : Reached m env s) (he : e ≠ sigCreation) (h : dispatch m env f e s = (s', r))
    (hr : r ≠ .stop .fuel) (hcs : s.state = some cs) (hl : Path m cs l) {v w : Vid} {t : Tr} {log1 : List Obs}
    (hsel : Selected m env e l s.log v t log1) (ht : t.target = some w) :
    ∃ o log2 cs', Continues m env e cs w t.action.toList log1 o log2 ∧ s'.state = some cs' ∧
      Then m env cs o log2 cs' s'.log r := by
  obtain ⟨o, log2, cs', htk, h1, h2⟩ := first_enabled_is_taken wf lim hs he h hr hcs hl hsel
  cases htk with
  | internal h0 => rw [ht] at h0; simp at h0
  | external h0 hc =>
    rw [ht] at h0
    simp only [Option.some.injEq] at h0
    subst h0
    exact ⟨o, log2, cs', hc, h1, h2⟩

/-! ### C38, C39: active states -/

/-- In every reachable situation the states entered and not left since creation are exactly the current state and its
ancestors, and no state was ever entered or left out of turn (`replay` is defined). -/
theorem entries_and_exits_balance (hs : Reached m env s) :
    ∃ cs l, s.state = some cs ∧ Path m cs l ∧ replay m s.log [] = some l := by
  obtain ⟨cs, l, hi⟩ := reached_inv wf lim hs
  exact ⟨cs, l, hi.rep.state, hi.path, hi.replay⟩

/-- The current state is a basic or final state, also after a dispatch that failed in any way. -/
theorem current_state_is_leaf (hs : Reached m env s) : ∃ cs, s.state = some cs ∧ IsLeaf m cs := by
  obtain ⟨cs, l, hi⟩ := reached_inv wf lim hs
  exact ⟨cs, hi.rep.state, hi.rep.leaf⟩

@[inherit_doc current_state_is_leaf]
theorem current_state_is_leaf_after (hs : Reached m env s) (he : e ≠ sigCreation)
    (h : dispatch m env f e s = (s', r)) (hr : r ≠ .stop .fuel) : ∃ cs, s'.state = some cs ∧ IsLeaf m cs := by
  obtain ⟨cs, l, hi⟩ := reached_inv wf lim hs
  obtain ⟨cs', _, h2, _⟩ := dispatch_inv wf lim hi he h hr
  exact ⟨cs', h2.state, h2.leaf⟩

/-- A call that succeeds never leaves the machine half-way: the next situation is reachable. -/
theorem success_is_settled (hs : Reached m env s) (he : e ≠ sigCreation) (h : dispatch m env f e s = (s', .ok ())) :
    Reached m env s' := by
  obtain ⟨cs, l, hi⟩ := reached_inv wf lim hs
  obtain ⟨cs', _, _, _, _, ⟨l', hi'⟩ | ⟨_, c, hc⟩⟩ := dispatch_inv wf lim hi he h (by simp)
  · exact .dispatch hs he h (.inl rfl) hi'.settled
  · simp at hc

theorem init_success_is_settled (h : init m env f (mem0 m) = (s, .ok ())) : Reached m env s := by
  rcases init_inv wf lim h (by simp) with ⟨cs, l, hi, _⟩ | ⟨_, c, hc⟩
  · exact .init h (.inl rfl) hi.settled
  · simp at hc

/-- Over the whole life of a state machine object in which every call succeeds every situation is reachable. -/
theorem life_reached {f0 : Nat} {os : List (Op × Nat)} {rs : List (Ans Unit)}
    (h : life m env f0 os = (s', rs)) (hne : ∀ n, (Op.dispatch sigCreation, n) ∉ os) (hok : ∀ r ∈ rs, r = .ok ()) :
    Reached m env s' := by
  have key : ∀ (os : List (Op × Nat)) (s : Mem), Reached m env s → (∀ n, (Op.dispatch sigCreation, n) ∉ os) →
      ∀ {s' : Mem} {rs : List (Ans Unit)}, calls m env os s = (s', rs) → (∀ r ∈ rs, r = .ok ()) → Reached m env s' := by
    intro os
    induction os with
    | nil =>
      intro s hs _ s' rs h _
      simp only [calls, Prod.mk.injEq] at h
      rw [← h.1]
      exact hs
    | cons o os ih =>
      obtain ⟨o, f⟩ := o
      intro s hs hne s' rs h hok
      unfold calls at h
      rcases hop : op m env f o s with ⟨s1, _ | c⟩
      · rw [hop] at h
        simp only [Prod.mk.injEq] at h
        obtain ⟨h1, rfl⟩ := h
        have hs1 : Reached m env s1 := by
          cases o with
          | dispatch e =>
            have he : e ≠ sigCreation := by rintro rfl; exact hne f (by simp)
            exact success_is_settled wf lim hs he hop
          | clearHistory k => exact .clear hs hop
        exact ih s1 hs1 (fun n hn => hne n (by simp [hn])) (Prod.ext h1 rfl) fun r hr => hok r (by simp [hr])
      · rw [hop] at h
        cases c <;> simp only [Prod.mk.injEq] at h <;> obtain ⟨_, rfl⟩ := h <;> simp at hok
  unfold life calls at h
  rcases hop : op m env f0 (.dispatch sigCreation) (mem0 m) with ⟨s1, _ | c⟩
  · rw [hop] at h
    simp only [Prod.mk.injEq] at h
    obtain ⟨h1, rfl⟩ := h
    exact key os s1 (init_success_is_settled wf lim hop) hne (Prod.ext h1 rfl) fun r hr => hok r (by simp [hr])
  · rw [hop] at h
    cases c <;> simp only [Prod.mk.injEq] at h <;> obtain ⟨_, rfl⟩ := h <;> simp at hok

/-- Over such a life the machine is always in a basic or final state, and the states entered and not left are that state
and its ancestors. -/
theorem life_is_balanced {f0 : Nat} {os : List (Op × Nat)} {rs : List (Ans Unit)}
    (h : life m env f0 os = (s', rs)) (hne : ∀ n, (Op.dispatch sigCreation, n) ∉ os) (hok : ∀ r ∈ rs, r = .ok ()) :
    ∃ cs l, s'.state = some cs ∧ IsLeaf m cs ∧ Path m cs l ∧ replay m s'.log [] = some l := by
  obtain ⟨cs, l, hi⟩ := reached_inv wf lim (life_reached wf lim h hne hok)
  exact ⟨cs, l, hi.rep.state, hi.rep.leaf, hi.path, hi.replay⟩

/-! ### C40: rejected events -/

/-- A compound transition that cannot be completed leaves the current state unchanged, whatever the reason. -/
theorem failed_transition_keeps_state (hs : Reached m env s) (he : e ≠ sigCreation)
    (h : dispatch m env f e s = (s', r)) (hr : r ≠ .stop .fuel) (hcs : s.state = some cs) {c : RC} {log1 : List Obs}
    (ht : Turn m env e cs s.log (.failed c) log1) :
    s'.state = s.state ∧ s'.log = log1 ∧ r = .stop (shown m c) := by
  obtain ⟨cs', h1, rfl, h2, h3⟩ := dispatch_turn wf lim hs he h hr hcs ht
  exact ⟨by rw [h1, hcs], h2, h3⟩

/-- The current state is always the last state that was reported as stable, also after a failed dispatch: it changes
only by completing a compound transition. -/
theorem current_state_is_last_stable (hs : Reached m env s) (he : e ≠ sigCreation)
    (h : dispatch m env f e s = (s', r)) (hr : r ≠ .stop .fuel) :
    s.state = lastStable s.log none ∧ s'.state = lastStable s'.log none := by
  obtain ⟨cs, l, hi⟩ := reached_inv wf lim hs
  obtain ⟨cs', _, h2, _, h3, _⟩ := dispatch_inv wf lim hi he h hr
  exact ⟨by rw [hi.last, hi.rep.state], by rw [h3, h2.state]⟩

/-- If the dispatch reports that no transition was found, and no compound transition was completed before, nothing but
guards has been called and nothing has changed. -/
theorem not_found_changes_nothing (hs : Reached m env s) (he : e ≠ sigCreation)
    (h : dispatch m env f e s = (s', .stop (.rc .evtNFound))) {new : List Obs} (hnew : s'.log = s.log ++ new)
    (hst : ∀ v, .stable v ∉ new) :
    s'.state = s.state ∧ s'.hist = s.hist ∧ ∀ o ∈ new, ∃ g, o = .guard g e false := by
  obtain ⟨cs, l, hi⟩ := reached_inv wf lim hs
  rcases selected_or_none (m := m) (env := env) (e := e) (l := l) s.log with ⟨v, t, log1, hsel⟩ | ⟨log1, hn⟩
  · exfalso
    obtain ⟨o, log2, cs', htk, hs', hth⟩ := first_enabled_is_taken wf lim hs he h (by simp) hi.rep.state hi.path hsel
    cases o with
    | internal => exact absurd hth.2.2 (by simp)
    | failed c =>
      have hc : shown m c = .rc .evtNFound := by simpa using hth.2.2.symm
      have hce : c = .evtNFound := by
        cases c <;> simp only [shown] at hc <;> first | rfl | simp at hc | (split at hc <;> simp at hc)
      subst hce
      cases htk with
      | external _ hcn =>
        have nostuck : ∀ {hist : Vid → Option Vid} {v : Vid} {pend : List Act} {c : RC} {a b : List Obs},
            Stuck m env e hist v pend a c b → c ≠ .evtNFound := by
          intro hist v pend c a b h
          induction h <;> simp_all
        cases hcn with
        | stuck hst => exact nostuck hst rfl
        | moves _ hg =>
          obtain ⟨_, _, _, _, hc⟩ := hg
          cases hc with
          | failed hds =>
            have : ∀ {c : RC} {hist : Vid → Option Vid} {v : Vid} {a b : List Obs},
                DefaultStuck m env e hist v a c b → c ≠ .evtNFound := by
              intro c hist v a b h
              induction h with
              | path _ hs => exact nostuck hs
              | later _ _ _ _ _ ih => exact ih
            exact this hds rfl
    | ok w =>
      have hturn : Turn m env e cs s.log (.ok w) log2 := .taken hi.path hsel htk
      have hin : Obs.stable w ∈ s'.log ∧ ∃ q, log2 = s.log ++ q ∧ .stable w ∈ q := by
        have h2 : ∃ q, log2 = s.log ++ q ∧ .stable w ∈ q := by
          cases htk with
          | external _ hcn =>
            cases hcn with
            | moves hf hg =>
              obtain ⟨l', lt, hl', hlt, hc⟩ := hg
              obtain ⟨q1, hq1, _⟩ := (selected_ext hsel).trans hf.ext
              cases hc with
              | ok hde =>
                obtain ⟨q, _, rfl, _⟩ := hde.facts hlt
                exact ⟨_, by rw [hq1]; simp only [List.append_assoc]; rfl, by simp⟩
        obtain ⟨q, hq, hm⟩ := h2
        refine ⟨?_, q, hq, hm⟩
        rcases hth with ⟨_, _, _, h⟩ | ⟨_, h⟩
        · simp at h
        · obtain ⟨q', h⟩ := dispatches_prefix h
          rw [h, hq]
          simp [hm]
      obtain ⟨_, q, hq, hm⟩ := hin
      have hpre : ∃ q', s'.log = log2 ++ q' := by
        rcases hth with ⟨_, _, _, h⟩ | ⟨_, h⟩
        · simp at h
        · exact dispatches_prefix h
      obtain ⟨q', hq'⟩ := hpre
      rw [hq', hq, List.append_assoc, List.append_cancel_left_eq] at hnew
      exact hst w (by rw [← hnew]; simp [hm])
  · obtain ⟨_, rfl⟩ := none_enabled_is_rejected wf lim hs he h (by simp) hi.rep.state hi.path hn
    refine ⟨rfl, rfl, ?_⟩
    obtain ⟨q, hq, hg⟩ := none_enabled_calls_guards_only hn
    simp only at hnew
    rw [hq, List.append_cancel_left_eq] at hnew
    rw [← hnew]
    exact hg

end
end Verif.SM
