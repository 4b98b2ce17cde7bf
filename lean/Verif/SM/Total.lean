import Verif.SM.Fuel
import Verif.SM.Demo
/-
When does the engine return? For machines whose pseudostates are not connected in a circle every compound transition
ends, and a dispatch returns unless completion events keep triggering each other for ever.
-/
namespace Verif.SM.Spec
open Verif.SM

/-- Segments between pseudostates do not form a circle, and a history reached by a default transition has itself a
default transition. -/
structure Acyclic (m : Machine) : Prop where
  segments : ∃ rank : Vid → Nat,
    (∀ v tbl t w, m.vert v = some (.cond tbl) → t ∈ branches tbl → t.target = some w → rank w < rank v) ∧
    (∀ v tbl t w, m.vert v = some (.choice tbl) → t ∈ branches tbl → t.target = some w → rank w < rank v) ∧
    (∀ v d p trn w, m.vert v = some (.hist d p trn) → trn.target = some w → rank w < rank v)
  default : ∀ c p t d i h, m.vert c = some (.composite p t d i h) → ∀ x, Reach m d x →
    ∀ k q trn, m.vert x = some (.hist k q trn) → trn.target ≠ none

/-- Completion events trigger each other for ever: the event leads to a state for which a completion event is due,
which leads to another such state, and so on. -/
def CompletionsForEver (m : Machine) (env : Env) (e : Sig) (cs : Vid) (log : List Obs) : Prop :=
  ∃ (state : Nat → Vid) (logs : Nat → List Obs), Turn m env e cs log (.ok (state 0)) (logs 0) ∧
    ∀ n, CompletionDue m (state n) ∧ Turn m env sigCompletion (state n) (logs n) (.ok (state (n + 1))) (logs (n + 1))

end Verif.SM.Spec

namespace Verif.SM
open Eng Spec

theorem first_or_none {α : Type} (env : Env) (e : Sig) (g : α → Option Guard) : ∀ (c : List α) (log : List Obs),
    (∃ x log1, First env e g c log x log1) ∨ ∃ log1, GuardsFalse env e (c.map g) log log1 := by
  intro c
  induction c with
  | nil => intro log; exact .inr ⟨log, .nil⟩
  | cons x c ih =>
    intro log
    have hg : (∃ l, GuardTrue env e (g x) log l) ∨ ∃ l, GuardsFalse env e [g x] log l := by
      rcases g x with _ | _ | n
      · exact .inl ⟨log, .none⟩
      · exact .inl ⟨log, .els⟩
      · cases h : env n e log with
        | true => exact .inl ⟨_, .fn h⟩
        | false => exact .inr ⟨_, .cons h .nil⟩
    rcases hg with ⟨l, hl⟩ | ⟨l, hl⟩
    · exact .inl ⟨x, l, First.head hl⟩
    · rcases ih l with ⟨y, l1, h⟩ | ⟨l1, h⟩
      · exact .inl ⟨y, l1, First.left (l := [x]) (by simpa using hl) h⟩
      · exact .inr ⟨l1, by simpa using hl.append h⟩

theorem guard_or_not (env : Env) (e : Sig) (g : Option Guard) (log : List Obs) :
    (∃ l, GuardTrue env e g log l) ∨ ∃ l, GuardsFalse env e [g] log l := by
  rcases first_or_none env e id [g] log with ⟨x, l, pre, post, l1, h1, h2, h3⟩ | ⟨l, h⟩
  · cases pre with
    | nil =>
      simp only [List.nil_append, List.cons.injEq] at h1
      cases h2
      exact .inl ⟨l, by rw [h1.1]; exact h3⟩
    | cons y pre => simp at h1
  · exact .inr ⟨l, by simpa using h⟩

theorem branch_of_first {env : Env} {e : Sig} {tbl : List Tr} {log l : List Obs} {t : Tr}
    (h : First env e Tr.guard (branches tbl) log t l) : Branch env e tbl log t l ∧ t ∈ branches tbl := by
  obtain ⟨pre, post, l1, h1, h2, h3⟩ := h
  exact ⟨⟨pre, post, l1, h1, h2, h3⟩, by rw [h1]; simp⟩

/-- Every path of segments ends, in a state or with an error. -/
theorem follows_total {m : Machine} (wf : WellFormed m) (ac : Acyclic m) {env : Env} {e : Sig}
    {hist : Vid → Option Vid} (hin : Inside m hist) {v : Vid} (hv : IsTarget m v) (pend : List Act) (log : List Obs) :
    (∃ ts p l, Follows m env e hist v pend log ts p l) ∨ ∃ c l, Stuck m env e hist v pend log c l := by
  obtain ⟨rank, hc, hch, hh⟩ := ac.segments
  generalize hn : rank v = n
  induction n using Nat.strongRecOn generalizing v pend log with
  | _ n ih =>
    obtain ⟨x, hx, hne⟩ := hv
    cases x with
    | basic p t => exact .inl ⟨_, _, _, .state ⟨p, by simp [Machine.parent, hx]⟩⟩
    | composite p t d i h => exact .inl ⟨_, _, _, .state ⟨p, by simp [Machine.parent, hx]⟩⟩
    | final p => exact .inl ⟨_, _, _, .state ⟨p, by simp [Machine.parent, hx]⟩⟩
    | unknown => exact absurd rfl hne
    | cond tbl =>
      rcases first_or_none env e Tr.guard (branches tbl) log with ⟨t, l, h⟩ | ⟨l, h⟩
      · obtain ⟨hb, hm⟩ := branch_of_first h
        obtain ⟨w, hw, hwt⟩ := wf.cond v tbl t hx hm
        by_cases hfull : pend.length < m.maxSegs
        · rcases ih (rank w) (by rw [← hn]; exact hc v tbl t w hx hm hw) hwt (pend ++ t.action.toList) l rfl with
            ⟨ts, p, l', h'⟩ | ⟨c, l', h'⟩
          · exact .inl ⟨_, _, _, .cond hx hb hfull hw h'⟩
          · exact .inr ⟨_, _, .cond hx hb hfull hw h'⟩
        · exact .inr ⟨_, _, .fullCond hx hb (by omega)⟩
      · exact .inr ⟨_, _, .noCond hx h⟩
    | choice tbl =>
      rcases first_or_none env e Tr.guard (branches tbl) (log ++ acts e pend) with ⟨t, l, h⟩ | ⟨l, h⟩
      · obtain ⟨hb, hm⟩ := branch_of_first h
        obtain ⟨w, hw, hwt⟩ := wf.choice v tbl t hx hm
        rcases ih (rank w) (by rw [← hn]; exact hch v tbl t w hx hm hw) hwt t.action.toList l rfl with
            ⟨ts, p, l', h'⟩ | ⟨c, l', h'⟩
        · exact .inl ⟨_, _, _, .choice hx hb hw h'⟩
        · exact .inr ⟨_, _, .choice hx hb hw h'⟩
      · exact .inr ⟨_, _, .noChoice hx h⟩
    | hist d p trn =>
      obtain ⟨c, rfl, ⟨q, t, dd, i, hc'⟩, htgt⟩ := wf.hist v d p trn hx
      rcases hw : hist v with _ | w
      · rcases ht : trn.target with _ | w
        · exact .inl ⟨_, _, _, .owner hx hw ht (.state ⟨q, by simp [Machine.parent, hc']⟩)⟩
        · rcases guard_or_not env e trn.guard log with ⟨l, hl⟩ | ⟨l, hl⟩
          · by_cases hfull : pend.length < m.maxSegs
            · rcases ih (rank w) (by rw [← hn]; exact hh v d _ trn w hx ht) (htgt w ht) (pend ++ trn.action.toList) l rfl with
                ⟨ts, p, l', h'⟩ | ⟨c, l', h'⟩
              · exact .inl ⟨_, _, _, .default hx hw ht hl hfull h'⟩
              · exact .inr ⟨_, _, .default hx hw ht hl hfull h'⟩
            · exact .inr ⟨_, _, .fullDefault hx hw ht hl (by omega)⟩
          · exact .inr ⟨_, _, .noDefault hx hw ht hl⟩
      · exact .inl ⟨_, _, _, .restore hx hw (.state (hin v d c trn w hx hw).isState)⟩

/-- A default transition leads inside its composite. -/
theorem follows_below {m : Machine} (ac : Acyclic m) {env : Env} {e : Sig} {hist : Vid → Option Vid}
    (hin : Inside m hist) {c d0 : Vid} {p0 : Option Vid} {t0 : List Tr} {i0 : Option Act} {h0 : Option Vid}
    (hc : m.vert c = some (.composite p0 t0 d0 i0 h0)) (wf : WellFormed m) {v ts : Vid} {pend p : List Act}
    {log l : List Obs} (h : Follows m env e hist v pend log ts p l) :
    (IsState m v ∧ Below m c v) ∨ Reach m d0 v → Below m c ts := by
  have reach_trans : ∀ {a b x : Vid}, Reach m a b → Reach m b x → Reach m a x := by
    intro a b x h1 h2
    induction h1 with
    | refl => exact h2
    | cond hv hm ht _ ih => exact .cond hv hm ht (ih h2)
    | choice hv hm ht _ ih => exact .choice hv hm ht (ih h2)
    | default hv ht _ ih => exact .default hv ht (ih h2)
  obtain ⟨_, hgood⟩ := wf.default c p0 t0 d0 i0 h0 hc
  have mem_branch : ∀ {tbl : List Tr} {t : Tr} {l l' : List Obs}, Branch env e tbl l t l' → t ∈ branches tbl := by
    rintro tbl t l l' ⟨pre, post, _, h1, _⟩
    rw [h1]; simp
  induction h with
  | state hs =>
    rintro (h | h)
    · exact h.2
    · exact (hgood _ h).1 hs
  | cond hv hb _ hw _ ih =>
    rintro (⟨⟨p, hp⟩, _⟩ | h)
    · simp [Machine.parent, hv] at hp
    · exact ih (.inr (reach_trans h (.cond hv (mem_branch hb) hw .refl)))
  | choice hv hb hw _ ih =>
    rintro (⟨⟨p, hp⟩, _⟩ | h)
    · simp [Machine.parent, hv] at hp
    · exact ih (.inr (reach_trans h (.choice hv (mem_branch hb) hw .refl)))
  | @restore v w _ k q trn _ _ _ _ hv hw _ ih =>
    rintro (⟨⟨p, hp⟩, _⟩ | h)
    · simp [Machine.parent, hv] at hp
    · have := (hgood _ h).2 _ _ _ hv
      subst this
      have hb := hin _ _ _ _ _ hv hw
      exact ih (.inl ⟨hb.isState, hb⟩)
  | default hv _ ht _ _ _ ih =>
    rintro (⟨⟨p, hp⟩, _⟩ | h)
    · simp [Machine.parent, hv] at hp
    · exact ih (.inr (reach_trans h (.default hv ht .refl)))
  | owner hv _ ht _ ih =>
    rintro (⟨⟨p, hp⟩, _⟩ | h)
    · simp [Machine.parent, hv] at hp
    · exact absurd ht (ac.default c p0 t0 d0 i0 h0 hc _ h _ _ _ hv)

theorem defaultEntry_total {m : Machine} (wf : WellFormed m) (lim : Limits m) (ac : Acyclic m) {env : Env} {e : Sig}
    {hist : Vid → Option Vid} (hin : Inside m hist) {c : Vid} {lc : List Vid} (hc : Path m c lc) (log : List Obs) :
    (∃ v l, DefaultEntry m env e hist c log v l) ∨ ∃ r l, DefaultStuck m env e hist c log r l := by
  generalize hn : m.maxDepth - lc.length = n
  induction n using Nat.strongRecOn generalizing c lc log with
  | _ n ih =>
    rcases hc.isState.cases with hl | ⟨p, t, d, i, h, hv⟩
    · exact .inl ⟨_, _, .leaf hl⟩
    · obtain ⟨hdt, _⟩ := wf.default c p t d i h hv
      rcases follows_total wf ac (env := env) (e := e) hin hdt i.toList log with ⟨ts, pend, l, hf⟩ | ⟨r, l, hs⟩
      · have hb := follows_below ac hin hv wf hf (.inr .refl)
        obtain ⟨lt, hlt⟩ := wf.path ts hb.isState
        obtain ⟨b, hb0, rfl⟩ := hb.path hlt hc
        have hd := lim.depth _ _ hlt
        have : 0 < b.length := List.length_pos_iff.2 hb0
        rw [List.length_append] at hd
        rcases ih _ (by rw [List.length_append]; omega) hlt (l ++ acts e pend ++ b.reverse.map .entry) rfl with
          ⟨v, l', h'⟩ | ⟨r, l', h'⟩
        · exact .inl ⟨_, _, .composite hv hf hc hlt h'⟩
        · exact .inr ⟨_, _, .later hv hf hc hlt h'⟩
      · exact .inr ⟨_, _, .path hv hs⟩

theorem completes_total {m : Machine} (wf : WellFormed m) (lim : Limits m) (ac : Acyclic m) {env : Env} {e : Sig}
    {hist : Vid → Option Vid} (hin : Inside m hist) {c : Vid} {lc : List Vid} (hc : Path m c lc) (log : List Obs) :
    ∃ o l, Completes m env e hist c log o l := by
  rcases defaultEntry_total wf lim ac hin hc log with ⟨v, l, h⟩ | ⟨r, l, h⟩
  · exact ⟨_, _, .ok h⟩
  · exact ⟨_, _, .failed h⟩

theorem follows_state {m : Machine} {env : Env} {e : Sig} {hist : Vid → Option Vid} {v ts : Vid} {pend p : List Act}
    {log l : List Obs} (h : Follows m env e hist v pend log ts p l) : IsState m ts := by
  induction h with
  | state hs => exact hs
  | cond _ _ _ _ _ ih => exact ih
  | choice _ _ _ _ ih => exact ih
  | restore _ _ _ ih => exact ih
  | default _ _ _ _ _ _ ih => exact ih
  | owner _ _ _ _ ih => exact ih

section
variable {m : Machine} {env : Env} {e : Sig} (wf : WellFormed m) (lim : Limits m) (ac : Acyclic m)
include wf lim ac

/-- Every compound transition of an acyclic machine ends. -/
theorem turn_total {cs : Vid} (hcs : IsState m cs) (log : List Obs) : ∃ o l, Turn m env e cs log o l := by
  obtain ⟨l, hl⟩ := wf.path cs hcs
  rcases selected_or_none (m := m) (env := env) (e := e) (l := l) log with ⟨v, t, log1, hsel⟩ | ⟨log1, hn⟩
  · rcases ht : t.target with _ | w
    · exact ⟨_, _, .taken hl hsel (.internal ht)⟩
    · rcases follows_total wf ac (env := env) (e := e) (inside_histOf (log := log1)) (wf.selTarget hsel ht) t.action.toList log1 with
        ⟨ts, pend, l2, hf⟩ | ⟨r, l2, hs⟩
      · have hts := follows_state hf
        obtain ⟨lt, hlt⟩ := wf.path ts hts
        obtain ⟨o, l3, hc⟩ := completes_total wf lim ac (env := env) (e := e) (hist := histOf m (l2 ++ (exited l lt).map .exit))
          inside_histOf hlt (l2 ++ (exited l lt).map .exit ++ acts e pend ++ (entered l lt).reverse.map .entry)
        exact ⟨_, _, .taken hl hsel (.external ht (.moves hf ⟨l, lt, hl, hlt, hc⟩))⟩
      · exact ⟨_, _, .taken hl hsel (.external ht (.stuck hs))⟩
  · exact ⟨_, _, .none hl hn⟩

/-- Creation's compound transition ends too. -/
theorem creates_total (log : List Obs) : ∃ o l, Creates m env log o l := by
  obtain ⟨l, hl⟩ := wf.path m.istate wf.initial
  obtain ⟨o, l', h⟩ := completes_total wf lim ac (env := env) (e := sigCreation) (hist := histOf m log) inside_histOf hl
    (log ++ acts sigCreation m.iaction.toList ++ l.reverse.map .entry)
  exact ⟨o, l', l, hl, h⟩

end

theorem turn_leaf {m : Machine} {env : Env} {e : Sig} {cs w : Vid} {log l : List Obs} (h : Turn m env e cs log (.ok w) l) :
    IsState m w := by
  cases h with
  | taken _ _ ht =>
    cases ht with
    | external _ hc =>
      cases hc with
      | moves _ hg =>
        obtain ⟨_, _, _, hlt, hc⟩ := hg
        cases hc with
        | ok hde =>
          obtain ⟨_, _, _, _, hl, _⟩ := hde.facts hlt
          exact hl.isState

/-- Either the dispatch has an outcome or completion events trigger each other for ever. -/
theorem dispatches_or_forever {m : Machine} (wf : WellFormed m) (lim : Limits m) (ac : Acyclic m) {env : Env} {e : Sig}
    {cs : Vid} (hcs : IsState m cs) (log : List Obs) :
    (∃ cs' l r, Dispatches m env e cs log cs' l r) ∨ CompletionsForEver m env e cs log := by
  rcases Classical.em (∃ cs' l r, Dispatches m env e cs log cs' l r) with h | h
  · exact .inl h
  right
  -- a state without outcome has a successor without outcome
  have next : ∀ (e : Sig) (cs : Vid) (log : List Obs), IsState m cs → (¬ ∃ cs' l r, Dispatches m env e cs log cs' l r) →
      ∃ w l, Turn m env e cs log (.ok w) l ∧ CompletionDue m w ∧ IsState m w ∧
        ¬ ∃ cs' l' r, Dispatches m env sigCompletion w l cs' l' r := by
    intro e cs log hcs hno
    obtain ⟨o, l, ht⟩ := turn_total wf lim ac (env := env) (e := e) hcs log
    cases o with
    | internal => exact absurd ⟨_, _, _, .internal ht⟩ hno
    | failed c => exact absurd ⟨_, _, _, .failed ht⟩ hno
    | ok w =>
      by_cases hc : CompletionDue m w
      · exact ⟨w, l, ht, hc, turn_leaf ht, fun ⟨cs', l', r, h⟩ => hno ⟨cs', l', r, .completion ht hc h⟩⟩
      · exact absurd ⟨_, _, _, .ok ht hc⟩ hno
  let S := { x : Vid × List Obs // CompletionDue m x.1 ∧ IsState m x.1 ∧
    ¬ ∃ cs' l' r, Dispatches m env sigCompletion x.1 x.2 cs' l' r }
  obtain ⟨w, l, ht, hd, hs, hn⟩ := next e cs log hcs h
  have step : ∀ x : S, ∃ y : S, Turn m env sigCompletion x.1.1 x.1.2 (.ok y.1.1) y.1.2 := by
    intro ⟨⟨v, l⟩, h1, h2, h3⟩
    obtain ⟨w, l', ht, hd, hs, hn⟩ := next sigCompletion v l h2 h3
    exact ⟨⟨(w, l'), hd, hs, hn⟩, ht⟩
  let f : Nat → S := fun n => Nat.rec ⟨(w, l), hd, hs, hn⟩ (fun _ x => Classical.choose (step x)) n
  exact ⟨fun n => (f n).1.1, fun n => (f n).1.2, ht, fun n => ⟨(f n).2.1, Classical.choose_spec (step (f n))⟩⟩

theorem forever_no_outcome {m : Machine} {env : Env} {e : Sig} {cs cs' : Vid} {log l : List Obs} {r : Ans Unit}
    (h : Dispatches m env e cs log cs' l r) : ¬ CompletionsForEver m env e cs log := by
  have key : ∀ {e : Sig} {cs cs' : Vid} {log l : List Obs} {r : Ans Unit}, Dispatches m env e cs log cs' l r →
      CompletionsForEver m env e cs log → False := by
    intro e cs cs' log l r h
    induction h with
    | internal ht => rintro ⟨σ, ls, h0, _⟩; obtain ⟨h, _⟩ := ht.det h0; simp at h
    | failed ht => rintro ⟨σ, ls, h0, _⟩; obtain ⟨h, _⟩ := ht.det h0; simp at h
    | ok ht hc =>
      rintro ⟨σ, ls, h0, hs⟩
      obtain ⟨h, _⟩ := ht.det h0
      simp only [Outcome.ok.injEq] at h
      subst h
      exact hc (hs 0).1
    | completion ht hc _ ih =>
      rintro ⟨σ, ls, h0, hs⟩
      obtain ⟨h, rfl⟩ := ht.det h0
      simp only [Outcome.ok.injEq] at h
      subst h
      exact ih ⟨fun n => σ (n + 1), fun n => ls (n + 1), (hs 0).2, fun n => hs (n + 1)⟩
  exact key h

/-! ### Properties -/

section
variable {m : Machine} {env : Env} {e : Sig} {s : Mem} {cs : Vid} (wf : WellFormed m) (lim : Limits m)
include wf lim

/-- Whenever the reference semantics has an outcome the engine reaches exactly this outcome, for every sufficiently
large step budget: refinement in the other direction. -/
theorem outcome_is_reached (hs : Reached m env s) (he : e ≠ sigCreation) (hcs : s.state = some cs) {cs' : Vid}
    {log' : List Obs} {r : Ans Unit} (h : Dispatches m env e cs s.log cs' log' r) :
    ∃ n s', s'.state = some cs' ∧ s'.log = log' ∧ ∀ f, n ≤ f → dispatch m env f e s = (s', r) := by
  obtain ⟨cs0, l, hi⟩ := reached_inv wf lim hs
  have := hi.rep.state
  rw [hcs] at this
  simp only [Option.some.injEq] at this
  subst this
  obtain ⟨n, hn⟩ := passes_halts wf lim h rfl hi.rep
  have hdisp : ∀ f, dispatch m env f e s = passes m env f e false s := by
    intro f
    unfold dispatch
    rw [show (e == sigCreation) = false by simpa using he]
  rcases hp : dispatch m env n e s with ⟨s', r'⟩
  have hne : r' ≠ .stop .fuel := by
    have := hn n (Nat.le_refl _)
    simp only at this
    rw [← hdisp, hp] at this
    exact this
  obtain ⟨cs1, cs2, h1, h2, h3⟩ := dispatch_refines wf lim hs he hp hne
  rw [hcs] at h1
  simp only [Option.some.injEq] at h1
  subst h1
  obtain ⟨rfl, rfl, rfl⟩ := h.det h3
  refine ⟨n, s', h2, rfl, fun f hf => ?_⟩
  rcases hq : dispatch m env f e s with ⟨s2, r2⟩
  have hne2 : r2 ≠ .stop .fuel := by
    have := hn f hf
    simp only at this
    rw [← hdisp, hq] at this
    exact this
  obtain ⟨rfl, rfl⟩ := budget_is_irrelevant hp hne hq hne2
  rfl

/-- The engine runs for ever exactly when the reference semantics has no outcome. -/
theorem runs_forever_iff (hs : Reached m env s) (he : e ≠ sigCreation) (hcs : s.state = some cs) :
    (∀ f, (dispatch m env f e s).2 = .stop .fuel) ↔ ¬ ∃ cs' log' r, Dispatches m env e cs s.log cs' log' r := by
  constructor
  · rintro h ⟨cs', log', r, hd⟩
    obtain ⟨n, s', _, _, hn⟩ := outcome_is_reached wf lim hs he hcs hd
    have h1 := h n
    rcases hx : dispatch m env n e s with ⟨s1, r1⟩
    have h2 := hn n (Nat.le_refl _)
    rw [h2] at h1
    simp only at h1
    subst h1
    -- the reference semantics never reports an exhausted budget
    have : ∀ {e : Sig} {cs cs' : Vid} {log log' : List Obs} {r : Ans Unit}, Dispatches m env e cs log cs' log' r →
        r ≠ .stop .fuel := by
      intro e cs cs' log log' r hd
      induction hd with
      | internal => simp
      | ok => simp
      | failed => intro h; simp only [Ans.stop.injEq] at h; exact shown_ne_fuel _ h
      | completion _ _ _ ih => exact ih
    exact this hd rfl
  · intro h f
    rcases hx : dispatch m env f e s with ⟨s', r⟩
    rcases Classical.em (r = .stop .fuel) with hr | hr
    · exact hr
    · obtain ⟨cs1, cs2, h1, _, h3⟩ := dispatch_refines wf lim hs he hx hr
      rw [hcs] at h1
      simp only [Option.some.injEq] at h1
      subst h1
      exact absurd ⟨_, _, _, h3⟩ h

/-- In an acyclic machine a dispatch returns, unless completion events trigger each other for ever; in that case it
never returns. -/
theorem dispatch_returns (ac : Acyclic m) (hs : Reached m env s) (he : e ≠ sigCreation) (hcs : s.state = some cs) :
    (¬ CompletionsForEver m env e cs s.log →
      ∃ n s' r, r ≠ .stop .fuel ∧ ∀ f, n ≤ f → dispatch m env f e s = (s', r)) ∧
    (CompletionsForEver m env e cs s.log → ∀ f, (dispatch m env f e s).2 = .stop .fuel) := by
  have hst : IsState m cs := by
    obtain ⟨cs0, l, hi⟩ := reached_inv wf lim hs
    have := hi.rep.state
    rw [hcs] at this
    simp only [Option.some.injEq] at this
    subst this
    exact hi.rep.leaf.isState
  constructor
  · intro hno
    rcases dispatches_or_forever wf lim ac (env := env) (e := e) hst s.log with ⟨cs', l, r, h⟩ | h
    · obtain ⟨n, s', h1, h2, h3⟩ := outcome_is_reached wf lim hs he hcs h
      refine ⟨n, s', r, ?_, h3⟩
      intro hr
      subst hr
      exact (runs_forever_iff wf lim hs he hcs).1 (fun f => by
        rcases hx : dispatch m env f e s with ⟨s1, r1⟩
        rcases Classical.em (r1 = .stop .fuel) with hr | hr
        · exact hr
        · have hmax := h3 (n + f) (by omega)
          have := le_of_step (x := fun f => dispatch m env f e) (fun f => passes_le f _ _) (Nat.le_add_left f n) s
            (by rw [hx]; exact hr)
          rw [hmax, hx] at this
          simp only [Prod.mk.injEq] at this
          exact this.2.symm) ⟨_, _, _, h⟩
    · exact absurd h hno
  · intro hf
    refine (runs_forever_iff wf lim hs he hcs).2 ?_
    rintro ⟨cs', l, r, h⟩
    exact forever_no_outcome h hf

end

end Verif.SM

/-! ### Concrete machines -/

namespace Verif.SM
open Eng Spec

/-- `Acyclic` for a machine with vertices `0 … n - 1`, given the ranks. -/
def okAcyclic (m : Machine) (n : Nat) (rank : Vid → Nat) : Bool :=
  (List.range n).all fun v => ((nexts m v).all fun w => rank w < rank v) &&
    match m.vert v with
    | some (.composite _ _ d _ _) => (closure m n [d]).all fun x =>
        (nexts m x).all (fun y => (closure m n [d]).contains y) &&
        match m.vert x with
        | some (.hist _ _ trn) => trn.target.isSome
        | _ => true
    | _ => true

theorem okAcyclic_sound {m : Machine} {n : Nat} {rank : Vid → Nat} (hn : ∀ v, n ≤ v → m.vert v = none)
    (h : okAcyclic m n rank = true) : Acyclic m := by
  unfold okAcyclic at h
  simp only [Bool.and_eq_true, List.all_eq_true, List.mem_range, decide_eq_true_eq] at h
  have lt : ∀ v x, m.vert v = some x → v < n := by
    intro v x hx
    rcases Nat.lt_or_ge v n with h | h
    · exact h
    · rw [hn v h] at hx; simp at hx
  refine ⟨⟨rank, ?_, ?_, ?_⟩, ?_⟩
  · intro v tbl t w hv hm ht
    exact (h v (lt v _ hv)).1 w (by simp only [nexts, hv, List.mem_filterMap]; exact ⟨t, hm, ht⟩)
  · intro v tbl t w hv hm ht
    exact (h v (lt v _ hv)).1 w (by simp only [nexts, hv, List.mem_filterMap]; exact ⟨t, hm, ht⟩)
  · intro v d p trn w hv ht
    exact (h v (lt v _ hv)).1 w (by simp [nexts, hv, ht])
  · intro c p t d i k hc x hr kk q trn hx
    have h2 := (h c (lt c _ hc)).2
    simp only [hc, List.all_eq_true, Bool.and_eq_true] at h2
    have hclosed : ∀ x ∈ closure m n [d], ∀ y ∈ nexts m x, y ∈ closure m n [d] := by
      intro x hx y hy
      have := (h2 x hx).1 y hy
      simpa using this
    have hmem : d ∈ closure m n [d] := by
      have : ∀ (f : Nat) (l : List Vid), d ∈ l → d ∈ closure m f l := by
        intro f
        induction f with
        | zero => intro l h; exact h
        | succ f ih => intro l h; exact ih _ (by simp [h])
      exact this n [d] (by simp)
    have h3 := (h2 x (reach_closed hclosed hr hmem)).2
    rw [hx] at h3
    intro hnone
    simp [hnone] at h3

end Verif.SM

namespace Verif.SM.Demo
open Verif.SM Eng Spec

/-- The demo machine is acyclic. -/
theorem acyclic : Acyclic m :=
  okAcyclic_sound (n := 12) (rank := fun v => if v = 8 ∨ v = 9 ∨ v = 10 then 1 else 0)
    (fun v hv => List.getElem?_eq_none hv) (by decide +kernel)

theorem none2 (log : List Obs) : NoneEnabled m env sigCompletion [2, 0] log (log ++ [.guard 1 sigCompletion false]) := by
  show GuardsFalse env sigCompletion [some (.fn 1)] log _
  exact .cons rfl .nil

theorem dispatches1 : Dispatches m env 1 1 (at' env []).log 2
    (log0 ++ [.exit 1] ++ [.act 30 1] ++ [.entry 2] ++ [.stable 2] ++ [.guard 1 sigCompletion false])
    (.stop (.rc .evtNFound)) :=
  .completion turn1 due2 (.failed (.none path2 (none2 _)))

-- outcome_is_reached
example : ∃ n s', s'.state = some 2 ∧ s'.log = log0 ++ [.exit 1] ++ [.act 30 1] ++ [.entry 2] ++ [.stable 2] ++
      [.guard 1 sigCompletion false] ∧ ∀ f, n ≤ f → dispatch m env f 1 (at' env []) = (s', .stop (.rc .evtNFound)) :=
  outcome_is_reached wf lim start (by decide) inA1 dispatches1

-- dispatch_returns
example : ∃ n s' r, r ≠ .stop .fuel ∧ ∀ f, n ≤ f → dispatch m env f 1 (at' env []) = (s', r) :=
  (dispatch_returns wf lim acyclic start (by decide) inA1).1 (forever_no_outcome dispatches1)

end Verif.SM.Demo

namespace Verif.SM.Findings
open Verif.SM Eng Spec Demo

/-- Two states that complete into each other. Event 2 in state 2 leads to the first. -/
def completionLoop : Machine := ofList [
  .basic none [tr sigCompletion none none (some 1)],
  .basic none [tr sigCompletion none none (some 0)],
  .basic none [tr 2 none none (some 0)]] 2 none 1 1 true

theorem completionLoop_wf : WellFormed completionLoop ∧ Limits completionLoop := ofList_sound (by decide +kernel)

theorem completionLoop_acyclic : Acyclic completionLoop :=
  okAcyclic_sound (n := 3) (rank := fun _ => 0) (fun v hv => List.getElem?_eq_none hv) (by decide +kernel)

/-- The dispatch of event 2 never returns: completion events are generated for ever and no other event of the
application is ever processed. -/
theorem completion_loop_never_returns (env : Env) :
    ∃ s, Reached completionLoop env s ∧ ∀ f, (dispatch completionLoop env f 2 s).2 = .stop .fuel := by
  let s : Mem := (init completionLoop env 10 (mem0 completionLoop)).1
  have h0 : init completionLoop env 10 (mem0 completionLoop) =
      ({ state := some 2, hist := fun _ => none, log := [.entry 2, .stable 2] }, .ok ()) := rfl
  have hr : Reached completionLoop env { state := some 2, hist := fun _ => none, log := [.entry 2, .stable 2] } :=
    .init h0 (.inl rfl) rfl
  refine ⟨_, hr, (dispatch_returns completionLoop_wf.1 completionLoop_wf.2 completionLoop_acyclic hr (by decide)
    (cs := 2) rfl).2 ?_⟩
  have p0 : Path completionLoop 0 [0] := .root rfl
  have p1 : Path completionLoop 1 [1] := .root rfl
  have p2 : Path completionLoop 2 [2] := .root rfl
  have t2 : ∀ log, Turn completionLoop env 2 2 log (.ok 0) (log ++ [.exit 2] ++ [] ++ [.entry 0] ++ [.stable 0]) := fun log =>
    .taken (v := 2) (t := tr 2 none none (some 0)) p2 ⟨[], [], log, by decide +kernel, .nil, .none⟩
      (.external rfl (.moves (.state ⟨none, rfl⟩) ((goes_leaf (.inl ⟨none, _, rfl⟩) p2 p0).2 ⟨rfl, rfl⟩)))
  have t0 : ∀ log, Turn completionLoop env sigCompletion 0 log (.ok 1)
      (log ++ [.exit 0] ++ [] ++ [.entry 1] ++ [.stable 1]) := fun log =>
    .taken (v := 0) (t := tr sigCompletion none none (some 1)) p0 ⟨[], [], log, by decide +kernel, .nil, .none⟩
      (.external rfl (.moves (.state ⟨none, rfl⟩) ((goes_leaf (.inl ⟨none, _, rfl⟩) p0 p1).2 ⟨rfl, rfl⟩)))
  have t1 : ∀ log, Turn completionLoop env sigCompletion 1 log (.ok 0)
      (log ++ [.exit 1] ++ [] ++ [.entry 0] ++ [.stable 0]) := fun log =>
    .taken (v := 1) (t := tr sigCompletion none none (some 0)) p1 ⟨[], [], log, by decide +kernel, .nil, .none⟩
      (.external rfl (.moves (.state ⟨none, rfl⟩) ((goes_leaf (.inl ⟨none, _, rfl⟩) p1 p0).2 ⟨rfl, rfl⟩)))
  have d0 : CompletionDue completionLoop 0 :=
    .inr ⟨none, _, rfl, tr sigCompletion none none (some 1), by decide +kernel, rfl⟩
  have d1 : CompletionDue completionLoop 1 :=
    .inr ⟨none, _, rfl, tr sigCompletion none none (some 0), by decide +kernel, rfl⟩
  let next : Vid × List Obs → Vid × List Obs := fun x =>
    if x.1 = 0 then (1, x.2 ++ [.exit 0] ++ [] ++ [.entry 1] ++ [.stable 1])
    else (0, x.2 ++ [.exit 1] ++ [] ++ [.entry 0] ++ [.stable 0])
  let g : Nat → Vid × List Obs := fun n =>
    Nat.rec (0, [.entry 2, .stable 2] ++ [.exit 2] ++ [] ++ [.entry 0] ++ [.stable 0]) (fun _ x => next x) n
  have inv : ∀ n, (g n).1 = 0 ∨ (g n).1 = 1 := by
    intro n
    induction n with
    | zero => exact .inl rfl
    | succ n ih =>
      show (next (g n)).1 = 0 ∨ (next (g n)).1 = 1
      rcases ih with h | h <;> simp [next, h]
  refine ⟨fun n => (g n).1, fun n => (g n).2, t2 _, fun n => ?_⟩
  show CompletionDue completionLoop (g n).1 ∧
    Turn completionLoop env sigCompletion (g n).1 (g n).2 (.ok (next (g n)).1) (next (g n)).2
  rcases inv n with h | h
  · rw [show next (g n) = (1, (g n).2 ++ [.exit 0] ++ [] ++ [.entry 1] ++ [.stable 1]) by simp [next, h], h]
    exact ⟨d0, t0 _⟩
  · rw [show next (g n) = (0, (g n).2 ++ [.exit 1] ++ [] ++ [.entry 0] ++ [.stable 0]) by simp [next, h], h]
    exact ⟨d1, t1 _⟩

end Verif.SM.Findings
