import Verif.SM.Total
/-
Rules for the design of a state machine that can be checked on its tables, and what they guarantee: no dispatch fails half-way,
every dispatch returns.
-/
namespace Verif.SM.Spec
open Verif.SM

/-- Nothing is left open: every choice and conditional has an else branch, default transitions of histories are not guarded, and
no path of segments collects more effects than the configuration admits (`len v`: at most so many effects are added on a path from
`v` to the next choice or state). -/
structure Exhaustive (m : Machine) : Prop where
  cond : ∀ v tbl, m.vert v = some (.cond tbl) → ∃ t ∈ branches tbl, t.guard = some .els
  choice : ∀ v tbl, m.vert v = some (.choice tbl) → ∃ t ∈ branches tbl, t.guard = some .els
  hist : ∀ v d p trn w, m.vert v = some (.hist d p trn) → trn.target = some w → trn.guard = none ∨ trn.guard = some .els
  effects : ∃ len : Vid → Nat,
    (∀ v tbl t w, m.vert v = some (.cond tbl) → t ∈ branches tbl → t.target = some w → 1 + len w ≤ len v) ∧
    (∀ v tbl t w, m.vert v = some (.choice tbl) → t ∈ branches tbl → t.target = some w → 1 + len w ≤ m.maxSegs) ∧
    (∀ v d p trn w, m.vert v = some (.hist d p trn) → trn.target = some w → 1 + len w ≤ len v) ∧
    (∀ v tbl t w, m.trtbl v = some tbl → t ∈ rows tbl → t.target = some w → 1 + len w ≤ m.maxSegs) ∧
    (∀ c p tbl d i h, m.vert c = some (.composite p tbl d i h) → 1 + len d ≤ m.maxSegs)

/-- The same for an application whose guards are known: of the guards of a choice, a conditional or the default transition of a
history one is true whenever they are evaluated, because they cover all values that the variables they read can have. -/
structure ExhaustiveFor (m : Machine) (env : Env) : Prop where
  cond : ∀ v tbl e l l', m.vert v = some (.cond tbl) → ¬ GuardsFalse env e ((branches tbl).map Tr.guard) l l'
  choice : ∀ v tbl e l l', m.vert v = some (.choice tbl) → ¬ GuardsFalse env e ((branches tbl).map Tr.guard) l l'
  hist : ∀ v d p trn w e l l', m.vert v = some (.hist d p trn) → trn.target = some w → ¬ GuardsFalse env e [trn.guard] l l'
  effects : ∃ len : Vid → Nat,
    (∀ v tbl t w, m.vert v = some (.cond tbl) → t ∈ branches tbl → t.target = some w → 1 + len w ≤ len v) ∧
    (∀ v tbl t w, m.vert v = some (.choice tbl) → t ∈ branches tbl → t.target = some w → 1 + len w ≤ m.maxSegs) ∧
    (∀ v d p trn w, m.vert v = some (.hist d p trn) → trn.target = some w → 1 + len w ≤ len v) ∧
    (∀ v tbl t w, m.trtbl v = some tbl → t ∈ rows tbl → t.target = some w → 1 + len w ≤ m.maxSegs) ∧
    (∀ c p tbl d i h, m.vert c = some (.composite p tbl d i h) → 1 + len d ≤ m.maxSegs)

/-- A transition to `v` may end in the basic or final state `w`, judging by the tables alone: any branch may be taken, and a
history may refer to any state inside its composite. -/
inductive Lands (m : Machine) : Vid → Vid → Prop where
  | leaf {v : Vid} : IsLeaf m v → Lands m v v
  | composite {v w d : Vid} {p : Option Vid} {tbl : List Tr} {i : Option Act} {h : Option Vid} :
      m.vert v = some (.composite p tbl d i h) → Lands m d w → Lands m v w
  | cond {v w x : Vid} {tbl : List Tr} {t : Tr} : m.vert v = some (.cond tbl) → t ∈ branches tbl → t.target = some x →
      Lands m x w → Lands m v w
  | choice {v w x : Vid} {tbl : List Tr} {t : Tr} : m.vert v = some (.choice tbl) → t ∈ branches tbl → t.target = some x →
      Lands m x w → Lands m v w
  | restore {v w x p : Vid} {d : Bool} {trn : Tr} : m.vert v = some (.hist d (some p) trn) → Below m p x → Lands m x w →
      Lands m v w
  | default {v w x : Vid} {d : Bool} {p : Option Vid} {trn : Tr} : m.vert v = some (.hist d p trn) → trn.target = some x →
      Lands m x w → Lands m v w
  | owner {v w p : Vid} {d : Bool} {trn : Tr} : m.vert v = some (.hist d (some p) trn) → trn.target = none → Lands m p w →
      Lands m v w

/-- Completion transitions do not form a circle: wherever a completion event is due, the completion transitions of the state and
its ancestors lead to states for which none is due, or to states of lower rank. -/
def NoCompletionCircle (m : Machine) : Prop :=
  ∃ rank : Vid → Nat, ∀ v l x t u w, CompletionDue m v → Path m v l → (x, t) ∈ candidates m sigCompletion l →
    t.target = some u → Lands m u w → CompletionDue m w → rank w < rank v

end Verif.SM.Spec

namespace Verif.SM
open Eng Spec

theorem guardsFalse_fn {env : Env} {e : Sig} {gs : List (Option Guard)} {l l' : List Obs} (h : GuardsFalse env e gs l l') :
    ∀ g ∈ gs, ∃ n, g = some (.fn n) := by
  induction h with
  | nil => simp
  | cons _ _ ih =>
    intro g hg
    rcases List.mem_cons.1 hg with rfl | hg
    · exact ⟨_, rfl⟩
    · exact ih g hg

theorem branch_mem {env : Env} {e : Sig} {tbl : List Tr} {t : Tr} {l l' : List Obs} (h : Branch env e tbl l t l') :
    t ∈ branches tbl := by
  obtain ⟨pre, post, _, h1, _⟩ := h
  rw [h1]; simp

theorem toList_le (a : Option Act) : a.toList.length ≤ 1 := by cases a <;> simp

theorem selected_mem {m : Machine} {env : Env} {e : Sig} {l : List Vid} {log log' : List Obs} {v : Vid} {t : Tr}
    (h : Selected m env e l log v t log') : (v, t) ∈ candidates m e l := by
  obtain ⟨pre, post, _, h1, _⟩ := h
  rw [h1]; simp

theorem candidate_row {m : Machine} {e : Sig} {l : List Vid} {v : Vid} {t : Tr} (h : (v, t) ∈ candidates m e l) :
    ∃ tbl, m.trtbl v = some tbl ∧ t ∈ rows tbl := by
  simp only [candidates, List.mem_flatMap, List.mem_map, List.mem_filter, Prod.mk.injEq] at h
  obtain ⟨x, _, y, ⟨hy, _⟩, rfl, rfl⟩ := h
  cases ht : m.trtbl x with
  | none => rw [ht] at hy; simp [rows] at hy
  | some tbl => exact ⟨tbl, rfl, by rw [ht] at hy; exact hy⟩

section
variable {m : Machine} {env : Env} {e : Sig}

/-- Else branches cover everything whatever the guards are. -/
theorem _root_.Verif.SM.Spec.Exhaustive.for (ex : Exhaustive m) (env : Env) : ExhaustiveFor m env where
  cond v tbl e l l' hv hg := by
    obtain ⟨t, ht, hg'⟩ := ex.cond _ _ hv
    obtain ⟨n, hn⟩ := guardsFalse_fn hg _ (List.mem_map.2 ⟨t, ht, hg'⟩)
    cases hn
  choice v tbl e l l' hv hg := by
    obtain ⟨t, ht, hg'⟩ := ex.choice _ _ hv
    obtain ⟨n, hn⟩ := guardsFalse_fn hg _ (List.mem_map.2 ⟨t, ht, hg'⟩)
    cases hn
  hist v d p trn w e l l' hv ht hg := by
    obtain ⟨n, hn⟩ := guardsFalse_fn hg _ (List.mem_singleton.2 rfl)
    rcases ex.hist _ _ _ _ _ hv ht with h | h <;> rw [h] at hn <;> cases hn
  effects := ex.effects

/-- In an exhaustive machine no transition gets stuck. -/
theorem not_stuck (wf : WellFormed m) (ex : ExhaustiveFor m env) {len : Vid → Nat}
    (l1 : ∀ v tbl t w, m.vert v = some (.cond tbl) → t ∈ branches tbl → t.target = some w → 1 + len w ≤ len v)
    (l2 : ∀ v tbl t w, m.vert v = some (.choice tbl) → t ∈ branches tbl → t.target = some w → 1 + len w ≤ m.maxSegs)
    (l3 : ∀ v d p trn w, m.vert v = some (.hist d p trn) → trn.target = some w → 1 + len w ≤ len v)
    {hist : Vid → Option Vid} {v : Vid} {pend : List Act} {log log' : List Obs} {c : RC}
    (h : Stuck m env e hist v pend log c log') : pend.length + len v ≤ m.maxSegs → False := by
  induction h with
  | noCond hv hg => exact fun _ => ex.cond _ _ _ _ _ hv hg
  | noChoice hv hg => exact fun _ => ex.choice _ _ _ _ _ hv hg
  | noDefault hv _ ht hg => exact fun _ => ex.hist _ _ _ _ _ _ _ _ hv ht hg
  | fullCond hv hb hf =>
    intro hl
    obtain ⟨w, hw, _⟩ := wf.cond _ _ _ hv (branch_mem hb)
    have := l1 _ _ _ _ hv (branch_mem hb) hw
    omega
  | fullDefault hv _ ht _ hf =>
    intro hl
    have := l3 _ _ _ _ _ hv ht
    omega
  | @cond _ _ _ t _ _ _ _ _ hv hb _ hw _ ih =>
    intro hl
    have := l1 _ _ _ _ hv (branch_mem hb) hw
    have := toList_le t.action
    exact ih (by rw [List.length_append]; omega)
  | @choice _ _ _ t _ _ _ _ _ hv hb hw _ ih =>
    intro hl
    have := l2 _ _ _ _ hv (branch_mem hb) hw
    have := toList_le t.action
    exact ih (by omega)
  | @default _ _ _ _ trn _ _ _ _ _ hv _ ht _ _ _ ih =>
    intro hl
    have := l3 _ _ _ _ _ hv ht
    have := toList_le trn.action
    exact ih (by rw [List.length_append]; omega)

theorem not_defaultStuck (wf : WellFormed m) (ex : ExhaustiveFor m env) {hist : Vid → Option Vid} {c : Vid} {log log' : List Obs} {r : RC}
    (h : DefaultStuck m env e hist c log r log') : False := by
  obtain ⟨len, l1, l2, l3, l4, l5⟩ := ex.effects
  induction h with
  | @path _ _ _ _ ia _ _ _ _ hv hs =>
    have := l5 _ _ _ _ _ _ hv
    have := toList_le ia
    exact not_stuck wf ex l1 l2 l3 hs (by omega)
  | later _ _ _ _ _ ih => exact ih

/-- The only failure is that no transition is enabled. -/
theorem turn_failed (wf : WellFormed m) (ex : ExhaustiveFor m env) {cs : Vid} {log log' : List Obs} {c : RC}
    (h : Turn m env e cs log (.failed c) log') : c = .evtNFound ∧ Ext log log' := by
  cases h with
  | none _ hn => exact ⟨rfl, hn.ext⟩
  | taken hp hs ht =>
    exfalso
    obtain ⟨len, l1, l2, l3, l4, l5⟩ := ex.effects
    rcases ht with _ | ⟨hw, hc⟩
    cases hc with
    | stuck hst =>
      obtain ⟨tbl, h1, h2⟩ := candidate_row (selected_mem hs)
      have := l4 _ _ _ _ h1 h2 hw
      have := toList_le (Tr.action ‹Tr›)
      exact not_stuck wf ex l1 l2 l3 hst (by omega)
    | moves _ hg =>
      obtain ⟨_, _, _, _, hc⟩ := hg
      cases hc with
      | failed hds => exact not_defaultStuck wf ex hds

theorem creates_failed (wf : WellFormed m) (ex : ExhaustiveFor m env) {log log' : List Obs} {c : RC}
    (h : Creates m env log (.failed c) log') : False := by
  obtain ⟨_, _, hc⟩ := h
  cases hc with
  | failed hds => exact not_defaultStuck wf ex hds

theorem dispatches_result (wf : WellFormed m) (ex : ExhaustiveFor m env) {cs cs' : Vid} {log log' : List Obs} {r : Ans Unit}
    (h : Dispatches m env e cs log cs' log' r) : r = .ok () ∨ r = .stop (.rc .evtNFound) := by
  induction h with
  | internal => exact .inl rfl
  | ok => exact .inl rfl
  | failed ht =>
    obtain ⟨rfl, _⟩ := turn_failed wf ex ht
    exact .inr rfl
  | completion _ _ _ ih => exact ih

theorem dispatches_settled (wf : WellFormed m) (ex : ExhaustiveFor m env) {cs cs' : Vid} {log log' : List Obs} {r : Ans Unit}
    (h : Dispatches m env e cs log cs' log' r) : IsLeaf m cs → ∀ {l : List Vid}, Path m cs l → replay m log [] = some l →
      settled log true = true → settled log' true = true := by
  induction h with
  | internal ht => intro hcs l hl hr hs; rw [(turn_facts wf ht hcs hl hr).settled, hs]
  | ok ht _ =>
    intro hcs l hl hr hs
    obtain ⟨_, _, _, _, h, _⟩ := turn_facts wf ht hcs hl hr
    exact h
  | failed ht => intro hcs l hl hr hs; rw [(turn_failed wf ex ht).2.settled, hs]
  | completion ht _ _ ih =>
    intro hcs l hl hr hs
    obtain ⟨lw, h1, h2, h3, h4, _⟩ := turn_facts wf ht hcs hl hr
    exact ih h2 h1 h3 h4

theorem inits_result (wf : WellFormed m) (ex : ExhaustiveFor m env) {cs' : Vid} {log' : List Obs} {r : Ans Unit}
    (h : Inits m env [] cs' log' r) : (r = .ok () ∨ r = .stop (.rc .evtNFound)) ∧ settled log' true = true := by
  cases h with
  | ok hc _ =>
    obtain ⟨_, _, _, _, h, _⟩ := creates_facts hc
    exact ⟨.inl rfl, h⟩
  | failed hc => exact (creates_failed wf ex hc).elim
  | completion hc _ hd =>
    obtain ⟨lw, h1, h2, h3, h4, _⟩ := creates_facts hc
    exact ⟨dispatches_result wf ex hd, dispatches_settled wf ex hd h2 h1 h3 h4⟩

theorem lands_follows {hist : Vid → Option Vid} (wf : WellFormed m) (hin : Inside m hist) {v ts : Vid} {pend p : List Act}
    {log l : List Obs} (h : Follows m env e hist v pend log ts p l) {w : Vid} : Lands m ts w → Lands m v w := by
  induction h with
  | state => exact id
  | cond hv hb _ hw _ ih => exact fun hl => .cond hv (branch_mem hb) hw (ih hl)
  | choice hv hb hw _ ih => exact fun hl => .choice hv (branch_mem hb) hw (ih hl)
  | restore hv hw _ ih =>
    intro hl
    obtain ⟨c, rfl, _⟩ := wf.hist _ _ _ _ hv
    exact .restore hv (hin _ _ _ _ _ hv hw) (ih hl)
  | default hv _ ht _ _ _ ih => exact fun hl => .default hv ht (ih hl)
  | owner hv _ ht _ ih => exact fun hl => .owner hv ht (ih hl)

theorem lands_defaultEntry {hist : Vid → Option Vid} (wf : WellFormed m) (hin : Inside m hist) {c s : Vid} {log l : List Obs}
    (h : DefaultEntry m env e hist c log s l) : Lands m c s := by
  induction h with
  | leaf hl => exact .leaf hl
  | composite hv hf _ _ _ ih => exact .composite hv (lands_follows wf hin hf ih)

theorem turn_lands (wf : WellFormed m) {cs w : Vid} {log log' : List Obs} (h : Turn m env e cs log (.ok w) log') :
    ∃ l x t u, Path m cs l ∧ (x, t) ∈ candidates m e l ∧ t.target = some u ∧ Lands m u w := by
  cases h with
  | taken hp hs ht =>
    rcases ht with _ | ⟨hw, hc⟩
    cases hc with
    | moves hf hg =>
      obtain ⟨_, _, _, _, hc⟩ := hg
      cases hc with
      | ok hde =>
        exact ⟨_, _, _, _, hp, selected_mem hs, hw, lands_follows wf inside_histOf hf (lands_defaultEntry wf inside_histOf hde)⟩

theorem no_completions_for_ever (wf : WellFormed m) (nc : NoCompletionCircle m) {cs : Vid} {log : List Obs} :
    ¬ CompletionsForEver m env e cs log := by
  rintro ⟨σ, ls, _, h⟩
  obtain ⟨rank, hr⟩ := nc
  have hd : ∀ n, rank (σ (n + 1)) < rank (σ n) := by
    intro n
    obtain ⟨l, x, t, u, h1, h2, h3, h4⟩ := turn_lands wf (h n).2
    exact hr _ _ _ _ _ _ (h n).1 h1 h2 h3 h4 (h (n + 1)).1
  have : ∀ n, rank (σ n) + n ≤ rank (σ 0) := by
    intro n
    induction n with
    | zero => simp
    | succ n ih => have := hd n; omega
  have := this (rank (σ 0) + 1)
  omega

end

/-! ### The theorems -/

section
variable {m : Machine} {env : Env} {e : Sig} {f : Nat} {s s' : Mem} {r : Ans Unit} (wf : WellFormed m) (lim : Limits m)
include wf lim

/-- **C131.** If in every choice and conditional some guard is true whatever values the application's variables can have, a dispatch
that returns reports that the event was processed or that no transition was enabled, and never leaves the machine half-way between
two states. -/
theorem covering_guards_never_fail (ex : ExhaustiveFor m env) (hs : Reached m env s) (he : e ≠ sigCreation)
    (h : dispatch m env f e s = (s', r)) (hr : r ≠ .stop .fuel) :
    (r = .ok () ∨ r = .stop (.rc .evtNFound)) ∧ Reached m env s' := by
  obtain ⟨cs, l, hi⟩ := reached_inv wf lim hs
  obtain ⟨cs', h1, _⟩ := dispatch_inv wf lim hi he h hr
  have h2 := dispatches_result wf ex h1
  refine ⟨h2, .dispatch hs he h ?_ (dispatches_settled wf ex h1 hi.rep.leaf hi.path hi.replay hi.settled)⟩
  rcases h2 with rfl | rfl
  · exact .inl rfl
  · exact .inr ⟨_, rfl⟩

/-- **C131.** The same for the initialisation. -/
theorem covering_guards_start (ex : ExhaustiveFor m env) (h : init m env f (mem0 m) = (s, r)) (hr : r ≠ .stop .fuel) :
    (r = .ok () ∨ r = .stop (.rc .evtNFound)) ∧ Reached m env s := by
  obtain ⟨cs, _, h1⟩ := init_refines wf lim h hr
  obtain ⟨h2, h3⟩ := inits_result wf ex h1
  refine ⟨h2, .init h ?_ h3⟩
  rcases h2 with rfl | rfl
  · exact .inl rfl
  · exact .inr ⟨_, rfl⟩

/-- **C109.** In an exhaustive machine a dispatch that returns reports that the event was processed or that no transition was
enabled, and never leaves the machine half-way between two states. -/
theorem complete_design_never_fails (ex : Exhaustive m) (hs : Reached m env s) (he : e ≠ sigCreation)
    (h : dispatch m env f e s = (s', r)) (hr : r ≠ .stop .fuel) :
    (r = .ok () ∨ r = .stop (.rc .evtNFound)) ∧ Reached m env s' :=
  covering_guards_never_fail wf lim (ex.for env) hs he h hr

/-- **C109.** The same for the initialisation. -/
theorem complete_design_starts (ex : Exhaustive m) (h : init m env f (mem0 m) = (s, r)) (hr : r ≠ .stop .fuel) :
    (r = .ok () ∨ r = .stop (.rc .evtNFound)) ∧ Reached m env s :=
  covering_guards_start wf lim (ex.for env) h hr

/-- **C110.** If segments between pseudostates and completion transitions form no circles every dispatch ends. -/
theorem no_circles_dispatch_ends (ac : Acyclic m) (nc : NoCompletionCircle m) (hs : Reached m env s) (he : e ≠ sigCreation) :
    ∃ n s' r, r ≠ .stop .fuel ∧ ∀ f, n ≤ f → dispatch m env f e s = (s', r) := by
  obtain ⟨cs, l, hi⟩ := reached_inv wf lim hs
  exact (dispatch_returns wf lim ac hs he hi.rep.state).1 (no_completions_for_ever wf nc)

/-- **C110.** And so does the initialisation. -/
theorem no_circles_init_ends (ac : Acyclic m) (nc : NoCompletionCircle m) :
    ∃ n s' r, r ≠ .stop .fuel ∧ ∀ f, n ≤ f → init m env f (mem0 m) = (s', r) := by
  have hi : ∃ cs' l r, Inits m env [] cs' l r := by
    obtain ⟨o, l, hc⟩ := creates_total wf lim ac (env := env) []
    cases o with
    | internal => exact (creates_facts hc).elim
    | failed c => exact ⟨_, _, _, .failed hc⟩
    | ok w =>
      by_cases hd : CompletionDue m w
      · obtain ⟨lw, h1, h2, h3, h4, _⟩ := creates_facts hc
        rcases dispatches_or_forever wf lim ac (env := env) (e := sigCompletion) h2.isState l with ⟨cs', l', r, h⟩ | h
        · exact ⟨_, _, _, .completion hc hd h⟩
        · exact (no_completions_for_ever wf nc h).elim
      · exact ⟨_, _, _, .ok hc hd⟩
  obtain ⟨cs', l, r, hi⟩ := hi
  obtain ⟨n, hn⟩ := init_halts wf lim (s := mem0 m) (histInv_mem0 m) hi
  rcases hp : init m env n (mem0 m) with ⟨s', r'⟩
  have h1 : r' ≠ .stop .fuel := by
    have := hn n (Nat.le_refl _)
    simp only at this
    rw [hp] at this
    exact this
  refine ⟨n, s', r', h1, fun f hf => ?_⟩
  rcases hq : init m env f (mem0 m) with ⟨s2, r2⟩
  have h2 : r2 ≠ .stop .fuel := by
    have := hn f hf
    simp only at this
    rw [hq] at this
    exact this
  obtain ⟨rfl, rfl⟩ := budget_is_irrelevant hp h1 hq h2
  rfl

end

end Verif.SM
