import Verif.Subm.Props
import Verif.SM.Check
import Verif.SM.PropsRun
/-
The example application demo/80x86/subm does what its chart says, for every sequence of events.
-/
namespace Verif.Subm.Demo
open Spec
open SM (Vid Sig Act Tr Obs Env Ans sigCreation sigCompletion)

/-! ### The chart -/

namespace Chart

/-- Where the chart can rest: in S11, in S12 with SB1 or SB2 inside, in S13, in S2 with SB1 or SB2 inside, in S3. -/
inductive Conf where
  | s11 | s12sb1 | s12sb2 | s13 | s2sb1 | s2sb2 | s3
  deriving DecidableEq, Repr

/-- The innermost state. -/
def leaf : Conf → Vid
  | .s11 => S11 | .s12sb1 => SB1 | .s12sb2 => SB2 | .s13 => S13 | .s2sb1 => SB1 | .s2sb2 => SB2 | .s3 => S3

/-- A transition: what happens, and where it leads. -/
def go (l : List Obs) (c : Conf) : Option (List Obs × Conf) := some (l ++ [.stable (leaf c)], c)

/-- What the chart says about an event. `none`: no transition is enabled. -/
def step (c : Conf) (e : Sig) : Option (List Obs × Conf) :=
  match c, e with
  | .s11, 1 => go [.exit S11, .act 5 1, .entry S12, .entry SB1] .s12sb1
  | .s11, 2 => go [.exit S11, .act 8 2, .entry S12, .entry SB1] .s12sb1
  | .s11, 3 => go [.exit S11, .exit S1, .act 8 3, .entry S2, .entry SB1] .s2sb1
  | .s11, 4 => go [.exit S11, .entry S11] .s11
  | .s12sb1, 3 => go [.exit SB1, .exit S12, .entry S11] .s11
  | .s12sb1, 4 => go [.exit SB1, .entry SB2] .s12sb2
  | .s12sb1, 5 => go [.exit SB1, .exit S12, .act 6 5, .act 1 5, .entry S13] .s13
  | .s12sb2, 3 => go [.exit SB2, .exit S12, .entry S11] .s11
  | .s12sb2, 4 => go [.exit SB2, .entry SB1] .s12sb1
  | .s12sb2, 5 => go [.exit SB2, .exit S12, .exit S1, .act 7 5, .act 2 5, .entry S3] .s3
  | .s13, 1 => go [.exit S13, .entry S11] .s11
  | .s13, 3 => go [.exit S13, .exit S1, .act 8 3, .entry S2, .entry SB1] .s2sb1
  | .s2sb1, 4 => go [.exit SB1, .entry SB2] .s2sb2
  | .s2sb1, 5 => go [.exit SB1, .exit S2, .act 6 5, .act 3 5, .entry S1, .entry S11] .s11
  | .s2sb2, 4 => go [.exit SB2, .entry SB1] .s2sb1
  | .s2sb2, 5 => go [.exit SB2, .exit S2, .act 7 5, .act 4 5, .entry S3] .s3
  | .s3, 1 => go [.exit S3, .entry S1, .entry S11] .s11
  | c, 7 => some ([.act terminate 7], c)
  | _, _ => none

/-- A sequence of events: what happens, the answers, and where it leads. -/
def steps : Conf → List Sig → List Obs × List (Ans Unit) × Conf
  | c, [] => ([], [], c)
  | c, e :: es =>
    match step c e with
    | some (l, c') => let r := steps c' es; (l ++ r.1, .ok () :: r.2.1, r.2.2)
    | none => let r := steps c es; (r.1, .stop (.rc .evtNFound) :: r.2.1, r.2.2)

/-- The initialisation. -/
def first : List Obs := [.act my_init sigCreation, .entry S1, .entry S11, .stable S11]

end Chart
open Chart

/-! ### Proof -/

theorem proper : Proper m 13 home rank := by
  have hlt : ∀ v x, m.vert v = some x → v < 13 := fun v x hv => (List.getElem?_eq_some_iff.mp (show vertices[v]? = some x from hv)).1
  refine ⟨hlt, fun v x hv => ?_, by decide +kernel⟩
  have : ∀ v : Nat, v < 13 → (match m.vert v with | some x => okVertex m home rank v x | none => false) = true := by decide +kernel
  have := this v (hlt v x hv)
  rw [hv] at this
  exact this

/-- The machine with the submachine inserted. -/
def U : SM.Machine := inserted m 13

/-- The copy of the innermost state. -/
def copyOf : Conf → Vid
  | .s11 => S11 | .s12sb1 => occ 13 3 SB1 | .s12sb2 => occ 13 3 SB2 | .s13 => S13 | .s2sb1 => occ 13 5 SB1 | .s2sb2 => occ 13 5 SB2 | .s3 => S3

def all : List Conf := [.s11, .s12sb1, .s12sb2, .s13, .s2sb1, .s2sb2, .s3]
theorem mem_all (c : Conf) : c ∈ all := by cases c <;> decide

/-- A memory in the state. -/
def rep (c : Conf) : SM.Mem := { state := some (copyOf c), hist := fun _ => none, log := [] }

/-- An event, with the inserted machine. -/
def did (c : Conf) (e : Sig) : SM.Mem × Ans Unit := SM.dispatch U env 30 e (rep c)

theorem table : all.all (fun c => (List.range 8).all fun e =>
    match step c e with
    | some (l, c') => (did c e).2 == .ok () && (did c e).1.state == some (copyOf c') && (did c e).1.log.map (seen 13) == l &&
        (stables (did c e).1.log == [copyOf c'] || (stables (did c e).1.log == [] && c' == c))
    | none => (did c e).2 == .stop (.rc .evtNFound) && (did c e).1.state == some (copyOf c) && (did c e).1.log == []) = true := by decide +kernel

theorem no_hist (k : Vid) (d : Bool) (p : Option Vid) (t : Tr) : U.vert k ≠ some (.hist d p t) := by
  unfold U inserted
  simp only
  split
  · unfold copy
    split <;> (try simp) <;> (try split) <;> (try simp [junction]) <;> (try split) <;> (try simp) <;> (try split) <;> simp
  · unfold atBorder
    split <;> (try simp) <;> (try split) <;> simp [junction]

theorem same {s t : SM.Mem} (h : s.state = t.state) : SM.Spec.SameSituation U env s t :=
  ⟨h, fun _ _ _ _ hk => absurd hk (no_hist _ _ _ _), fun _ _ _ => rfl⟩

/-- A signal that no state on the way out knows. -/
theorem searchUp_none {e : Sig} {s : SM.Mem} : ∀ {f : Nat} {v : Vid} {l : List Vid}, SM.pathOf U f v = some l →
    (∀ w ∈ l, match U.trtbl w with | some tbl => ∀ t ∈ tbl, t.event ≠ e | none => False) → SM.searchUp U env e f v s = (s, .ok none) := by
  have hfind : ∀ {tbl : List Tr}, (∀ t ∈ tbl, t.event ≠ e) → SM.findTrn env e tbl s = (s, .ok none) := by
    intro tbl
    induction tbl with
    | nil => intro _; rfl
    | cons t ts ih =>
      intro h
      unfold SM.findTrn
      split
      · rfl
      · rw [if_neg (h t (List.mem_cons_self ..))]
        exact ih fun t ht => h t (List.mem_cons_of_mem _ ht)
  intro f
  induction f with
  | zero => intro v l h; simp [SM.pathOf] at h
  | succ f ih =>
    intro v l h ht
    unfold SM.searchUp
    unfold SM.pathOf at h
    have hv : v ∈ l := by
      split at h
      · cases h
      · cases h; simp
      · simp only [Option.map_eq_some_iff] at h
        obtain ⟨l', _, rfl⟩ := h
        simp
    have h1 := ht v hv
    cases htb : U.trtbl v with
    | none => rw [htb] at h1; exact h1.elim
    | some tbl =>
      rw [htb] at h1
      simp only
      show SM.Eng.bind (SM.findTrn env e tbl) _ s = _
      unfold SM.Eng.bind
      rw [hfind h1]
      simp only
      cases hp : U.parent v with
      | none => rw [hp] at h; cases h
      | some p =>
        cases p with
        | none => rfl
        | some p =>
          rw [hp] at h
          simp only [Option.map_eq_some_iff] at h
          obtain ⟨l', h3, rfl⟩ := h
          exact ih h3 fun w hw => ht w (List.mem_cons_of_mem _ hw)

theorem paths : all.all (fun c => match SM.pathOf U 29 (copyOf c) with
    | some l => l.all fun w => match U.trtbl w with | some tbl => tbl.all fun t => decide (t.event < 8) | none => false
    | none => false) = true := by decide +kernel

theorem unknown {c : Conf} {e : Nat} (he : 8 ≤ e) (hc : e ≠ sigCreation) {s : SM.Mem} (hs : s.state = some (copyOf c)) :
    SM.dispatch U env 30 e s = (s, .stop (.rc .evtNFound)) := by
  have hp := List.all_eq_true.1 paths c (mem_all c)
  cases hl : SM.pathOf U 29 (copyOf c) with
  | none => rw [hl] at hp; cases hp
  | some l =>
    rw [hl] at hp
    have hsu := searchUp_none (e := e) (s := s) hl (by
      intro w hw
      have := List.all_eq_true.1 hp w hw
      cases htb : U.trtbl w with
      | none => rw [htb] at this; cases this
      | some tbl =>
        rw [htb] at this
        intro t ht
        have := List.all_eq_true.1 this t ht
        simp only [decide_eq_true_eq] at this
        intro h
        rw [h] at this
        exact absurd he (Nat.not_le.2 this))
    have hcr : (e == sigCreation) = false := by simpa using hc
    have hcomp : SM.compound U env 29 e false s = (s, .stop (.rc .evtNFound)) := by
      unfold SM.compound
      simp only
      show (SM.Eng.bind SM.Eng.get _ s) = _
      unfold SM.Eng.bind SM.Eng.get
      simp only [hs]
      show (SM.Eng.bind (SM.searchUp U env e 29 (copyOf c)) _ s) = _
      unfold SM.Eng.bind
      rw [hsu]
      rfl
    unfold SM.dispatch
    rw [hcr]
    show (SM.Eng.bind (SM.compound U env 29 e false) _ s) = _
    unfold SM.Eng.bind
    rw [hcomp]

theorem step_unknown {c : Conf} {e : Nat} (he : 8 ≤ e) : step c e = none := by
  obtain ⟨n, rfl⟩ : ∃ n, e = n + 8 := ⟨e - 8, by omega⟩
  cases c <;> rfl

/-- What the inserted machine does with an event. -/
theorem one {c : Conf} {s : SM.Mem} (hs : s.state = some (copyOf c)) {e : Sig} (hc : e ≠ sigCreation) {f : Nat} (hf : 30 ≤ f) :
    match step c e with
    | some (l, c') => ∃ s' d, SM.dispatch U env f e s = (s', .ok ()) ∧ s'.state = some (copyOf c') ∧ s'.log = s.log ++ d ∧ d.map (seen 13) = l ∧
        (stables d = [copyOf c'] ∨ (stables d = [] ∧ c' = c))
    | none => ∃ s', SM.dispatch U env f e s = (s', .stop (.rc .evtNFound)) ∧ s'.state = some (copyOf c) ∧ s'.log = s.log := by
  have h30 : match step c e with
    | some (l, c') => ∃ s' d, SM.dispatch U env 30 e s = (s', .ok ()) ∧ s'.state = some (copyOf c') ∧ s'.log = s.log ++ d ∧ d.map (seen 13) = l ∧
        (stables d = [copyOf c'] ∨ (stables d = [] ∧ c' = c))
    | none => ∃ s', SM.dispatch U env 30 e s = (s', .stop (.rc .evtNFound)) ∧ s'.state = some (copyOf c) ∧ s'.log = s.log := by
    rcases Nat.lt_or_ge e 8 with he | he
    · have h1 := List.all_eq_true.1 (List.all_eq_true.1 table c (mem_all c)) e (List.mem_range.2 he)
      obtain ⟨g1, g2, d, g3, g4⟩ := SM.Unif.op (m := U) (env := env) 30 (.dispatch e) s (rep c) (same hs)
      simp only [SM.op] at g1 g2 g3 g4
      change (did c e).1.log = [] ++ d at g4
      rw [List.nil_append] at g4
      have g2' : (SM.dispatch U env 30 e s).1.state = (did c e).1.state := g2.state
      have g1' : (SM.dispatch U env 30 e s).2 = (did c e).2 := g1
      cases hst : step c e with
      | some q =>
        obtain ⟨l, c'⟩ := q
        rw [hst] at h1
        simp only [Bool.and_eq_true, Bool.or_eq_true, beq_iff_eq, g4] at h1
        obtain ⟨⟨⟨a1, a2⟩, a3⟩, a4⟩ := h1
        exact ⟨_, d, Prod.ext rfl (g1'.trans a1), g2'.trans a2, g3, a3, a4⟩
      | none =>
        rw [hst] at h1
        simp only [Bool.and_eq_true, beq_iff_eq, g4] at h1
        obtain ⟨⟨a1, a2⟩, a3⟩ := h1
        exact ⟨_, Prod.ext rfl (g1'.trans a1), g2'.trans a2, by rw [g3, a3, List.append_nil]⟩
    · rw [step_unknown he]
      exact ⟨s, unknown he hc hs, hs, rfl⟩
  cases h1 : SM.dispatch U env 30 e s with
  | mk s1 r1 =>
    cases h2 : SM.dispatch U env f e s with
    | mk s2 r2 =>
      rw [h1] at h30
      have hne : r1 ≠ .stop .fuel := by
        cases hst : step c e with
        | some q =>
          rw [hst] at h30
          obtain ⟨s', d, h, _⟩ := h30
          cases h
          simp
        | none =>
          rw [hst] at h30
          obtain ⟨s', h, _⟩ := h30
          cases h
          simp
      obtain ⟨rfl, rfl⟩ := SM.budget_monotone hf h1 hne h2
      exact h30

/-- Inside which submachine state. -/
def inS12 : Conf → Bool
  | .s12sb1 => true | .s12sb2 => true | _ => false
@[inherit_doc inS12] def inS2 : Conf → Bool
  | .s2sb1 => true | .s2sb2 => true | _ => false

theorem within {c : Conf} {s : Vid} (h : Within 13 (copyOf c) s) : (inS12 c = true ∧ s = S12) ∨ (inS2 c = true ∧ s = S2) := by
  cases h with
  | here h => cases c <;> first | cases h; exact .inl ⟨rfl, rfl⟩ | cases h; exact .inr ⟨rfl, rfl⟩ | cases h
  | out h h2 =>
    exfalso
    have : ctx 13 S12 = 0 ∧ ctx 13 S2 = 0 := by decide
    cases c <;> cases h <;> (cases h2 with
      | here h => cases h
      | out h => cases h)

theorem compatible {c c' : Conf} (h : ¬ (inS12 c = true ∧ inS2 c' = true)) (h' : ¬ (inS2 c = true ∧ inS12 c' = true)) : Compatible m 13 (copyOf c) (copyOf c') := by
  intro s s' M hs hs' _ _
  rcases within hs with ⟨h1, rfl⟩ | ⟨h1, rfl⟩ <;> rcases within hs' with ⟨h2, rfl⟩ | ⟨h2, rfl⟩
  · rfl
  · exact absurd ⟨h1, h2⟩ h
  · exact absurd ⟨h1, h2⟩ h'
  · rfl

/-- The chart never leads from S12 straight to S2 or back. -/
theorem step_compatible {c c' : Conf} {e : Sig} {l : List Obs} (h : step c e = some (l, c')) : Compatible m 13 (copyOf c) (copyOf c') := by
  rcases Nat.lt_or_ge e 8 with he | he
  · have : all.all (fun c => (List.range 8).all fun e => match step c e with
      | some (_, c') => !(inS12 c && inS2 c') && !(inS2 c && inS12 c')
      | none => true) = true := by decide +kernel
    have := List.all_eq_true.1 (List.all_eq_true.1 this c (mem_all c)) e (List.mem_range.2 he)
    rw [h] at this
    simp only [Bool.and_eq_true, Bool.not_eq_true', Bool.and_eq_false_imp] at this
    refine compatible (fun hh => ?_) (fun hh => ?_)
    · rw [this.1 hh.1] at hh; exact absurd hh.2 (by simp)
    · rw [this.2 hh.1] at hh; exact absurd hh.2 (by simp)
  · rw [step_unknown he] at h; cases h

theorem snoc {l : List Vid} {a b : Vid} (h : OneAtATime m 13 (l ++ [a])) (hab : Compatible m 13 a b) : OneAtATime m 13 (l ++ [a] ++ [b]) := by
  intro l1 x y l2 e
  rcases List.eq_nil_or_concat l2 with rfl | ⟨l3, z, rfl⟩
  · have e' : l ++ [a] ++ [b] = (l1 ++ [x]) ++ [y] := by rw [e]; simp
    have h1 := (List.append_inj' e' rfl)
    have h2 := (List.append_inj' h1.1 rfl)
    cases h1.2
    cases h2.2
    exact hab
  · have e' : l ++ [a] ++ [b] = (l1 ++ x :: y :: l3) ++ [z] := by rw [e]; simp
    have h1 := (List.append_inj' e' rfl)
    exact h l1 x y l3 h1.1

theorem from_here : ∀ {es : List (Sig × Nat)} {c : Conf} {s : SM.Mem} {l : List Vid}, s.state = some (copyOf c) → stables s.log = l ++ [copyOf c] →
    OneAtATime m 13 (stables s.log) → (∀ x ∈ es, x.1 ≠ sigCreation ∧ 30 ≤ x.2) →
    (SM.calls U env (events es) s).2 = (steps c (es.map Prod.fst)).2.1 ∧
    (SM.calls U env (events es) s).1.state = some (copyOf (steps c (es.map Prod.fst)).2.2) ∧
    (SM.calls U env (events es) s).1.log.map (seen 13) = s.log.map (seen 13) ++ (steps c (es.map Prod.fst)).1 ∧
    OneAtATime m 13 (stables (SM.calls U env (events es) s).1.log) ∧ (∀ a ∈ (SM.calls U env (events es) s).2, Returned a) := by
  intro es
  induction es with
  | nil => intro c s l h1 h2 h3 _; exact ⟨rfl, h1, by simp [steps, SM.calls], h3, by simp [SM.calls]⟩
  | cons x es ih =>
    intro c s l h1 h2 h3 hx
    obtain ⟨e, f⟩ := x
    obtain ⟨he, hf⟩ := hx _ (List.mem_cons_self ..)
    have hx' : ∀ x ∈ es, x.1 ≠ sigCreation ∧ 30 ≤ x.2 := fun x h => hx x (List.mem_cons_of_mem _ h)
    have h := one h1 he hf
    simp only [events, List.map_cons, steps]
    unfold SM.calls
    simp only [SM.op]
    cases hst : step c e with
    | some q =>
      obtain ⟨o, c'⟩ := q
      rw [hst] at h
      obtain ⟨s', d, k1, k2, k3, k4, k5⟩ := h
      rw [k1]
      simp only
      have hs' : (∃ l', stables s'.log = l' ++ [copyOf c']) ∧ OneAtATime m 13 (stables s'.log) := by
        rw [k3, stables_append, h2]
        rcases k5 with k | ⟨k, rfl⟩
        · rw [k]
          exact ⟨⟨_, rfl⟩, snoc (h2 ▸ h3) (step_compatible hst)⟩
        · rw [k, List.append_nil]
          exact ⟨⟨_, rfl⟩, h2 ▸ h3⟩
      obtain ⟨⟨l', hl'⟩, ho'⟩ := hs'
      obtain ⟨i1, i2, i3, i4, i5⟩ := ih k2 hl' ho' hx'
      refine ⟨by rw [i1], i2, ?_, i4, ?_⟩
      · rw [i3, k3, List.map_append, k4, List.append_assoc]
      · intro a ha
        rcases List.mem_cons.mp ha with rfl | ha
        · exact .inl rfl
        · exact i5 a ha
    | none =>
      rw [hst] at h
      obtain ⟨s', k1, k2, k3⟩ := h
      rw [k1]
      simp only
      obtain ⟨i1, i2, i3, i4, i5⟩ := ih k2 (k3 ▸ h2) (k3 ▸ h3) hx'
      refine ⟨by rw [i1], i2, by rw [i3, k3], i4, ?_⟩
      intro a ha
      rcases List.mem_cons.mp ha with rfl | ha
      · exact .inr ⟨_, rfl⟩
      · exact i5 a ha

/-- What the initialisation does. -/
def did0 : SM.Mem × Ans Unit := SM.dispatch U env 30 sigCreation (SM.mem0 U)

theorem did0_is : did0.2 = .ok () ∧ did0.1.state = some (copyOf .s11) ∧ did0.1.log.map (seen 13) = Chart.first ∧ stables did0.1.log = [copyOf .s11] := by decide +kernel

/-- **C153.** For every sequence of events, of whatever signals, the example's state machine executes, leaves and enters exactly what the
chart says, in that order, answers each event as the chart does and ends in the state that the chart prescribes. -/
theorem subm_follows_its_chart {f : Nat} (hf : 30 ≤ f) {es : List (Sig × Nat)} (h : ∀ x ∈ es, x.1 ≠ sigCreation ∧ 30 ≤ x.2) :
    (run m env ((sigCreation, f) :: es)).1.log = Chart.first ++ (steps .s11 (es.map Prod.fst)).1 ∧
    (run m env ((sigCreation, f) :: es)).2 = .ok () :: (steps .s11 (es.map Prod.fst)).2.1 ∧
    (run m env ((sigCreation, f) :: es)).1.state = some (leaf (steps .s11 (es.map Prod.fst)).2.2) := by
  obtain ⟨d1, d2, d3, d4⟩ := did0_is
  cases h1 : did0 with
  | mk s1 r1 =>
    rw [h1] at d1 d2 d3 d4
    simp only at d1 d2 d3 d4
    subst d1
    cases h2 : SM.dispatch U env f sigCreation (SM.mem0 U) with
    | mk s2 r2 =>
      obtain ⟨rfl, rfl⟩ := SM.budget_monotone hf h1 (by simp) h2
      obtain ⟨i1, i2, i3, i4, i5⟩ := from_here (l := []) d2 d4 (by rw [d4]; intro l1 a b l2 e; have := congrArg List.length e; simp at this; omega) h
      have hr : runOf U env ((sigCreation, f) :: es) = ((SM.calls U env (events es) s1).1, .ok () :: (SM.calls U env (events es) s1).2) := by
        unfold runOf
        simp only [events, List.map_cons]
        rw [SM.calls]
        simp only [SM.op]
        rw [h2]
      have hret : ∀ a ∈ (runOf U env ((sigCreation, f) :: es)).2, Returned a := by
        rw [hr]
        intro a ha
        rcases List.mem_cons.mp ha with rfl | ha
        · exact .inl rfl
        · exact i5 a ha
      obtain ⟨a1, a2, a3⟩ := submachine_is_insertion_partial proper rfl env ((sigCreation, f) :: es) hret (by
        show OneAtATime m 13 (stables (runOf U env ((sigCreation, f) :: es)).1.log)
        rw [hr]
        exact i4)
      change _ = (runOf U env _).1.log.map _ at a2
      change _ = (runOf U env _).2 at a1
      change _ = (runOf U env _).1.state.map _ at a3
      rw [hr] at a1 a2 a3
      refine ⟨by rw [a2, i3, d3], by rw [a1, i1], ?_⟩
      rw [a3, i2]
      have : all.all (fun c => vtx 13 (copyOf c) == leaf c) = true := by decide +kernel
      have := List.all_eq_true.1 this _ (mem_all (steps .s11 (es.map Prod.fst)).2.2)
      simp only [beq_iff_eq] at this
      simp [this]

/-- The submachine is entered twice, through S12 and through S2, and left through the exit point of the right one. -/
def twice : Mem × List (Ans Unit) := run m env [(sigCreation, 30), (2, 30), (5, 30), (3, 30), (9, 30), (5, 30)]

example : twice.1.log = Chart.first ++ [.exit S11, .act 8 2, .entry S12, .entry SB1, .stable SB1,
      .exit SB1, .exit S12, .act 6 5, .act 1 5, .entry S13, .stable S13,
      .exit S13, .exit S1, .act 8 3, .entry S2, .entry SB1, .stable SB1,
      .exit SB1, .exit S2, .act 6 5, .act 3 5, .entry S1, .entry S11, .stable S11] ∧
    twice.2 = [.ok (), .ok (), .ok (), .ok (), .stop (.rc .evtNFound), .ok ()] ∧ ∀ x ∈ [((2 : Sig), 30), (5, 30), (3, 30), (9, 30), (5, 30)], x.1 ≠ sigCreation ∧ 30 ≤ x.2 := by
  decide +kernel

end Verif.Subm.Demo
