import Verif.SM.Refine
/-
The reference semantics is deterministic: an event has at most one outcome.
-/
namespace Verif.SM
open Spec

theorem guard_contra {env : Env} {e : Sig} {g : Option Guard} {gs : List (Option Guard)} {l l1 l2 : List Obs}
    (h1 : GuardTrue env e g l l1) (h2 : GuardsFalse env e (g :: gs) l l2) : False := by
  cases h2 with
  | cons hf _ =>
    cases h1 with
    | fn ht => rw [ht] at hf; simp at hf

theorem Spec.GuardTrue.det {env : Env} {e : Sig} {g : Option Guard} {l l1 l2 : List Obs}
    (h1 : GuardTrue env e g l l1) (h2 : GuardTrue env e g l l2) : l1 = l2 := by
  cases h1 <;> cases h2 <;> rfl

theorem Spec.GuardsFalse.det {env : Env} {e : Sig} {g : List (Option Guard)} {l l1 l2 : List Obs}
    (h1 : GuardsFalse env e g l l1) (h2 : GuardsFalse env e g l l2) : l1 = l2 := by
  induction h1 with
  | nil => cases h2; rfl
  | cons _ _ ih => cases h2 with | cons _ h => exact ih h

theorem First.det {α : Type} {env : Env} {e : Sig} {g : α → Option Guard} : ∀ {l : List α} {log l1 l2 : List Obs}
    {x y : α}, First env e g l log x l1 → First env e g l log y l2 → x = y ∧ l1 = l2 := by
  intro l
  induction l with
  | nil => rintro log l1 l2 x y ⟨pre, post, _, h, _⟩ _; simp at h
  | cons a l ih =>
    rintro log l1 l2 x y ⟨p1, q1, m1, e1, f1, t1⟩ ⟨p2, q2, m2, e2, f2, t2⟩
    cases p1 with
    | nil =>
      cases p2 with
      | nil =>
        simp only [List.nil_append, List.cons.injEq] at e1 e2
        obtain ⟨rfl, _⟩ := e1
        obtain ⟨rfl, _⟩ := e2
        cases f1
        cases f2
        exact ⟨rfl, t1.det t2⟩
      | cons b p2 =>
        simp only [List.nil_append, List.cons_append, List.cons.injEq] at e1 e2
        obtain ⟨rfl, _⟩ := e1
        obtain ⟨rfl, _⟩ := e2
        cases f1
        rw [List.map_cons] at f2
        exact (guard_contra t1 f2).elim
    | cons b p1 =>
      cases p2 with
      | nil =>
        simp only [List.nil_append, List.cons_append, List.cons.injEq] at e1 e2
        obtain ⟨rfl, _⟩ := e1
        obtain ⟨rfl, _⟩ := e2
        cases f2
        rw [List.map_cons] at f1
        exact (guard_contra t2 f1).elim
      | cons c p2 =>
        simp only [List.cons_append, List.cons.injEq] at e1 e2
        obtain ⟨rfl, e1⟩ := e1
        obtain ⟨rfl, e2⟩ := e2
        rw [List.map_cons] at f1 f2
        generalize hga : g a = ga at f1 f2
        cases f1 with
        | cons h1 f1 =>
          cases f2 with
          | cons h2 f2 => exact ih ⟨p1, q1, m1, e1, f1, t1⟩ ⟨p2, q2, m2, e2, f2, t2⟩

theorem First.none {α : Type} {env : Env} {e : Sig} {g : α → Option Guard} : ∀ {l : List α} {log l1 l2 : List Obs}
    {x : α}, First env e g l log x l1 → ¬ GuardsFalse env e (l.map g) log l2 := by
  rintro l log l1 l2 x ⟨p1, q1, m1, rfl, f1, t1⟩ h
  induction p1 generalizing log with
  | nil => cases f1; exact guard_contra t1 (by simpa using h)
  | cons a p ih =>
    rw [List.map_cons] at f1
    simp only [List.cons_append, List.map_cons] at h
    generalize hga : g a = ga at f1 h
    cases f1 with
    | cons h1 f1 => cases h with | cons h2 h => exact ih f1 h

section
variable {m : Machine} {env : Env} {e : Sig} {log l1 l2 : List Obs}

theorem selected_det {l : List Vid} {v w : Vid} {t u : Tr} (h1 : Selected m env e l log v t l1)
    (h2 : Selected m env e l log w u l2) : v = w ∧ t = u ∧ l1 = l2 := by
  have := First.det (g := fun x : Vid × Tr => x.2.guard) h1 h2
  simp only [Prod.mk.injEq] at this
  exact ⟨this.1.1, this.1.2, this.2⟩

theorem selected_none {l : List Vid} {v : Vid} {t : Tr} (h1 : Selected m env e l log v t l1) :
    ¬ NoneEnabled m env e l log l2 := First.none (g := fun x : Vid × Tr => x.2.guard) h1

theorem branch_det {tbl : List Tr} {t u : Tr} (h1 : Branch env e tbl log t l1) (h2 : Branch env e tbl log u l2) :
    t = u ∧ l1 = l2 := First.det (g := Tr.guard) h1 h2

theorem branch_none {tbl : List Tr} {t : Tr} (h1 : Branch env e tbl log t l1) :
    ¬ GuardsFalse env e ((branches tbl).map Tr.guard) log l2 := First.none (g := Tr.guard) h1

theorem Spec.Follows.state_inv {hist : Vid → Option Vid} {v ts : Vid} {pend p1 : List Act}
    (h : Follows m env e hist v pend log ts p1 l1) (hs : IsState m v) : ts = v ∧ p1 = pend ∧ l1 = log := by
  rcases hs.cases with (⟨_, _, hv⟩ | ⟨_, hv⟩) | ⟨_, _, _, _, _, hv⟩ <;>
    cases h <;> simp_all

theorem Spec.Stuck.state_inv {hist : Vid → Option Vid} {v : Vid} {pend : List Act} {c : RC}
    (h : Stuck m env e hist v pend log c l1) (hs : IsState m v) : False := by
  rcases hs.cases with (⟨_, _, hv⟩ | ⟨_, hv⟩) | ⟨_, _, _, _, _, hv⟩ <;> cases h <;> simp_all

theorem not_state {v : Vid} {x : Vertex} (hv : m.vert v = some x) (h1 : ∀ p t, x ≠ .basic p t)
    (h2 : ∀ p t d i h, x ≠ .composite p t d i h) (h3 : ∀ p, x ≠ .final p) : ¬ IsState m v := by
  rintro ⟨p, hp⟩
  unfold Machine.parent at hp
  rw [hv] at hp
  cases x with
  | basic p t => exact h1 p t rfl
  | composite p t d i h => exact h2 p t d i h rfl
  | final p => exact h3 p rfl
  | _ => simp at hp

theorem Spec.Follows.det {hist : Vid → Option Vid} {v t1 t2 : Vid} {pend p1 p2 : List Act}
    (h1 : Follows m env e hist v pend log t1 p1 l1) (h2 : Follows m env e hist v pend log t2 p2 l2) :
    t1 = t2 ∧ p1 = p2 ∧ l1 = l2 := by
  induction h1 with
  | state hs =>
    obtain ⟨rfl, rfl, rfl⟩ := h2.state_inv hs
    exact ⟨rfl, rfl, rfl⟩
  | cond hv hb hlen ht _ ih =>
    cases h2 with
    | state hs => exact absurd hs (not_state hv (by simp) (by simp) (by simp))
    | cond hv' hb' _ ht' hf' =>
      rw [hv] at hv'
      simp only [Option.some.injEq, Vertex.cond.injEq] at hv'
      subst hv'
      obtain ⟨rfl, rfl⟩ := branch_det hb hb'
      rw [ht] at ht'
      simp only [Option.some.injEq] at ht'
      subst ht'
      exact ih hf'
    | choice hv' => rw [hv] at hv'; simp at hv'
    | restore hv' => rw [hv] at hv'; simp at hv'
    | default hv' => rw [hv] at hv'; simp at hv'
    | owner hv' => rw [hv] at hv'; simp at hv'
  | choice hv hb ht _ ih =>
    cases h2 with
    | state hs => exact absurd hs (not_state hv (by simp) (by simp) (by simp))
    | choice hv' hb' ht' hf' =>
      rw [hv] at hv'
      simp only [Option.some.injEq, Vertex.choice.injEq] at hv'
      subst hv'
      obtain ⟨rfl, rfl⟩ := branch_det hb hb'
      rw [ht] at ht'
      simp only [Option.some.injEq] at ht'
      subst ht'
      exact ih hf'
    | cond hv' => rw [hv] at hv'; simp at hv'
    | restore hv' => rw [hv] at hv'; simp at hv'
    | default hv' => rw [hv] at hv'; simp at hv'
    | owner hv' => rw [hv] at hv'; simp at hv'
  | restore hv hw _ ih =>
    cases h2 with
    | state hs => exact absurd hs (not_state hv (by simp) (by simp) (by simp))
    | restore hv' hw' hf' =>
      rw [hw] at hw'
      simp only [Option.some.injEq] at hw'
      subst hw'
      exact ih hf'
    | choice hv' => rw [hv] at hv'; simp at hv'
    | cond hv' => rw [hv] at hv'; simp at hv'
    | default _ hn => rw [hw] at hn; simp at hn
    | owner _ hn => rw [hw] at hn; simp at hn
  | default hv hn ht hg hlen _ ih =>
    cases h2 with
    | state hs => exact absurd hs (not_state hv (by simp) (by simp) (by simp))
    | default hv' _ ht' hg' _ hf' =>
      rw [hv] at hv'
      simp only [Option.some.injEq, Vertex.hist.injEq] at hv'
      obtain ⟨rfl, rfl, rfl⟩ := hv'
      rw [ht] at ht'
      simp only [Option.some.injEq] at ht'
      subst ht'
      have := hg.det hg'
      subst this
      exact ih hf'
    | choice hv' => rw [hv] at hv'; simp at hv'
    | cond hv' => rw [hv] at hv'; simp at hv'
    | restore _ hw => rw [hw] at hn; simp at hn
    | owner hv' _ ht' =>
      rw [hv] at hv'
      simp only [Option.some.injEq, Vertex.hist.injEq] at hv'
      obtain ⟨rfl, rfl, rfl⟩ := hv'
      rw [ht] at ht'; simp at ht'
  | owner hv hn ht _ ih =>
    cases h2 with
    | state hs => exact absurd hs (not_state hv (by simp) (by simp) (by simp))
    | owner hv' _ _ hf' =>
      rw [hv] at hv'
      simp only [Option.some.injEq, Vertex.hist.injEq] at hv'
      obtain ⟨rfl, rfl, rfl⟩ := hv'
      exact ih hf'
    | choice hv' => rw [hv] at hv'; simp at hv'
    | cond hv' => rw [hv] at hv'; simp at hv'
    | restore _ hw => rw [hw] at hn; simp at hn
    | default hv' _ ht' =>
      rw [hv] at hv'
      simp only [Option.some.injEq, Vertex.hist.injEq] at hv'
      obtain ⟨rfl, rfl, rfl⟩ := hv'
      rw [ht] at ht'; simp at ht'

/-- A path that leads to a state is not stuck. -/
theorem Spec.Follows.not_stuck {hist : Vid → Option Vid} {v t1 : Vid} {pend p1 : List Act} {c : RC}
    (h1 : Follows m env e hist v pend log t1 p1 l1) (h2 : Stuck m env e hist v pend log c l2) : False := by
  induction h1 with
  | state hs => exact (h2.state_inv hs).elim
  | cond hv hb hlen ht _ ih =>
    cases h2 with
    | noCond hv' hg =>
      rw [hv] at hv'
      simp only [Option.some.injEq, Vertex.cond.injEq] at hv'
      subst hv'
      exact (branch_none hb hg).elim
    | fullCond _ _ hfull => omega
    | fullDefault hv' => rw [hv] at hv'; simp at hv'
    | cond hv' hb' _ ht' hf' =>
      rw [hv] at hv'
      simp only [Option.some.injEq, Vertex.cond.injEq] at hv'
      subst hv'
      obtain ⟨rfl, rfl⟩ := branch_det hb hb'
      rw [ht] at ht'
      simp only [Option.some.injEq] at ht'
      subst ht'
      exact ih hf'
    | noChoice hv' => rw [hv] at hv'; simp at hv'
    | noDefault hv' => rw [hv] at hv'; simp at hv'
    | choice hv' => rw [hv] at hv'; simp at hv'
    | default hv' => rw [hv] at hv'; simp at hv'
  | choice hv hb ht _ ih =>
    cases h2 with
    | noChoice hv' hg =>
      rw [hv] at hv'
      simp only [Option.some.injEq, Vertex.choice.injEq] at hv'
      subst hv'
      exact (branch_none hb hg).elim
    | fullCond hv' => rw [hv] at hv'; simp at hv'
    | fullDefault hv' => rw [hv] at hv'; simp at hv'
    | choice hv' hb' ht' hf' =>
      rw [hv] at hv'
      simp only [Option.some.injEq, Vertex.choice.injEq] at hv'
      subst hv'
      obtain ⟨rfl, rfl⟩ := branch_det hb hb'
      rw [ht] at ht'
      simp only [Option.some.injEq] at ht'
      subst ht'
      exact ih hf'
    | noCond hv' => rw [hv] at hv'; simp at hv'
    | noDefault hv' => rw [hv] at hv'; simp at hv'
    | cond hv' => rw [hv] at hv'; simp at hv'
    | default hv' => rw [hv] at hv'; simp at hv'
  | restore hv hw _ ih =>
    cases h2 with
    | noDefault _ hn => rw [hw] at hn; simp at hn
    | fullCond hv' => rw [hv] at hv'; simp at hv'
    | fullDefault _ hn => rw [hw] at hn; simp at hn
    | default _ hn => rw [hw] at hn; simp at hn
    | noCond hv' => rw [hv] at hv'; simp at hv'
    | noChoice hv' => rw [hv] at hv'; simp at hv'
    | cond hv' => rw [hv] at hv'; simp at hv'
    | choice hv' => rw [hv] at hv'; simp at hv'
  | default hv hn ht hg hlen _ ih =>
    cases h2 with
    | noDefault hv' _ _ hg' =>
      rw [hv] at hv'
      simp only [Option.some.injEq, Vertex.hist.injEq] at hv'
      obtain ⟨rfl, rfl, rfl⟩ := hv'
      exact (guard_contra hg hg').elim
    | fullCond hv' => rw [hv] at hv'; simp at hv'
    | fullDefault _ _ _ _ hfull => omega
    | default hv' _ ht' hg' _ hf' =>
      rw [hv] at hv'
      simp only [Option.some.injEq, Vertex.hist.injEq] at hv'
      obtain ⟨rfl, rfl, rfl⟩ := hv'
      rw [ht] at ht'
      simp only [Option.some.injEq] at ht'
      subst ht'
      have := hg.det hg'
      subst this
      exact ih hf'
    | noCond hv' => rw [hv] at hv'; simp at hv'
    | noChoice hv' => rw [hv] at hv'; simp at hv'
    | cond hv' => rw [hv] at hv'; simp at hv'
    | choice hv' => rw [hv] at hv'; simp at hv'
  | owner hv hn ht _ ih =>
    cases h2 with
    | noDefault hv' _ ht' =>
      rw [hv] at hv'
      simp only [Option.some.injEq, Vertex.hist.injEq] at hv'
      obtain ⟨rfl, rfl, rfl⟩ := hv'
      rw [ht] at ht'; simp at ht'
    | fullCond hv' => rw [hv] at hv'; simp at hv'
    | fullDefault hv' _ ht' =>
      rw [hv] at hv'
      simp only [Option.some.injEq, Vertex.hist.injEq] at hv'
      obtain ⟨rfl, rfl, rfl⟩ := hv'
      rw [ht] at ht'; simp at ht'
    | default hv' _ ht' =>
      rw [hv] at hv'
      simp only [Option.some.injEq, Vertex.hist.injEq] at hv'
      obtain ⟨rfl, rfl, rfl⟩ := hv'
      rw [ht] at ht'; simp at ht'
    | noCond hv' => rw [hv] at hv'; simp at hv'
    | noChoice hv' => rw [hv] at hv'; simp at hv'
    | cond hv' => rw [hv] at hv'; simp at hv'
    | choice hv' => rw [hv] at hv'; simp at hv'

theorem Spec.Stuck.det {hist : Vid → Option Vid} {v : Vid} {pend : List Act} {c1 c2 : RC}
    (h1 : Stuck m env e hist v pend log c1 l1) (h2 : Stuck m env e hist v pend log c2 l2) : c1 = c2 ∧ l1 = l2 := by
  induction h1 with
  | noCond hv hg =>
    cases h2 with
    | noCond hv' hg' =>
      rw [hv] at hv'
      simp only [Option.some.injEq, Vertex.cond.injEq] at hv'
      subst hv'
      exact ⟨rfl, hg.det hg'⟩
    | fullCond hv' hb' hfull' =>
      rw [hv] at hv'
      simp only [Option.some.injEq, Vertex.cond.injEq] at hv'
      subst hv'
      exact (branch_none hb' hg).elim
    | cond hv' hb' hlen' ht' hs' =>
      rw [hv] at hv'
      simp only [Option.some.injEq, Vertex.cond.injEq] at hv'
      subst hv'
      exact (branch_none hb' hg).elim
    | noChoice hv' => rw [hv] at hv'; simp at hv'
    | choice hv' => rw [hv] at hv'; simp at hv'
    | noDefault hv' => rw [hv] at hv'; simp at hv'
    | fullDefault hv' => rw [hv] at hv'; simp at hv'
    | default hv' => rw [hv] at hv'; simp at hv'
  | fullCond hv hb hfull =>
    cases h2 with
    | noCond hv' hg' =>
      rw [hv] at hv'
      simp only [Option.some.injEq, Vertex.cond.injEq] at hv'
      subst hv'
      exact (branch_none hb hg').elim
    | fullCond hv' hb' hfull' =>
      rw [hv] at hv'
      simp only [Option.some.injEq, Vertex.cond.injEq] at hv'
      subst hv'
      exact ⟨rfl, (branch_det hb hb').2⟩
    | cond hv' hb' hlen' ht' hs' =>
      rw [hv] at hv'
      simp only [Option.some.injEq, Vertex.cond.injEq] at hv'
      subst hv'
      omega
    | noChoice hv' => rw [hv] at hv'; simp at hv'
    | choice hv' => rw [hv] at hv'; simp at hv'
    | noDefault hv' => rw [hv] at hv'; simp at hv'
    | fullDefault hv' => rw [hv] at hv'; simp at hv'
    | default hv' => rw [hv] at hv'; simp at hv'
  | cond hv hb hlen ht _ ih =>
    cases h2 with
    | noCond hv' hg' =>
      rw [hv] at hv'
      simp only [Option.some.injEq, Vertex.cond.injEq] at hv'
      subst hv'
      exact (branch_none hb hg').elim
    | fullCond hv' hb' hfull' =>
      rw [hv] at hv'
      simp only [Option.some.injEq, Vertex.cond.injEq] at hv'
      subst hv'
      omega
    | cond hv' hb' hlen' ht' hs' =>
      rw [hv] at hv'
      simp only [Option.some.injEq, Vertex.cond.injEq] at hv'
      subst hv'
      obtain ⟨rfl, rfl⟩ := branch_det hb hb'
      rw [ht] at ht'
      simp only [Option.some.injEq] at ht'
      subst ht'
      exact ih hs'
    | noChoice hv' => rw [hv] at hv'; simp at hv'
    | choice hv' => rw [hv] at hv'; simp at hv'
    | noDefault hv' => rw [hv] at hv'; simp at hv'
    | fullDefault hv' => rw [hv] at hv'; simp at hv'
    | default hv' => rw [hv] at hv'; simp at hv'
  | noChoice hv hg =>
    cases h2 with
    | noCond hv' => rw [hv] at hv'; simp at hv'
    | fullCond hv' => rw [hv] at hv'; simp at hv'
    | cond hv' => rw [hv] at hv'; simp at hv'
    | noChoice hv' hg' =>
      rw [hv] at hv'
      simp only [Option.some.injEq, Vertex.choice.injEq] at hv'
      subst hv'
      exact ⟨rfl, hg.det hg'⟩
    | choice hv' hb' ht' hs' =>
      rw [hv] at hv'
      simp only [Option.some.injEq, Vertex.choice.injEq] at hv'
      subst hv'
      exact (branch_none hb' hg).elim
    | noDefault hv' => rw [hv] at hv'; simp at hv'
    | fullDefault hv' => rw [hv] at hv'; simp at hv'
    | default hv' => rw [hv] at hv'; simp at hv'
  | choice hv hb ht _ ih =>
    cases h2 with
    | noCond hv' => rw [hv] at hv'; simp at hv'
    | fullCond hv' => rw [hv] at hv'; simp at hv'
    | cond hv' => rw [hv] at hv'; simp at hv'
    | noChoice hv' hg' =>
      rw [hv] at hv'
      simp only [Option.some.injEq, Vertex.choice.injEq] at hv'
      subst hv'
      exact (branch_none hb hg').elim
    | choice hv' hb' ht' hs' =>
      rw [hv] at hv'
      simp only [Option.some.injEq, Vertex.choice.injEq] at hv'
      subst hv'
      obtain ⟨rfl, rfl⟩ := branch_det hb hb'
      rw [ht] at ht'
      simp only [Option.some.injEq] at ht'
      subst ht'
      exact ih hs'
    | noDefault hv' => rw [hv] at hv'; simp at hv'
    | fullDefault hv' => rw [hv] at hv'; simp at hv'
    | default hv' => rw [hv] at hv'; simp at hv'
  | noDefault hv hn ht hg =>
    cases h2 with
    | noCond hv' => rw [hv] at hv'; simp at hv'
    | fullCond hv' => rw [hv] at hv'; simp at hv'
    | cond hv' => rw [hv] at hv'; simp at hv'
    | noChoice hv' => rw [hv] at hv'; simp at hv'
    | choice hv' => rw [hv] at hv'; simp at hv'
    | noDefault hv' hn' ht' hg' =>
      rw [hv] at hv'
      simp only [Option.some.injEq, Vertex.hist.injEq] at hv'
      obtain ⟨rfl, rfl, rfl⟩ := hv'
      exact ⟨rfl, hg.det hg'⟩
    | fullDefault hv' hn' ht' hg' hfull' =>
      rw [hv] at hv'
      simp only [Option.some.injEq, Vertex.hist.injEq] at hv'
      obtain ⟨rfl, rfl, rfl⟩ := hv'
      exact (guard_contra hg' hg).elim
    | default hv' hn' ht' hg' hlen' hs' =>
      rw [hv] at hv'
      simp only [Option.some.injEq, Vertex.hist.injEq] at hv'
      obtain ⟨rfl, rfl, rfl⟩ := hv'
      exact (guard_contra hg' hg).elim
  | fullDefault hv hn ht hg hfull =>
    cases h2 with
    | noCond hv' => rw [hv] at hv'; simp at hv'
    | fullCond hv' => rw [hv] at hv'; simp at hv'
    | cond hv' => rw [hv] at hv'; simp at hv'
    | noChoice hv' => rw [hv] at hv'; simp at hv'
    | choice hv' => rw [hv] at hv'; simp at hv'
    | noDefault hv' hn' ht' hg' =>
      rw [hv] at hv'
      simp only [Option.some.injEq, Vertex.hist.injEq] at hv'
      obtain ⟨rfl, rfl, rfl⟩ := hv'
      exact (guard_contra hg hg').elim
    | fullDefault hv' hn' ht' hg' hfull' =>
      rw [hv] at hv'
      simp only [Option.some.injEq, Vertex.hist.injEq] at hv'
      obtain ⟨rfl, rfl, rfl⟩ := hv'
      exact ⟨rfl, hg.det hg'⟩
    | default hv' hn' ht' hg' hlen' hs' =>
      rw [hv] at hv'
      simp only [Option.some.injEq, Vertex.hist.injEq] at hv'
      obtain ⟨rfl, rfl, rfl⟩ := hv'
      omega
  | default hv hn ht hg hlen _ ih =>
    cases h2 with
    | noCond hv' => rw [hv] at hv'; simp at hv'
    | fullCond hv' => rw [hv] at hv'; simp at hv'
    | cond hv' => rw [hv] at hv'; simp at hv'
    | noChoice hv' => rw [hv] at hv'; simp at hv'
    | choice hv' => rw [hv] at hv'; simp at hv'
    | noDefault hv' hn' ht' hg' =>
      rw [hv] at hv'
      simp only [Option.some.injEq, Vertex.hist.injEq] at hv'
      obtain ⟨rfl, rfl, rfl⟩ := hv'
      exact (guard_contra hg hg').elim
    | fullDefault hv' hn' ht' hg' hfull' =>
      rw [hv] at hv'
      simp only [Option.some.injEq, Vertex.hist.injEq] at hv'
      obtain ⟨rfl, rfl, rfl⟩ := hv'
      omega
    | default hv' hn' ht' hg' hlen' hs' =>
      rw [hv] at hv'
      simp only [Option.some.injEq, Vertex.hist.injEq] at hv'
      obtain ⟨rfl, rfl, rfl⟩ := hv'
      rw [ht] at ht'
      simp only [Option.some.injEq] at ht'
      subst ht'
      have := hg.det hg'
      subst this
      exact ih hs'

theorem Spec.DefaultEntry.det {hist : Vid → Option Vid} {c v w : Vid} (h1 : DefaultEntry m env e hist c log v l1)
    (h2 : DefaultEntry m env e hist c log w l2) : v = w ∧ l1 = l2 := by
  induction h1 with
  | leaf hl =>
    cases h2 with
    | leaf => exact ⟨rfl, rfl⟩
    | composite hc => exact absurd ⟨_, _, _, _, _, hc⟩ hl.not_composite
  | composite hc hf hp ht _ ih =>
    cases h2 with
    | leaf hl => exact absurd ⟨_, _, _, _, _, hc⟩ hl.not_composite
    | composite hc' hf' hp' ht' hd' =>
      rw [hc] at hc'
      simp only [Option.some.injEq, Vertex.composite.injEq] at hc'
      obtain ⟨_, _, rfl, rfl, _⟩ := hc'
      obtain ⟨rfl, rfl, rfl⟩ := hf.det hf'
      have := hp.unique hp'
      subst this
      have := ht.unique ht'
      rw [List.append_cancel_right_eq] at this
      subst this
      exact ih hd'

theorem Spec.DefaultEntry.not_stuck {hist : Vid → Option Vid} {c v : Vid} {r : RC}
    (h1 : DefaultEntry m env e hist c log v l1) (h2 : DefaultStuck m env e hist c log r l2) : False := by
  induction h1 with
  | leaf hl =>
    cases h2 with
    | path hc => exact absurd ⟨_, _, _, _, _, hc⟩ hl.not_composite
    | later hc => exact absurd ⟨_, _, _, _, _, hc⟩ hl.not_composite
  | composite hc hf hp ht _ ih =>
    cases h2 with
    | path hc' hs =>
      rw [hc] at hc'
      simp only [Option.some.injEq, Vertex.composite.injEq] at hc'
      obtain ⟨_, _, rfl, rfl, _⟩ := hc'
      exact hf.not_stuck hs
    | later hc' hf' hp' ht' hd' =>
      rw [hc] at hc'
      simp only [Option.some.injEq, Vertex.composite.injEq] at hc'
      obtain ⟨_, _, rfl, rfl, _⟩ := hc'
      obtain ⟨rfl, rfl, rfl⟩ := hf.det hf'
      have := hp.unique hp'
      subst this
      have := ht.unique ht'
      rw [List.append_cancel_right_eq] at this
      subst this
      exact ih hd'

theorem Spec.DefaultStuck.det {hist : Vid → Option Vid} {c : Vid} {r1 r2 : RC}
    (h1 : DefaultStuck m env e hist c log r1 l1) (h2 : DefaultStuck m env e hist c log r2 l2) : r1 = r2 ∧ l1 = l2 := by
  induction h1 with
  | path hc hs =>
    cases h2 with
    | path hc' hs' =>
      rw [hc] at hc'
      simp only [Option.some.injEq, Vertex.composite.injEq] at hc'
      obtain ⟨_, _, rfl, rfl, _⟩ := hc'
      exact hs.det hs'
    | later hc' hf' =>
      rw [hc] at hc'
      simp only [Option.some.injEq, Vertex.composite.injEq] at hc'
      obtain ⟨_, _, rfl, rfl, _⟩ := hc'
      exact (hf'.not_stuck hs).elim
  | later hc hf hp ht _ ih =>
    cases h2 with
    | path hc' hs =>
      rw [hc] at hc'
      simp only [Option.some.injEq, Vertex.composite.injEq] at hc'
      obtain ⟨_, _, rfl, rfl, _⟩ := hc'
      exact (hf.not_stuck hs).elim
    | later hc' hf' hp' ht' hd' =>
      rw [hc] at hc'
      simp only [Option.some.injEq, Vertex.composite.injEq] at hc'
      obtain ⟨_, _, rfl, rfl, _⟩ := hc'
      obtain ⟨rfl, rfl, rfl⟩ := hf.det hf'
      have := hp.unique hp'
      subst this
      have := ht.unique ht'
      rw [List.append_cancel_right_eq] at this
      subst this
      exact ih hd'

theorem Spec.Completes.det {hist : Vid → Option Vid} {ts : Vid} {o1 o2 : Outcome}
    (h1 : Completes m env e hist ts log o1 l1) (h2 : Completes m env e hist ts log o2 l2) : o1 = o2 ∧ l1 = l2 := by
  cases h1 with
  | ok h1 =>
    cases h2 with
    | ok h2 => obtain ⟨rfl, rfl⟩ := h1.det h2; exact ⟨rfl, rfl⟩
    | failed h2 => exact (h1.not_stuck h2).elim
  | failed h1 =>
    cases h2 with
    | ok h2 => exact (h2.not_stuck h1).elim
    | failed h2 => obtain ⟨rfl, rfl⟩ := h1.det h2; exact ⟨rfl, rfl⟩

theorem goes_det {cs ts : Vid} {pend : List Act} {o1 o2 : Outcome} (h1 : Goes m env e cs ts pend log o1 l1)
    (h2 : Goes m env e cs ts pend log o2 l2) : o1 = o2 ∧ l1 = l2 := by
  obtain ⟨a, b, ha, hb, h1⟩ := h1
  obtain ⟨a', b', ha', hb', h2⟩ := h2
  have := ha.unique ha'
  subst this
  have := hb.unique hb'
  subst this
  exact h1.det h2

theorem Spec.Continues.det {cs v : Vid} {pend : List Act} {o1 o2 : Outcome}
    (h1 : Continues m env e cs v pend log o1 l1) (h2 : Continues m env e cs v pend log o2 l2) : o1 = o2 ∧ l1 = l2 := by
  cases h1 with
  | moves hf hg =>
    cases h2 with
    | moves hf' hg' =>
      obtain ⟨rfl, rfl, rfl⟩ := hf.det hf'
      exact goes_det hg hg'
    | stuck hs => exact (hf.not_stuck hs).elim
  | stuck hs =>
    cases h2 with
    | moves hf hg => exact (hf.not_stuck hs).elim
    | stuck hs' => obtain ⟨rfl, rfl⟩ := hs.det hs'; exact ⟨rfl, rfl⟩

theorem Spec.Takes.det {cs : Vid} {t : Tr} {o1 o2 : Outcome} (h1 : Takes m env e cs t log o1 l1)
    (h2 : Takes m env e cs t log o2 l2) : o1 = o2 ∧ l1 = l2 := by
  cases h1 with
  | internal h1 =>
    cases h2 with
    | internal => exact ⟨rfl, rfl⟩
    | external h2 => rw [h1] at h2; simp at h2
  | external h1 hc =>
    cases h2 with
    | internal h2 => rw [h1] at h2; simp at h2
    | external h2 hc' =>
      rw [h1] at h2
      simp only [Option.some.injEq] at h2
      subst h2
      exact hc.det hc'

theorem Spec.Turn.det {cs : Vid} {o1 o2 : Outcome} (h1 : Turn m env e cs log o1 l1)
    (h2 : Turn m env e cs log o2 l2) : o1 = o2 ∧ l1 = l2 := by
  cases h1 with
  | none hp hn =>
    cases h2 with
    | none hp' hn' =>
      have := hp.unique hp'
      subst this
      exact ⟨rfl, hn.det hn'⟩
    | taken hp' hs _ =>
      have := hp.unique hp'
      subst this
      exact (selected_none hs hn).elim
  | taken hp hs ht =>
    cases h2 with
    | none hp' hn =>
      have := hp.unique hp'
      subst this
      exact (selected_none hs hn).elim
    | taken hp' hs' ht' =>
      have := hp.unique hp'
      subst this
      obtain ⟨rfl, rfl, rfl⟩ := selected_det hs hs'
      exact ht.det ht'

theorem Spec.Dispatches.det {cs s1 s2 : Vid} {r1 r2 : Ans Unit} (h1 : Dispatches m env e cs log s1 l1 r1)
    (h2 : Dispatches m env e cs log s2 l2 r2) : s1 = s2 ∧ l1 = l2 ∧ r1 = r2 := by
  induction h1 with
  | internal ht =>
    cases h2 with
    | internal ht' => exact ⟨rfl, (ht.det ht').2, rfl⟩
    | ok ht' => have := (ht.det ht').1; simp at this
    | failed ht' => have := (ht.det ht').1; simp at this
    | completion ht' => have := (ht.det ht').1; simp at this
  | ok ht hc =>
    cases h2 with
    | internal ht' => have := (ht.det ht').1; simp at this
    | ok ht' => obtain ⟨h, rfl⟩ := ht.det ht'; simp at h; exact ⟨h, rfl, rfl⟩
    | failed ht' => have := (ht.det ht').1; simp at this
    | completion ht' hc' => have := (ht.det ht').1; simp at this; subst this; exact absurd hc' hc
  | failed ht =>
    cases h2 with
    | internal ht' => have := (ht.det ht').1; simp at this
    | ok ht' => have := (ht.det ht').1; simp at this
    | failed ht' => obtain ⟨h, rfl⟩ := ht.det ht'; simp at h; subst h; exact ⟨rfl, rfl, rfl⟩
    | completion ht' => have := (ht.det ht').1; simp at this
  | completion ht hc _ ih =>
    cases h2 with
    | internal ht' => have := (ht.det ht').1; simp at this
    | ok ht' hc' => have := (ht.det ht').1; simp at this; subst this; exact absurd hc hc'
    | failed ht' => have := (ht.det ht').1; simp at this
    | completion ht' hc' hd' => obtain ⟨h, rfl⟩ := ht.det ht'; simp at h; subst h; exact ih hd'
end

end Verif.SM
