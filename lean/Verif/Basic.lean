/-
Outcomes of C code and runs of operation sequences.

`Res.assert` : a `RKH_ASSERT/RKH_REQUIRE/RKH_ENSURE/RKH_ERROR` condition was false with assertions
               compiled in; `rkh_assert()` does not return (source/fwk/inc/rkhassert.h).
`Res.ub`     : the C text performs an access with undefined behaviour.
-/
namespace Verif

/-- Outcome of one piece of C code. -/
inductive Res (α : Type u) where
  | ok : α → Res α
  | assert : Res α
  | ub : Res α
  deriving DecidableEq, Repr

namespace Res

/-- Sequencing. -/
def bind {α : Type u} {β : Type v} (r : Res α) (f : α → Res β) : Res β :=
  match r with
  | ok a => f a
  | assert => assert
  | ub => ub

instance : Monad Res where
  pure := Res.ok
  bind := Res.bind

/-- Result mapping. -/
def map' {α : Type u} {β : Type v} (f : α → β) : Res α → Res β
  | ok a => ok (f a)
  | assert => assert
  | ub => ub

@[simp] theorem pure_eq {α : Type u} (a : α) : (pure a : Res α) = ok a := rfl
@[simp] theorem bind_ok {α β : Type u} (a : α) (f : α → Res β) : (ok a >>= f) = f a := rfl
@[simp] theorem bind_assert {α β : Type u} (f : α → Res β) : ((assert : Res α) >>= f) = assert := rfl
@[simp] theorem bind_ub {α β : Type u} (f : α → Res β) : ((ub : Res α) >>= f) = ub := rfl
@[simp] theorem bind'_ok {α : Type u} {β : Type v} (a : α) (f : α → Res β) : Res.bind (ok a) f = f a := rfl
@[simp] theorem bind'_assert {α : Type u} {β : Type v} (f : α → Res β) :
    Res.bind (assert : Res α) f = assert := rfl
@[simp] theorem bind'_ub {α : Type u} {β : Type v} (f : α → Res β) : Res.bind (ub : Res α) f = ub := rfl

theorem bind_eq_ok {α β : Type u} {r : Res α} {f : α → Res β} {b : β} :
    (r >>= f) = ok b ↔ ∃ a, r = ok a ∧ f a = ok b := by
  cases r <;> simp

theorem map'_eq_ok {α : Type u} {β : Type v} {r : Res α} {f : α → β} {b : β} :
    map' f r = ok b ↔ ∃ a, r = ok a ∧ f a = b := by
  cases r <;> simp [map']

theorem bind'_eq_ok {α : Type u} {β : Type v} {r : Res α} {f : α → Res β} {b : β} :
    Res.bind r f = ok b ↔ ∃ a, r = ok a ∧ f a = ok b := by
  cases r <;> simp

end Res

/-- `RKH_ASSERT(c)`: halts when assertions are enabled and `c` is false; a no-op when they are
compiled out (source/fwk/inc/rkhassert.h). -/
def assertIf (en : Bool) (c : Bool) : Res Unit :=
  if en && !c then .assert else .ok ()

@[simp] theorem assertIf_true (en : Bool) : assertIf en true = .ok () := by simp [assertIf]
@[simp] theorem assertIf_false (c : Bool) : assertIf false c = .ok () := by simp [assertIf]
@[simp] theorem assertIf_tf : assertIf true false = .assert := by simp [assertIf]

/-- Run a list of operations; collect the outputs produced before the run ended, and how it ended. -/
def runOps {S Op Out : Type} (step : S → Op → Res (S × Out)) : S → List Op → List Out × Res S
  | s, [] => ([], .ok s)
  | s, op :: ops =>
    match step s op with
    | .ok (s', o) => (o :: (runOps step s' ops).1, (runOps step s' ops).2)
    | .assert => ([], .assert)
    | .ub => ([], .ub)

/-- A step relation: related results of two steps with equal outputs. -/
def StepRel {S T Out : Type} (R : S → T → Prop) : Res (S × Out) → Res (T × Out) → Prop
  | .ok (s, o), .ok (t, o') => R s t ∧ o = o'
  | .assert, .assert => True
  | .ub, .ub => True
  | _, _ => False

/-- Related final results. -/
def FinRel {S T : Type} (R : S → T → Prop) : Res S → Res T → Prop
  | .ok s, .ok t => R s t
  | .assert, .assert => True
  | .ub, .ub => True
  | _, _ => False

/-- Simulation: if every step preserves the relation and produces equal outputs, so do runs. -/
theorem runOps_sim {S T Op Out : Type} {f : S → Op → Res (S × Out)} {g : T → Op → Res (T × Out)}
    {R : S → T → Prop} (h : ∀ s t op, R s t → StepRel R (f s op) (g t op)) :
    ∀ (ops : List Op) (s : S) (t : T), R s t →
      (runOps f s ops).1 = (runOps g t ops).1 ∧ FinRel R (runOps f s ops).2 (runOps g t ops).2 := by
  intro ops
  induction ops with
  | nil => intro s t hst; exact ⟨rfl, hst⟩
  | cons op ops ih =>
    intro s t hst
    have h1 := h s t op hst
    simp only [runOps]
    rcases hf : f s op with ⟨s', o⟩ | _ | _ <;> rcases hg : g t op with ⟨t', o'⟩ | _ | _ <;>
      rw [hf, hg] at h1 <;> simp only [StepRel] at h1
    · obtain ⟨hr, rfl⟩ := h1
      exact ⟨by simp [(ih s' t' hr).1], (ih s' t' hr).2⟩
    · exact ⟨rfl, trivial⟩
    · exact ⟨rfl, trivial⟩

/-- Invariant rule: an invariant preserved by every `ok` step holds of every `ok` final state. -/
theorem runOps_inv {S Op Out : Type} {f : S → Op → Res (S × Out)} {I : S → Prop}
    (h : ∀ s op s' o, I s → f s op = .ok (s', o) → I s') :
    ∀ (ops : List Op) (s s' : S), I s → (runOps f s ops).2 = .ok s' → I s' := by
  intro ops
  induction ops with
  | nil => intro s s' hs h1; simp only [runOps, Res.ok.injEq] at h1; exact h1 ▸ hs
  | cons op ops ih =>
    intro s s' hs h1
    simp only [runOps] at h1
    rcases hf : f s op with ⟨s1, o⟩ | _ | _ <;> rw [hf] at h1 <;> simp only at h1
    · exact ih s1 s' (h _ _ _ _ hs hf) h1
    · cases h1
    · cases h1

/-- Runs compose. -/
theorem runOps_append_ok {S Op Out : Type} {f : S → Op → Res (S × Out)} :
    ∀ (as bs : List Op) (s s1 : S), (runOps f s as).2 = .ok s1 →
      (runOps f s (as ++ bs)).1 = (runOps f s as).1 ++ (runOps f s1 bs).1 ∧
      (runOps f s (as ++ bs)).2 = (runOps f s1 bs).2 := by
  intro as
  induction as with
  | nil => intro bs s s1 h; simp only [runOps, Res.ok.injEq] at h; subst h; simp [runOps]
  | cons op as ih =>
    intro bs s s1 h
    simp only [runOps, List.cons_append] at h ⊢
    rcases hf : f s op with ⟨s2, o⟩ | _ | _ <;> rw [hf] at h <;> simp only at h ⊢
    · have := ih bs s2 s1 h; simp [this]
    · cases h
    · cases h

/-- The last operation of a run. -/
theorem runOps_snoc {S Op Out : Type} (f : S → Op → Res (S × Out)) (s : S) (ops : List Op) (op : Op) :
    (runOps f s (ops ++ [op])).2 =
      (match (runOps f s ops).2 with
       | .ok s' => (f s' op).map' Prod.fst
       | .assert => .assert
       | .ub => .ub) := by
  induction ops generalizing s with
  | nil => simp only [List.nil_append, runOps]; rcases f s op with ⟨_, _⟩ | _ | _ <;> rfl
  | cons o ops ih =>
    simp only [List.cons_append, runOps]
    rcases f s o with ⟨_, _⟩ | _ | _
    · exact ih _
    · rfl
    · rfl

end Verif
