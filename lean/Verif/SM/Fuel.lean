import Verif.SM.PropsRun
/-
The step budget of the model: a larger budget never changes a result that was obtained with a smaller one, and whenever
the reference semantics has an outcome some budget is enough. So an exhausted budget means, for budgets that are large
enough, that the engine really does not return.
-/
namespace Verif.SM
open Eng Spec

/-- `x'` does whatever `x` does, unless `x` ran out of budget. -/
def Le {α : Type} (x x' : Eng α) : Prop := ∀ s, (x s).2 ≠ .stop .fuel → x' s = x s

/-- The same for results that do not depend on the memory. -/
def LeA {α : Type} (x x' : Ans α) : Prop := x ≠ .stop .fuel → x' = x

theorem Le.refl {α : Type} (x : Eng α) : Le x x := fun _ _ => rfl

theorem Le.fuel {α : Type} (x : Eng α) : Le (stop .fuel) x := fun _ h => absurd rfl h

theorem LeA.fuel {α : Type} (x : Ans α) : LeA (.stop .fuel) x := fun h => absurd rfl h

theorem LeA.refl {α : Type} (x : Ans α) : LeA x x := fun _ => rfl

theorem Le.trans {α : Type} {x y z : Eng α} (h1 : Le x y) (h2 : Le y z) : Le x z := by
  intro s h
  have := h1 s h
  rw [h2 s (by rw [this]; exact h), this]

theorem LeA.lift {α : Type} {x x' : Ans α} (h : LeA x x') : Le (lift x) (lift x') := by
  intro s hs
  have : x ≠ .stop .fuel := hs
  unfold Eng.lift
  rw [h this]

theorem Le.bind {α β : Type} {x x' : Eng α} {g g' : α → Eng β} (hx : Le x x') (hg : ∀ a, Le (g a) (g' a)) :
    Le (x >>= g) (x' >>= g') := by
  intro s h
  show Eng.bind x' g' s = Eng.bind x g s
  have h : (Eng.bind x g s).2 ≠ .stop .fuel := h
  unfold Eng.bind at h ⊢
  rcases e : x s with ⟨s1, a | c⟩
  · rw [e] at h
    rw [hx s (by rw [e]; simp), e]
    exact hg a s1 h
  · rw [e] at h
    have h : (Ans.stop c : Ans β) ≠ .stop .fuel := h
    rw [hx s (by rw [e]; intro h'; simp only [Ans.stop.injEq] at h'; exact h (by rw [h'])), e]

theorem searchUp_le {m : Machine} {env : Env} {e : Sig} (f : Nat) : ∀ s, Le (searchUp m env e f s) (searchUp m env e (f + 1) s) := by
  induction f with
  | zero => intro s; exact Le.fuel _
  | succ f ih =>
    intro s
    unfold searchUp
    cases m.trtbl s with
    | none => exact Le.refl _
    | some tbl =>
      refine Le.bind (Le.refl _) fun r => ?_
      cases r with
      | some t => exact Le.refl _
      | none =>
        simp only
        cases m.parent s with
        | none => exact Le.refl _
        | some p => cases p with
          | none => exact Le.refl _
          | some p => exact ih p

theorem addTargetLoop_le {m : Machine} {cmp : Option Vid} (f : Nat) : ∀ st acc,
    LeA (addTargetLoop m cmp f st acc) (addTargetLoop m cmp (f + 1) st acc) := by
  induction f with
  | zero => intro st acc; exact LeA.fuel _
  | succ f ih =>
    intro st acc
    unfold addTargetLoop
    by_cases h : st = cmp
    · rw [if_pos h, if_pos h]; exact LeA.refl _
    · rw [if_neg h, if_neg h]
      cases st with
      | none => exact LeA.refl _
      | some s =>
        simp only
        by_cases h : acc.length < m.maxDepth
        · rw [if_pos h, if_pos h]
          cases m.parent s with
          | none => exact LeA.refl _
          | some p => exact ih p _
        · rw [if_neg h, if_neg h]; exact LeA.refl _

theorem addTarget_le {m : Machine} {f : Nat} {t : Vid} {cmp : Option Vid} :
    LeA (addTarget m f t cmp) (addTarget m (f + 1) t cmp) := by
  unfold addTarget
  cases m.vert t with
  | none => exact LeA.refl _
  | some x => cases x <;> first | exact LeA.refl _ | exact addTargetLoop_le f _ _

theorem findLca_le {m : Machine} {x : Vid} (f : Nat) : ∀ st ent, LeA (findLca m x f st ent) (findLca m x (f + 1) st ent) := by
  induction f with
  | zero => intro st ent; exact LeA.fuel _
  | succ f ih =>
    intro st ent
    cases st with
    | none => unfold findLca; exact LeA.refl _
    | some n =>
      unfold findLca
      by_cases h : n = x
      · rw [if_pos h, if_pos h]; exact LeA.refl _
      · rw [if_neg h, if_neg h]
        by_cases h : ent.length < m.maxDepth
        · rw [if_pos h, if_pos h]
          cases m.parent n with
          | none => exact LeA.refl _
          | some p => exact ih p _
        · rw [if_neg h, if_neg h]; exact LeA.refl _

theorem exits_le {m : Machine} {ts : Vid} (f : Nat) : ∀ ix stx ent, Le (exits m ts f ix stx ent) (exits m ts (f + 1) ix stx ent) := by
  induction f with
  | zero => intro ix stx ent; exact Le.fuel _
  | succ f ih =>
    intro ix stx ent
    cases stx with
    | none => unfold exits; exact Le.refl _
    | some x =>
      unfold exits
      refine Le.bind (findLca_le f _ _).lift fun r => ?_
      obtain ⟨b, ent'⟩ := r
      cases b with
      | true => exact Le.refl _
      | false =>
        refine Le.bind (Le.refl _) fun _ => Le.bind (Le.refl _) fun _ => ?_
        cases m.parent x with
        | none => exact Le.refl _
        | some p => exact ih _ p _

theorem precheck_le {m : Machine} {f : Nat} {micro : Bool} {a b : Vid} :
    Le (precheck m f micro a b) (precheck m (f + 1) micro a b) := by
  unfold precheck
  cases micro with
  | false => exact Le.refl _
  | true => exact Le.bind addTarget_le.lift fun _ => Le.refl _

theorem resolve_le {m : Machine} {env : Env} {e : Sig} {micro : Bool} (f : Nat) : ∀ stn ets al,
    Le (resolve m env e micro f stn ets al) (resolve m env e micro (f + 1) stn ets al) := by
  induction f with
  | zero => intro stn ets al; exact Le.fuel _
  | succ f ih =>
    intro stn ets al
    unfold resolve
    cases m.vert ets with
    | none => exact Le.refl _
    | some x =>
      cases x with
      | choice tbl => exact Le.bind (Le.refl _) fun _ => Le.bind (Le.refl _) fun _ => Le.bind precheck_le fun _ => ih _ _ _
      | cond tbl => exact Le.bind (Le.refl _) fun _ => Le.bind precheck_le fun _ => ih _ _ _
      | hist d p trn => exact Le.bind (Le.refl _) fun _ => Le.bind precheck_le fun _ => ih _ _ _
      | _ => exact Le.refl _

theorem stage4_le {m : Machine} {f : Nat} {creation micro : Bool} {cs stn ts : Vid} :
    Le (stage4 m f creation micro cs stn ts) (stage4 m (f + 1) creation micro cs stn ts) := by
  unfold stage4
  cases micro with
  | true => exact addTarget_le.lift
  | false => cases creation with
    | true => exact addTarget_le.lift
    | false => exact exits_le f _ _ _

theorem segLoop_le {m : Machine} {env : Env} {e : Sig} {creation : Bool} {cs : Vid} (f : Nat) : ∀ micro stn ets ta compl,
    Le (segLoop m env e creation cs f micro stn ets ta compl) (segLoop m env e creation cs (f + 1) micro stn ets ta compl) := by
  induction f with
  | zero => intros; exact Le.fuel _
  | succ f ih =>
    intro micro stn ets ta compl
    unfold segLoop
    refine Le.bind (Le.refl _) fun al => Le.bind (resolve_le f _ _ _) fun r => Le.bind stage4_le fun ent =>
      Le.bind (Le.refl _) fun _ => Le.bind (Le.refl _) fun c => ?_
    cases m.comp r.2.1 with
    | some x => exact ih _ _ _ _ _
    | none => exact Le.refl _

theorem deepTargets_le {m : Machine} (f : Nat) : ∀ st acc, LeA (deepTargets m f st acc) (deepTargets m (f + 1) st acc) := by
  induction f with
  | zero => intros; exact LeA.fuel _
  | succ f ih =>
    intro st acc
    cases st with
    | none => unfold deepTargets; exact LeA.refl _
    | some s =>
      unfold deepTargets
      cases m.vert s with
      | none => exact LeA.refl _
      | some x =>
        cases x with
        | composite p t d i h =>
          cases h with
          | none => exact ih _ _
          | some k =>
            simp only
            cases m.vert k with
            | none => exact LeA.refl _
            | some y =>
              cases y with
              | hist d p trn => cases d <;> exact ih _ _
              | _ => exact ih _ _
        | _ => exact LeA.refl _

theorem finish_le {m : Machine} {f : Nat} {v : Vid} : Le (finish m f v) (finish m (f + 1) v) := by
  unfold finish
  cases m.parent v with
  | none => exact Le.refl _
  | some p => exact Le.bind (deepTargets_le f _ _).lift fun _ => Le.refl _

theorem compound_le {m : Machine} {env : Env} {f : Nat} {e : Sig} {creation : Bool} :
    Le (compound m env f e creation) (compound m env (f + 1) e creation) := by
  unfold compound
  cases creation with
  | true => exact Le.bind (segLoop_le f _ _ _ _ _) fun r => Le.bind finish_le fun _ => Le.refl _
  | false =>
    refine Le.bind (Le.refl _) fun mem => ?_
    cases mem.state with
    | none => exact Le.refl _
    | some cs =>
      refine Le.bind (searchUp_le f _) fun r => ?_
      cases r with
      | none => exact Le.refl _
      | some x =>
        obtain ⟨s, t⟩ := x
        simp only
        cases t.target with
        | none => exact Le.refl _
        | some v => exact Le.bind (segLoop_le f _ _ _ _ _) fun r => Le.bind finish_le fun _ => Le.refl _

theorem passes_le {m : Machine} {env : Env} (f : Nat) : ∀ e creation,
    Le (passes m env f e creation) (passes m env (f + 1) e creation) := by
  induction f with
  | zero => intros; exact Le.fuel _
  | succ f ih =>
    intro e creation
    unfold passes
    refine Le.bind compound_le fun c => ?_
    cases c with
    | false => exact Le.refl _
    | true => exact ih _ _

theorem le_of_step {α : Type} {x : Nat → Eng α} (h : ∀ f, Le (x f) (x (f + 1))) {f g : Nat} (hfg : f ≤ g) :
    Le (x f) (x g) := by
  induction hfg with
  | refl => exact Le.refl _
  | step _ ih => exact ih.trans (h _)

/-- The result of a dispatch does not depend on the step budget, as long as it is not exhausted. -/
theorem budget_is_irrelevant {m : Machine} {env : Env} {e : Sig} {f g : Nat} {s s1 s2 : Mem} {r1 r2 : Ans Unit}
    (h1 : dispatch m env f e s = (s1, r1)) (hr1 : r1 ≠ .stop .fuel)
    (h2 : dispatch m env g e s = (s2, r2)) (hr2 : r2 ≠ .stop .fuel) : s1 = s2 ∧ r1 = r2 := by
  have key : ∀ {f g : Nat} {s1 s2 : Mem} {r1 r2 : Ans Unit}, f ≤ g → dispatch m env f e s = (s1, r1) →
      r1 ≠ .stop .fuel → dispatch m env g e s = (s2, r2) → s1 = s2 ∧ r1 = r2 := by
    intro f g s1 s2 r1 r2 hfg h1 hr1 h2
    have := le_of_step (x := fun f => dispatch m env f e) (fun f => passes_le f _ _) hfg s (by show (dispatch m env f e s).2 ≠ _; rw [h1]; exact hr1)
    rw [h1, h2] at this
    simp only [Prod.mk.injEq] at this
    exact ⟨this.1.symm, this.2.symm⟩
  rcases Nat.le_total f g with h | h
  · exact key h h1 hr1 h2
  · obtain ⟨ha, hb⟩ := key h h2 hr2 h1
    exact ⟨ha.symm, hb.symm⟩

/-- A larger budget gives the same result. -/
theorem budget_monotone {m : Machine} {env : Env} {e : Sig} {f g : Nat} {s s1 s2 : Mem} {r1 r2 : Ans Unit} (hfg : f ≤ g)
    (h1 : dispatch m env f e s = (s1, r1)) (hr1 : r1 ≠ .stop .fuel) (h2 : dispatch m env g e s = (s2, r2)) : s1 = s2 ∧ r1 = r2 := by
  have := le_of_step (x := fun f => dispatch m env f e) (fun f => passes_le f _ _) hfg s (by show (dispatch m env f e s).2 ≠ _; rw [h1]; exact hr1)
  rw [h1, h2] at this
  simp only [Prod.mk.injEq] at this
  exact ⟨this.1.symm, this.2.symm⟩

/-! ### Enough budget -/

/-- From some budget on, the budget is not exhausted. -/
def Halts {α : Type} (x : Nat → Eng α) (s : Mem) : Prop := ∃ n, ∀ f, n ≤ f → (x f s).2 ≠ .stop .fuel

theorem Halts.succ {α : Type} {x : Nat → Eng α} {s : Mem} (h : Halts (fun f => x (f + 1)) s) : Halts x s := by
  obtain ⟨n, hn⟩ := h
  refine ⟨n + 1, fun f hf => ?_⟩
  obtain ⟨g, rfl⟩ : ∃ g, f = g + 1 := ⟨f - 1, by omega⟩
  exact hn g (by omega)

theorem Halts.const {α : Type} {x : Eng α} {s : Mem} (h : wp x (fun _ _ => True) (fun c _ => c ≠ .fuel) s) :
    Halts (fun _ => x) s := by
  refine ⟨0, fun f _ => ?_⟩
  unfold wp at h
  show (x s).2 ≠ _
  rcases e : x s with ⟨s1, a | c⟩ <;> rw [e] at h
  · simp
  · simpa using h

theorem Halts.ub {α : Type} (s : Mem) : Halts (fun _ => (stop .ub : Eng α)) s :=
  Halts.const (show Stop.ub ≠ Stop.fuel by simp)

theorem Halts.bind {α β : Type} {x : Nat → Eng α} {g : Nat → α → Eng β} {s : Mem} (hx : ∀ f, Le (x f) (x (f + 1)))
    (h : Halts x s)
    (hw : ∀ f, wp (x f) (fun a s1 => Halts (fun f => g f a) s1) (fun _ _ => True) s) :
    Halts (fun f => x f >>= g f) s := by
  obtain ⟨n, hn⟩ := h
  have hsame : ∀ f, n ≤ f → x f s = x n s := fun f hf => le_of_step hx hf s (hn n (Nat.le_refl _))
  have hwn := hw n
  unfold wp at hwn
  rcases e : x n s with ⟨s1, a | c⟩
  · rw [e] at hwn
    obtain ⟨k, hk⟩ := hwn
    refine ⟨n + k, fun f hf => ?_⟩
    show (Eng.bind (x f) (g f) s).2 ≠ _
    unfold Eng.bind
    rw [hsame f (by omega), e]
    exact hk f (by omega)
  · refine ⟨n, fun f hf => ?_⟩
    show (Eng.bind (x f) (g f) s).2 ≠ _
    unfold Eng.bind
    rw [hsame f hf, e]
    have := hn n (Nat.le_refl _)
    rw [e] at this
    simpa using this

theorem Halts.bindc {α β : Type} {x : Eng α} {g : Nat → α → Eng β} {s : Mem}
    (hw : wp x (fun a s1 => Halts (fun f => g f a) s1) (fun c _ => c ≠ .fuel) s) :
    Halts (fun f => x >>= g f) s :=
  Halts.bind (fun _ => Le.refl _) (Halts.const (wp_mono hw (fun _ _ _ => trivial) fun _ _ h => h))
    (fun _ => wp_mono hw (fun _ _ h => h) fun _ _ _ => trivial)

theorem Halts.of_eq {α : Type} {x y : Nat → Eng α} {s : Mem} (h : Halts x s) (e : ∀ f, y f = x f) : Halts y s := by
  obtain ⟨n, hn⟩ := h
  exact ⟨n, fun f hf => by rw [e]; exact hn f hf⟩

theorem Halts.pure {α : Type} (a : α) (s : Mem) : Halts (fun _ => (Pure.pure a : Eng α)) s := Halts.const trivial

theorem Halts.lift {α : Type} {x : Nat → Ans α} {n : Nat} (h : ∀ f, n ≤ f → x f ≠ .stop .fuel) (s : Mem) :
    Halts (fun f => Eng.lift (x f)) s := ⟨n, h⟩

theorem shown_ne_fuel {m : Machine} (c : RC) : shown m c ≠ .fuel := by
  cases c <;> simp only [shown] <;> first | (split <;> simp) | simp

theorem addTargetLoop_halts {m : Machine} {cmp : Option Vid} {v : Vid} {l : List Vid} (h : Path m v l) :
    ∀ f acc, l.length + 1 ≤ f → addTargetLoop m cmp f (some v) acc ≠ .stop .fuel := by
  have hnone : ∀ f acc, 1 ≤ f → addTargetLoop m cmp f none acc ≠ .stop .fuel := by
    intro f acc hf
    obtain ⟨g, rfl⟩ : ∃ g, f = g + 1 := ⟨f - 1, by omega⟩
    unfold addTargetLoop
    by_cases hc : (none : Option Vid) = cmp
    · rw [if_pos hc]; simp
    · rw [if_neg hc]; simp
  induction h with
  | @root s hp =>
    intro f acc hf
    obtain ⟨g, rfl⟩ : ∃ g, f = g + 1 := ⟨f - 1, by omega⟩
    simp only [List.length_singleton] at hf
    unfold addTargetLoop
    by_cases hc : some s = cmp
    · rw [if_pos hc]; simp
    · rw [if_neg hc]
      simp only
      by_cases hl : acc.length < m.maxDepth
      · rw [if_pos hl, hp]; exact hnone _ _ (by omega)
      · rw [if_neg hl]; simp
  | @child s p l hp _ ih =>
    intro f acc hf
    obtain ⟨g, rfl⟩ : ∃ g, f = g + 1 := ⟨f - 1, by omega⟩
    simp only [List.length_cons] at hf
    unfold addTargetLoop
    by_cases hc : some s = cmp
    · rw [if_pos hc]; simp
    · rw [if_neg hc]
      simp only
      by_cases hl : acc.length < m.maxDepth
      · rw [if_pos hl, hp]; exact ih _ _ (by omega)
      · rw [if_neg hl]; simp

theorem addTarget_halts {m : Machine} (wf : WellFormed m) (v : Vid) (cmp : Option Vid) :
    ∃ n, ∀ f, n ≤ f → addTarget m f v cmp ≠ .stop .fuel := by
  by_cases hs : IsState m v
  · obtain ⟨l, hl⟩ := wf.path v hs
    refine ⟨l.length + 1, fun f hf => ?_⟩
    have := addTargetLoop_halts (cmp := cmp) hl f [] hf
    unfold addTarget
    rcases hs.cases with (⟨p, t, hv⟩ | ⟨p, hv⟩) | ⟨p, t, d, i, k, hv⟩ <;> simp only [hv] <;> exact this
  · refine ⟨0, fun f _ => ?_⟩
    unfold addTarget
    have hst : ∀ p, m.parent v ≠ some p := fun p hp => hs ⟨p, hp⟩
    unfold Machine.parent at hst
    rcases hv : m.vert v with _ | x
    · simp
    · rw [hv] at hst
      cases x <;> simp_all

theorem precheck_halts {m : Machine} (wf : WellFormed m) (micro : Bool) (a b : Vid) (s : Mem) :
    Halts (fun f => precheck m f micro a b) s := by
  cases micro with
  | false => exact Halts.pure () s
  | true =>
    obtain ⟨n, hn⟩ := addTarget_halts wf a (some b)
    have : Halts (fun f => Eng.lift (addTarget m f a (some b)) >>= fun _ => (Pure.pure () : Eng Unit)) s :=
      Halts.bind (fun f => addTarget_le.lift) (Halts.lift hn s) fun f => by
        unfold wp
        rcases e : Eng.lift (addTarget m f a (some b)) s with ⟨s1, a | c⟩
        · exact Halts.pure () _
        · trivial
    exact this

theorem precheck_mem {m : Machine} {f : Nat} {micro : Bool} {a b : Vid} {s : Mem} {Q : Unit → Mem → Prop} (h : Q () s) :
    wp (precheck m f micro a b) Q (fun _ _ => True) s := by
  unfold precheck
  cases micro with
  | false => exact h
  | true =>
    simp only [if_true, wp_bind]
    rcases addTarget m f a (some b) with x | c
    · exact h
    · trivial

theorem findLca_halts {m : Machine} {x v : Vid} {l : List Vid} (h : Path m v l) :
    ∀ f ent, l.length + 1 ≤ f → findLca m x f (some v) ent ≠ .stop .fuel := by
  induction h with
  | @root s hp =>
    intro f ent hf
    obtain ⟨g, rfl⟩ : ∃ g, f = g + 2 := ⟨f - 2, by simp at hf; omega⟩
    unfold findLca
    by_cases hc : s = x
    · rw [if_pos hc]; simp
    · rw [if_neg hc]
      by_cases hl : ent.length < m.maxDepth
      · rw [if_pos hl, hp]; simp [findLca]
      · rw [if_neg hl]; split <;> simp
  | @child s p l hp _ ih =>
    intro f ent hf
    obtain ⟨g, rfl⟩ : ∃ g, f = g + 1 := ⟨f - 1, by omega⟩
    simp only [List.length_cons] at hf
    unfold findLca
    by_cases hc : s = x
    · rw [if_pos hc]; simp
    · rw [if_neg hc]
      by_cases hl : ent.length < m.maxDepth
      · rw [if_pos hl, hp]; exact ih _ _ (by omega)
      · rw [if_neg hl]; split <;> simp

theorem updShallow_ne_fuel {m : Machine} {x : Vid} {s : Mem} {Q : Unit → Mem → Prop} (hQ : ∀ s', Q () s') :
    wp (updShallow m x) Q (fun c _ => c ≠ .fuel) s := by
  unfold updShallow
  rw [wp_bind]
  have : shallowTarget m x ≠ .stop .fuel := by
    unfold shallowTarget
    repeat' split
    all_goals simp
  rcases e : shallowTarget m x with r | c
  · cases r <;> exact hQ _
  · rw [e] at this
    show c ≠ .fuel
    intro hc
    exact this (by rw [hc])

theorem exits_halts {m : Machine} {ts : Vid} {lt : List Vid} (ht : Path m ts lt) {v : Vid} {l : List Vid}
    (h : Path m v l) : ∀ ix ent s, Halts (fun f => exits m ts f ix (some v) ent) s := by
  have step : ∀ (v : Vid), (∀ ix ent s, ∀ p, m.parent v = some p → Halts (fun f => exits m ts f (ix + 1) p ent) s) →
      ∀ ix ent s, Halts (fun f => exits m ts f ix (some v) ent) s := by
    intro v hrec ix ent s
    apply Halts.succ
    show Halts (fun f => exits m ts (f + 1) ix (some v) ent) s
    simp only [exits]
    refine Halts.bind (fun f => (findLca_le f _ _).lift) (Halts.lift (n := lt.length + 1) (fun f hf => findLca_halts ht f [] hf) s)
      fun f => ?_
    rcases findLca m v f (some ts) [] with ⟨_ | _, ent'⟩ | c
    · simp only [wp_lift_ok]
      refine Halts.bindc ?_
      rw [wp_emit]
      refine Halts.bindc (updShallow_ne_fuel fun s' => ?_)
      rcases hp : m.parent v with _ | p
      · exact Halts.ub _
      · exact hrec ix ent' s' p hp
    · simp only [wp_lift_ok]
      apply Halts.const
      cases ix with
      | zero =>
        simp only [wp_bind, wp_emit]
        refine updShallow_ne_fuel fun s' => ?_
        split
        · trivial
        · simp
      | succ ix => trivial
    · trivial
  induction h with
  | @root s hp =>
    refine step s fun ix ent s' p hp' => ?_
    rw [hp] at hp'
    simp only [Option.some.injEq] at hp'
    subst hp'
    apply Halts.succ
    exact Halts.of_eq (Halts.pure ent s') fun f => by rw [exits]
  | @child s p l hp _ ih =>
    refine step s fun ix ent s' q hq => ?_
    rw [hp] at hq
    simp only [Option.some.injEq] at hq
    subst hq
    exact ih _ _ _

theorem deepTargets_halts {m : Machine} {v : Vid} {l : List Vid} (h : Path m v l) :
    ∀ f acc, l.length + 1 ≤ f → deepTargets m f (some v) acc ≠ .stop .fuel := by
  have step : ∀ (v : Vid) f acc, (∀ p, m.parent v = some p → ∀ acc, deepTargets m f p acc ≠ .stop .fuel) →
      deepTargets m (f + 1) (some v) acc ≠ .stop .fuel := by
    intro v f acc hrec
    unfold deepTargets
    rcases hv : m.vert v with _ | x
    · simp
    · cases x with
      | composite p t d i k =>
        have hp : m.parent v = some p := by simp [Machine.parent, hv]
        cases k with
        | none => exact hrec p hp _
        | some k =>
          simp only
          rcases hk : m.vert k with _ | y
          · simp
          · cases y with
            | hist d q trn => cases d <;> exact hrec p hp _
            | _ => exact hrec p hp _
      | _ => simp
  induction h with
  | @root s hp =>
    intro f acc hf
    obtain ⟨g, rfl⟩ : ∃ g, f = g + 2 := ⟨f - 2, by simp at hf; omega⟩
    refine step s _ _ fun p hp' acc => ?_
    rw [hp] at hp'
    simp only [Option.some.injEq] at hp'
    subst hp'
    simp [deepTargets]
  | @child s p l hp _ ih =>
    intro f acc hf
    obtain ⟨g, rfl⟩ : ∃ g, f = g + 1 := ⟨f - 1, by omega⟩
    simp only [List.length_cons] at hf
    refine step s _ _ fun q hq acc => ?_
    rw [hp] at hq
    simp only [Option.some.injEq] at hq
    subst hq
    exact ih _ _ (by omega)

theorem finish_halts {m : Machine} {v : Vid} {l : List Vid} (h : Path m v l) (s : Mem) :
    Halts (fun f => finish m f v) s := by
  unfold finish
  cases h with
  | root hp =>
    simp only [hp]
    refine Halts.bind (fun f => (deepTargets_le f _ _).lift) (Halts.lift (n := 1) (fun f hf => ?_) s) fun f => ?_
    · obtain ⟨g, rfl⟩ : ∃ g, f = g + 1 := ⟨f - 1, by omega⟩
      simp [deepTargets]
    · rcases deepTargets m f none [] with ks | c
      · exact Halts.const trivial
      · trivial
  | @child _ p l hp hl =>
    simp only [hp]
    refine Halts.bind (fun f => (deepTargets_le f _ _).lift)
      (Halts.lift (n := l.length + 1) (fun f hf => deepTargets_halts hl f [] hf) s) fun f => ?_
    rcases deepTargets m f (some p) [] with ks | c
    · exact Halts.const trivial
    · trivial

theorem searchUp_halts {m : Machine} {env : Env} {e : Sig} {v : Vid} {l : List Vid} (h : Path m v l) :
    ∀ s, Halts (fun f => searchUp m env e f v) s := by
  have step : ∀ v, (∀ s p, m.parent v = some (some p) → Halts (fun f => searchUp m env e f p) s) →
      ∀ s, Halts (fun f => searchUp m env e f v) s := by
    intro v hrec s
    apply Halts.succ
    simp only [searchUp]
    rcases m.trtbl v with _ | tbl
    · exact Halts.ub _
    · refine Halts.bindc (findTrn_wp (fun t l _ => Halts.pure _ _) (fun l _ => ?_))
      simp only
      rcases hp : m.parent v with _ | _ | p
      · exact Halts.ub _
      · exact Halts.pure _ _
      · exact hrec _ p hp
  induction h with
  | @root s hp => exact step s fun s' p hp' => by rw [hp] at hp'; simp at hp'
  | @child s p l hp _ ih =>
    refine step s fun s' q hq => ?_
    rw [hp] at hq
    simp only [Option.some.injEq] at hq
    subst hq
    exact ih s'

theorem resolve_step {m : Machine} (wf : WellFormed m) {env : Env} {e : Sig} {micro : Bool} {st w : Vid} {pend : List Act}
    {s : Mem} (h : ∀ stn, Halts (fun f => resolve m env e micro f stn w pend) s) (a b : Vid) :
    Halts (fun f => precheck m f micro a b >>= fun _ => resolve m env e micro f st w pend) s :=
  Halts.bind (fun f => precheck_le) (precheck_halts wf micro a b s) fun f => precheck_mem (h st)

theorem resolve_halts_follows {m : Machine} (wf : WellFormed m) (lim : Limits m) {env : Env} {e : Sig} {micro : Bool}
    {hist : Vid → Option Vid} {v ts : Vid} {pend pend' : List Act} {log log' : List Obs}
    (h : Follows m env e hist v pend log ts pend' log') : ∀ {s : Mem} (stn : Vid), s.log = log → Agree m s.hist hist →
    Halts (fun f => resolve m env e micro f stn v pend) s := by
  induction h with
  | @state v pend log hs =>
    intro s stn hl hag
    apply Halts.succ
    rcases hs.cases with (⟨p, t, hv⟩ | ⟨p, hv⟩) | ⟨p, t, d, i, k, hv⟩ <;> simp only [resolve, hv] <;> exact Halts.pure _ _
  | @cond v w ts tbl t pend pend' log log1 log' hv hb hlen hw _ ih =>
    intro s stn hl hag
    apply Halts.succ
    simp only [resolve, hv]
    subst hl
    refine Halts.bindc (takeBranch_wp (fun t ht => wf.cond v tbl t hv ht) (fun u x l hu _ _ hx _ => ?_) (fun l hl => by simp)
      (fun u l hu hfull => shown_ne_fuel _))
    obtain ⟨rfl, rfl⟩ := branch_det hb hu
    rw [hw] at hx
    simp only [Option.some.injEq] at hx
    subst hx
    exact resolve_step wf (s := { s with log := log1 }) (fun stn => ih stn rfl hag) _ _
  | @choice v w ts tbl t pend pend' log log1 log' hv hb hw _ ih =>
    intro s stn hl hag
    apply Halts.succ
    simp only [resolve, hv]
    subst hl
    refine Halts.bindc ?_
    rw [exec_wp]
    refine Halts.bindc (takeBranch_wp (fun t ht => wf.choice v tbl t hv ht) (fun u x l hu _ _ hx _ => ?_) (fun l hl => by simp)
      (fun u l hu hfull => shown_ne_fuel _))
    obtain ⟨rfl, rfl⟩ := branch_det hb hu
    rw [hw] at hx
    simp only [Option.some.injEq] at hx
    subst hx
    exact resolve_step wf (s := { s with log := log1 }) (fun stn => ih stn rfl hag) _ _
  | @restore v w ts d p trn pend pend' log log' hv hh _ ih =>
    intro s stn hl hag
    apply Halts.succ
    simp only [resolve, hv]
    subst hl
    have hh' := hag _ _ _ _ hv
    rw [hh] at hh'
    refine Halts.bindc (takeHist_wp wf hv (fun c x hc hx => ?_) (fun c hc hcomp hn ht => ?_) (fun c x l hc hn ht hwt hl hlen => ?_)
        (fun x l hn ht hl => by simp) (fun x l hn ht hl hfull => shown_ne_fuel _))
    · rw [hh'] at hx
      simp only [Option.some.injEq] at hx
      subst hx
      exact resolve_step wf (fun stn => ih stn rfl hag) _ _
    · rw [hh'] at hn; simp at hn
    · rw [hh'] at hn; simp at hn
  | @default v w ts d p trn pend pend' log log1 log' hv hh hw hg hlen _ ih =>
    intro s stn hl hag
    apply Halts.succ
    simp only [resolve, hv]
    subst hl
    have hh' := hag _ _ _ _ hv
    rw [hh] at hh'
    refine Halts.bindc (takeHist_wp wf hv (fun c x hc hx => ?_) (fun c hc hcomp hn ht => ?_) (fun c x l hc hn ht hwt hl hlen => ?_)
        (fun x l hn ht hl => by simp) (fun x l hn ht hl hfull => shown_ne_fuel _))
    · rw [hh'] at hx; simp at hx
    · rw [hw] at ht; simp at ht
    · rw [hw] at ht
      simp only [Option.some.injEq] at ht
      subst ht
      have := hg.det hl
      subst this
      exact resolve_step wf (s := { s with log := log1 }) (fun stn => ih stn rfl hag) _ _
  | @owner v c ts d trn pend pend' log log' hv hh hw _ ih =>
    intro s stn hl hag
    apply Halts.succ
    simp only [resolve, hv]
    subst hl
    have hh' := hag _ _ _ _ hv
    rw [hh] at hh'
    refine Halts.bindc (takeHist_wp wf hv (fun c x hc hx => ?_) (fun c hc hcomp hn ht => ?_) (fun c x l hc hn ht hwt hl hlen => ?_)
        (fun x l hn ht hl => by simp) (fun x l hn ht hl hfull => shown_ne_fuel _))
    · rw [hh'] at hx; simp at hx
    · simp only [Option.some.injEq] at hc
      subst hc
      exact resolve_step wf (fun stn => ih stn rfl hag) _ _
    · rw [hw] at ht; simp at ht

theorem resolve_halts_stuck {m : Machine} (wf : WellFormed m) (lim : Limits m) {env : Env} {e : Sig} {micro : Bool}
    {hist : Vid → Option Vid} {v : Vid} {pend : List Act} {log log' : List Obs} {r : RC}
    (h : Stuck m env e hist v pend log r log') : ∀ {s : Mem} (stn : Vid), s.log = log → Agree m s.hist hist →
    Halts (fun f => resolve m env e micro f stn v pend) s := by
  induction h with
  | @noCond v tbl pend log log' hv hg =>
    intro s stn hl hag
    apply Halts.succ
    simp only [resolve, hv]
    subst hl
    exact Halts.bindc (takeBranch_wp (fun t ht => wf.cond v tbl t hv ht)
      (fun u x l hu _ _ hx _ => absurd hg (branch_none hu)) (fun l hl => by simp)
      (fun u l hu hfull => shown_ne_fuel _))
  | @noChoice v tbl pend log log' hv hg =>
    intro s stn hl hag
    apply Halts.succ
    simp only [resolve, hv]
    subst hl
    refine Halts.bindc ?_
    rw [exec_wp]
    exact Halts.bindc (takeBranch_wp (fun t ht => wf.choice v tbl t hv ht)
      (fun u x l hu _ _ hx _ => absurd hg (branch_none hu)) (fun l hl => by simp)
      (fun u l hu hfull => shown_ne_fuel _))
  | @noDefault v w d p trn pend log log' hv hh hw hg =>
    intro s stn hl hag
    apply Halts.succ
    simp only [resolve, hv]
    subst hl
    have hh' := hag _ _ _ _ hv
    rw [hh] at hh'
    refine Halts.bindc (takeHist_wp wf hv (fun c x hc hx => ?_) (fun c hc hcomp hn ht => ?_) (fun c x l hc hn ht hwt hl hlen => ?_)
        (fun x l hn ht hl => by simp) (fun x l hn ht hl hfull => shown_ne_fuel _))
    · rw [hh'] at hx; simp at hx
    · rw [hw] at ht; simp at ht
    · exact absurd hg fun hg => guard_contra hl hg
  | @fullCond v tbl t pend log log' hv hb hfull =>
    intro s stn hl hag
    apply Halts.succ
    simp only [resolve, hv]
    subst hl
    exact Halts.bindc (takeBranch_wp (fun t ht => wf.cond v tbl t hv ht)
      (fun u x l hu _ hlen hx _ => absurd hlen (by omega)) (fun l hl => by simp)
      (fun u l hu hfull => shown_ne_fuel _))
  | @fullDefault v w d p trn pend log log' hv hh hw hg hfull =>
    intro s stn hl hag
    apply Halts.succ
    simp only [resolve, hv]
    subst hl
    have hh' := hag _ _ _ _ hv
    rw [hh] at hh'
    refine Halts.bindc (takeHist_wp wf hv (fun c x hc hx => ?_) (fun c hc hcomp hn ht => ?_) (fun c x l hc hn ht hwt hl hlen => ?_)
        (fun x l hn ht hl => by simp) (fun x l hn ht hl hfull => shown_ne_fuel _))
    · rw [hh'] at hx; simp at hx
    · rw [hw] at ht; simp at ht
    · omega
  | @cond v w tbl t pend log log1 log' r hv hb hlen hw _ ih =>
    intro s stn hl hag
    apply Halts.succ
    simp only [resolve, hv]
    subst hl
    refine Halts.bindc (takeBranch_wp (fun t ht => wf.cond v tbl t hv ht) (fun u x l hu _ _ hx _ => ?_) (fun l hl => by simp)
      (fun u l hu hfull => shown_ne_fuel _))
    obtain ⟨rfl, rfl⟩ := branch_det hb hu
    rw [hw] at hx
    simp only [Option.some.injEq] at hx
    subst hx
    exact resolve_step wf (s := { s with log := log1 }) (fun stn => ih stn rfl hag) _ _
  | @choice v w tbl t pend log log1 log' r hv hb hw _ ih =>
    intro s stn hl hag
    apply Halts.succ
    simp only [resolve, hv]
    subst hl
    refine Halts.bindc ?_
    rw [exec_wp]
    refine Halts.bindc (takeBranch_wp (fun t ht => wf.choice v tbl t hv ht) (fun u x l hu _ _ hx _ => ?_) (fun l hl => by simp)
      (fun u l hu hfull => shown_ne_fuel _))
    obtain ⟨rfl, rfl⟩ := branch_det hb hu
    rw [hw] at hx
    simp only [Option.some.injEq] at hx
    subst hx
    exact resolve_step wf (s := { s with log := log1 }) (fun stn => ih stn rfl hag) _ _
  | @default v w d p trn pend log log1 log' r hv hh hw hg hlen _ ih =>
    intro s stn hl hag
    apply Halts.succ
    simp only [resolve, hv]
    subst hl
    have hh' := hag _ _ _ _ hv
    rw [hh] at hh'
    refine Halts.bindc (takeHist_wp wf hv (fun c x hc hx => ?_) (fun c hc hcomp hn ht => ?_) (fun c x l hc hn ht hwt hl hlen => ?_)
        (fun x l hn ht hl => by simp) (fun x l hn ht hl hfull => shown_ne_fuel _))
    · rw [hh'] at hx; simp at hx
    · rw [hw] at ht; simp at ht
    · rw [hw] at ht
      simp only [Option.some.injEq] at ht
      subst ht
      have := hg.det hl
      subst this
      exact resolve_step wf (s := { s with log := log1 }) (fun stn => ih stn rfl hag) _ _

theorem stage4_halts {m : Machine} (wf : WellFormed m) {creation micro : Bool} {cs stn ts : Vid} (hcs : IsState m cs)
    (hts : IsState m ts) (s : Mem) : Halts (fun f => stage4 m f creation micro cs stn ts) s := by
  unfold stage4
  cases micro with
  | true =>
    obtain ⟨n, hn⟩ := addTarget_halts wf ts (some stn)
    exact Halts.lift hn s
  | false => cases creation with
    | true =>
      obtain ⟨n, hn⟩ := addTarget_halts wf ts none
      exact Halts.lift hn s
    | false =>
      obtain ⟨l, hl⟩ := wf.path cs hcs
      obtain ⟨lt, hlt⟩ := wf.path ts hts
      exact exits_halts hlt hl _ _ _

/-- The rest of the loop body after the states to enter are known. -/
theorem rest_halts {m : Machine} {env : Env} {e : Sig} {creation : Bool} {cs ts : Vid} {ent : List Vid} {compl : Bool}
    {pend : List Act} {s : Mem} {k : Bool → Eng (Vid × Bool)} (hk : ∀ c, k c = stop .ub ∨ ∃ x, k c = pure (x, c))
    (hrec : ∀ d ia c, m.comp ts = some (d, ia) → Halts (fun f => segLoop m env e creation cs f true ts d ia c)
      { s with log := s.log ++ acts e pend ++ ent.reverse.map .entry }) :
    Halts (fun f => exec e pend >>= fun _ => enter m ent.reverse compl >>= fun c =>
      match m.comp ts with
      | some (d, ia) => segLoop m env e creation cs f true ts d ia c
      | none => k c) s := by
  refine Halts.bindc ?_
  rw [exec_wp]
  refine Halts.bindc ?_
  rw [enter_wp]
  rcases hc : m.comp ts with _ | ⟨d, ia⟩
  · simp only
    rcases hk (lastFlag m ent.reverse compl) with h | ⟨x, h⟩ <;> rw [h]
    · exact Halts.ub _
    · exact Halts.pure _ _
  · simp only
    exact hrec d ia _ hc

theorem addTarget_mem {α : Type} {a : Ans α} {s : Mem} {Q : α → Mem → Prop} (h : ∀ x, Q x s) :
    wp (Eng.lift a) Q (fun _ _ => True) s := by
  rcases a with x | c
  · exact h x
  · trivial

theorem segMicro_halts {m : Machine} (wf : WellFormed m) (lim : Limits m) {env : Env} {e : Sig} {creation : Bool} {cs : Vid}
    (hcs : IsState m cs) {hist : Vid → Option Vid} (hin : Inside m hist) {c : Vid} {log : List Obs}
    (h : (∃ v log', DefaultEntry m env e hist c log v log') ∨ ∃ r log', DefaultStuck m env e hist c log r log') :
    ∀ {s : Mem} {d : Vid} {ia : Option Act} {compl : Bool}, m.comp c = some (d, ia) → s.log = log → Agree m s.hist hist →
    Halts (fun f => segLoop m env e creation cs f true c d ia compl) s := by
  -- one round of the loop
  have round : ∀ {c ts d : Vid} {p : Option Vid} {tbl : List Tr} {ia : Option Act} {h : Option Vid} {b l : List Vid}
      {pend : List Act} {log1 : List Obs} {s : Mem} {compl : Bool}, m.vert c = some (.composite p tbl d ia h) →
      Follows m env e hist d ia.toList s.log ts pend log1 → Path m c l → Path m ts (b ++ l) → Agree m s.hist hist →
      (∀ d' ia' c', m.comp ts = some (d', ia') → Halts (fun f => segLoop m env e creation cs f true ts d' ia' c')
        { s with log := log1 ++ acts e pend ++ b.reverse.map .entry }) →
      Halts (fun f => segLoop m env e creation cs f true c d ia compl) s := by
    intro c ts d p tbl ia h b l pend log1 s compl hc hf hpc hpt hag hrec
    apply Halts.succ
    simp only [segLoop]
    refine Halts.bindc ?_
    rw [pushAct_wp, if_pos (by simpa using lim.segs)]
    rw [List.nil_append]
    refine Halts.bind (fun f => resolve_le f _ _ _) (resolve_halts_follows wf lim hf c rfl hag) fun f => ?_
    obtain ⟨hdt, hdg⟩ := wf.default c p tbl d ia h hc
    refine resolve_wp wf lim hin (fun _ => trivial) hag hdt (fun _ => ⟨hpc.isState, .inr (.inr hdg)⟩)
      (fun st ts' pend' log1' hfo hts hmi => ?_) (fun _ _ _ => trivial)
    obtain ⟨rfl, rfl, rfl⟩ := hf.det hfo
    obtain ⟨rfl, _⟩ := hmi rfl
    refine Halts.bind (fun f => stage4_le) (stage4_halts wf hcs hts _) fun f => ?_
    show wp (Eng.lift (addTarget m f ts (some st))) _ _ _
    have hcmp : some st = l.head? := by obtain ⟨r, rfl⟩ := hpc.cons; rfl
    rw [hcmp]
    rcases addTarget_path (f := f) hpt (lim.depth _ _ hpt) with hb | hb <;> rw [hb]
    · trivial
    · rw [wp_lift_ok]
      refine rest_halts (s := { s with log := log1 }) ?_ hrec
      intro c
      split
      · exact .inl rfl
      · exact .inr ⟨_, rfl⟩
  rcases h with ⟨v, log', h⟩ | ⟨r, log', h⟩
  · induction h with
    | leaf hl => intro s d ia compl hc; rw [comp_of_leaf hl] at hc; simp at hc
    | @composite c ts v d p tbl ia h b l pend log log1 log' hc hf hpc hpt _ ih =>
      intro s d' ia' compl hcomp hl hag
      rw [comp_of_composite hc] at hcomp
      simp only [Option.some.injEq, Prod.mk.injEq] at hcomp
      obtain ⟨rfl, rfl⟩ := hcomp
      subst hl
      exact round hc hf hpc hpt hag fun d' ia' c' hc' => ih hc' rfl hag
  · induction h with
    | @path c d p tbl ia h log log' r hc hst =>
      intro s d' ia' compl hcomp hl hag
      rw [comp_of_composite hc] at hcomp
      simp only [Option.some.injEq, Prod.mk.injEq] at hcomp
      obtain ⟨rfl, rfl⟩ := hcomp
      subst hl
      apply Halts.succ
      simp only [segLoop]
      refine Halts.bindc ?_
      rw [pushAct_wp, if_pos (by simpa using lim.segs)]
      rw [List.nil_append]
      refine Halts.bind (fun f => resolve_le f _ _ _) (resolve_halts_stuck wf lim hst c rfl hag) fun f => ?_
      obtain ⟨hdt, hdg⟩ := wf.default c p tbl d ia h hc
      refine resolve_wp wf lim hin (fun _ => trivial) hag hdt
        (fun _ => ⟨⟨p, by simp [Machine.parent, hc]⟩, .inr (.inr hdg)⟩)
        (fun st ts' pend' log1' hfo hts hmi => absurd hst hfo.not_stuck) (fun _ _ _ => trivial)
    | @later c ts d p tbl ia h b l pend log log1 log' r hc hf hpc hpt _ ih =>
      intro s d' ia' compl hcomp hl hag
      rw [comp_of_composite hc] at hcomp
      simp only [Option.some.injEq, Prod.mk.injEq] at hcomp
      obtain ⟨rfl, rfl⟩ := hcomp
      subst hl
      exact round hc hf hpc hpt hag fun d' ia' c' hc' => ih hc' rfl hag

theorem completes_cases {m : Machine} {env : Env} {e : Sig} {hist : Vid → Option Vid} {ts : Vid} {log : List Obs}
    {o : Outcome} {log' : List Obs} (h : Completes m env e hist ts log o log') :
    (∃ v log', DefaultEntry m env e hist ts log v log') ∨ ∃ r log', DefaultStuck m env e hist ts log r log' := by
  cases h with
  | ok h => exact .inl ⟨_, _, h⟩
  | failed h => exact .inr ⟨_, _, h⟩

theorem segExternal_halts {m : Machine} (wf : WellFormed m) (lim : Limits m) {env : Env} {e : Sig} {cs stn v : Vid}
    (hcs : IsLeaf m cs) (hv : IsTarget m v) {ta : Option Act} {s : Mem} {o : Outcome} {log' : List Obs}
    (hi : HistInv m s.hist s.log) (h : Continues m env e cs v ta.toList s.log o log') :
    Halts (fun f => segLoop m env e false cs f false stn v ta false) s := by
  apply Halts.succ
  simp only [segLoop]
  refine Halts.bindc ?_
  rw [pushAct_wp, if_pos (by simpa using lim.segs)]
  rw [List.nil_append]
  cases h with
  | stuck hst =>
    refine Halts.bind (fun f => resolve_le f _ _ _) (resolve_halts_stuck wf lim hst stn rfl (hi.agree wf)) fun f => ?_
    exact resolve_wp wf lim inside_histOf (fun _ => trivial) (hi.agree wf) hv (by simp)
      (fun st ts' pend' log1' hfo hts hmi => absurd hst hfo.not_stuck) (fun _ _ _ => trivial)
  | @moves ts pend log1 _ _ hf hg =>
    refine Halts.bind (fun f => resolve_le f _ _ _) (resolve_halts_follows wf lim hf stn rfl (hi.agree wf)) fun f => ?_
    refine resolve_wp wf lim inside_histOf (fun _ => trivial) (hi.agree wf) hv (by simp)
      (fun st ts' pend' log1' hfo hts hmi => ?_) (fun _ _ _ => trivial)
    obtain ⟨rfl, rfl, rfl⟩ := hf.det hfo
    refine Halts.bind (fun f => stage4_le) (stage4_halts wf hcs.isState hts _) fun f => ?_
    obtain ⟨l, lt, hl, hlt, hc⟩ := hg
    refine exits_sets wf lim hcs hl hlt (fun _ => trivial) (hi.ext hfo.ext) fun k hk => ?_
    refine rest_halts (s := { s with log := log1 ++ (exited l lt).map .exit, hist := k }) ?_ fun d ia c hcomp => ?_
    · intro c
      split
      · exact .inl rfl
      · exact .inr ⟨_, rfl⟩
    · exact segMicro_halts wf lim hcs.isState inside_histOf (completes_cases hc) hcomp rfl (hk.agree wf)

theorem segCreation_halts {m : Machine} (wf : WellFormed m) (lim : Limits m) {env : Env} {s : Mem} {o : Outcome}
    {log' : List Obs} (hi : HistInv m s.hist s.log) (h : Creates m env s.log o log') :
    Halts (fun f => segLoop m env sigCreation true m.istate f false m.istate m.istate m.iaction false) s := by
  obtain ⟨l, hl, hc⟩ := h
  apply Halts.succ
  simp only [segLoop]
  refine Halts.bindc ?_
  rw [pushAct_wp, if_pos (by simpa using lim.segs)]
  rw [List.nil_append]
  have hf : Follows m env sigCreation (histOf m s.log) m.istate m.iaction.toList s.log m.istate m.iaction.toList s.log :=
    .state wf.initial
  refine Halts.bind (fun f => resolve_le f _ _ _) (resolve_halts_follows wf lim hf m.istate rfl (hi.agree wf)) fun f => ?_
  refine resolve_wp wf lim inside_histOf (fun _ => trivial) (hi.agree wf) wf.initial.isTarget (by simp)
      (fun st ts' pend' log1' hfo hts hmi => ?_) (fun _ _ _ => trivial)
  obtain ⟨rfl, rfl, rfl⟩ := hfo.state_inv wf.initial
  refine Halts.bind (fun f => stage4_le) (stage4_halts wf wf.initial hts _) fun f => ?_
  show wp (Eng.lift (addTarget m f m.istate none)) _ _ _
  have hl' : Path m m.istate (l ++ []) := by simpa using hl
  rcases addTarget_path (f := f) hl' (lim.depth _ _ hl') with hb | hb
  · rw [show addTarget m f m.istate none = .stop .fuel from hb]; trivial
  · rw [show addTarget m f m.istate none = .ok l from hb, wp_lift_ok]
    refine rest_halts (s := s) ?_ fun d ia c hcomp => ?_
    · intro c
      split
      · exact .inl rfl
      · exact .inr ⟨_, rfl⟩
    · exact segMicro_halts wf lim wf.initial inside_histOf (completes_cases hc) hcomp rfl (hi.agree wf)

theorem compound_halts {m : Machine} (wf : WellFormed m) (lim : Limits m) {env : Env} {e : Sig} {cs : Vid} {s : Mem}
    (hs : Rep m s cs) {o : Outcome} {log' : List Obs} (h : Turn m env e cs s.log o log') :
    Halts (fun f => compound m env f e false) s := by
  obtain ⟨l, hl⟩ := wf.path cs hs.leaf.isState
  simp only [compound]
  refine Halts.bindc ?_
  rw [wp_get, hs.state]
  simp only
  refine Halts.bind (fun f => searchUp_le f _) (searchUp_halts hl s) fun f => ?_
  refine searchUp_wp hl (fun v t log1 hsel => ?_) (fun log1 hn => ?_) (fun _ => trivial)
  · simp only
    rcases ht : t.target with _ | w
    · simp only
      apply Halts.const
      rw [wp_bind, pushAct_wp, if_pos (by simpa using lim.segs), wp_bind, exec_wp]
      trivial
    · simp only
      cases h with
      | none hl' hn => rw [hl'.unique hl] at hn; exact absurd hn (selected_none hsel)
      | taken hl' hsel' htk =>
        rw [hl'.unique hl] at hsel'
        obtain ⟨rfl, rfl, rfl⟩ := selected_det hsel hsel'
        cases htk with
        | internal hi => rw [ht] at hi; simp at hi
        | external hw hcont =>
          rw [ht] at hw
          simp only [Option.some.injEq] at hw
          subst hw
          have hi1 : HistInv m s.hist log1 := hs.hist.ext (selected_ext hsel)
          refine Halts.bind (fun f => segLoop_le f _ _ _ _ _)
            (segExternal_halts wf lim (s := { s with log := log1 }) hs.leaf (wf.selTarget hsel ht) hi1 hcont) fun f => ?_
          refine segExternal_wp wf lim hs.leaf hl (wf.selTarget hsel ht) (fun _ => trivial) hi1
            (fun ts pend log2 x lv log' k hfo hg hleaf hlv hk => ?_) (fun _ _ _ => trivial) (fun _ _ _ _ _ _ _ _ _ => trivial)
          refine Halts.bind (fun f => finish_le) (finish_halts hlv _) fun f => ?_
          exact finish_wp wf hlv (fun _ => trivial) hk fun k' hk' => Halts.pure _ _
  · exact Halts.const (show Stop.rc .evtNFound ≠ .fuel by simp)

theorem create_halts {m : Machine} (wf : WellFormed m) (lim : Limits m) {env : Env} {s : Mem}
    (hi : HistInv m s.hist s.log) {o : Outcome} {log' : List Obs} (h : Creates m env s.log o log') :
    Halts (fun f => compound m env f sigCreation true) s := by
  obtain ⟨l, hl⟩ := wf.path m.istate wf.initial
  simp only [compound]
  refine Halts.bind (fun f => segLoop_le f _ _ _ _ _) (segCreation_halts wf lim hi h) fun f => ?_
  refine segCreation_wp wf lim hl (fun _ => trivial) hi (fun w log' hde hk => ?_) (fun _ _ _ _ => trivial)
  obtain ⟨_, lv, _, _, hleaf, hlv, _⟩ := hde.facts hl
  refine Halts.bind (fun f => finish_le) (finish_halts hlv _) fun f => ?_
  exact finish_wp wf hlv (fun _ => trivial) hk fun k' hk' => Halts.pure _ _

theorem passes_halts {m : Machine} (wf : WellFormed m) (lim : Limits m) {env : Env} {e : Sig} {cs cs' : Vid}
    {log log' : List Obs} {r : Ans Unit} (h : Dispatches m env e cs log cs' log' r) : ∀ {s : Mem}, s.log = log → Rep m s cs →
    Halts (fun f => passes m env f e false) s := by
  have step : ∀ {e : Sig} {cs : Vid} {s : Mem} {o : Outcome} {log1 : List Obs}, Rep m s cs → Turn m env e cs s.log o log1 →
      (∀ s' w, o = .ok w → CompletionDue m w → s'.log = log1 → Rep m s' w →
        Halts (fun f => passes m env f sigCompletion false) s') → Halts (fun f => passes m env f e false) s := by
    intro e cs s o log1 hs ht hrec
    apply Halts.succ
    simp only [passes]
    refine Halts.bind (fun f => compound_le) (compound_halts wf lim hs ht) fun f => ?_
    refine compound_turn wf lim hs (fun _ => trivial) (fun log' ht' hk => Halts.pure _ _) (fun s' w ht' hrep _ => ?_)
      (fun _ _ _ _ _ => trivial)
    obtain ⟨rfl, hlog⟩ := ht.det ht'
    cases hc : isCompletion m w with
    | false => exact Halts.pure _ _
    | true => exact hrec s' w rfl (isCompletion_iff.1 hc) hlog.symm hrep
  induction h with
  | internal ht => intro s hl hs; subst hl; exact step hs ht fun s' w ho => by simp at ho
  | failed ht => intro s hl hs; subst hl; exact step hs ht fun s' w ho => by simp at ho
  | ok ht hnc =>
    intro s hl hs
    subst hl
    refine step hs ht fun s' w ho hc => ?_
    simp only [Outcome.ok.injEq] at ho
    subst ho
    exact absurd hc hnc
  | completion ht hc _ ih =>
    intro s hl hs
    subst hl
    refine step hs ht fun s' w ho _ hlog hrep => ?_
    simp only [Outcome.ok.injEq] at ho
    subst ho
    exact ih hlog hrep

theorem init_halts {m : Machine} (wf : WellFormed m) (lim : Limits m) {env : Env} {cs' : Vid} {log' : List Obs}
    {r : Ans Unit} {s : Mem} (hi : HistInv m s.hist s.log) (h : Inits m env s.log cs' log' r) :
    Halts (fun f => init m env f) s := by
  have step : ∀ {o : Outcome} {log1 : List Obs}, Creates m env s.log o log1 →
      (∀ s' w, o = .ok w → CompletionDue m w → s'.log = log1 → Rep m s' w →
        Halts (fun f => passes m env f sigCompletion false) s') → Halts (fun f => passes m env f sigCreation true) s := by
    intro o log1 ht hrec
    apply Halts.succ
    simp only [passes]
    refine Halts.bind (fun f => compound_le) (create_halts wf lim hi ht) fun f => ?_
    refine compound_create wf lim hi (fun _ => trivial) (fun s' w ht' hrep => ?_) (fun _ _ _ _ => trivial)
    obtain ⟨l, hl, hc⟩ := ht
    obtain ⟨l', hl', hc'⟩ := ht'
    have := hl.unique hl'
    subst this
    obtain ⟨rfl, hlog⟩ := hc.det hc'
    cases hc : isCompletion m w with
    | false => exact Halts.pure _ _
    | true => exact hrec s' w rfl (isCompletion_iff.1 hc) hlog.symm hrep
  show Halts (fun f => passes m env f sigCreation true) s
  cases h with
  | failed ht => exact step ht fun s' w ho => by simp at ho
  | ok ht hnc =>
    refine step ht fun s' w ho hc => ?_
    simp only [Outcome.ok.injEq] at ho
    subst ho
    exact absurd hc hnc
  | completion ht hc hd =>
    refine step ht fun s' w ho _ hlog hrep => ?_
    simp only [Outcome.ok.injEq] at ho
    subst ho
    exact passes_halts wf lim hd hlog hrep

end Verif.SM
