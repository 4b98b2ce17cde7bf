import Verif.Subm.Lemmas3
import Verif.SM.Memory
namespace Verif.Subm
open Spec
open SM (Vid Sig Act Guard Tr Obs Env RC Stop Ans sigAny sigCompletion sigCreation)

variable {m : Machine} {N : Nat} {home : Vid → Option Vid} {rank : Option Vid → Nat} {D : Vid → Option Vid}

/-! ## Default transitions -/

theorem parent_default (P : Proper m N home rank) {v d : Vid} {p : Option Vid} {t : List Tr} {a : Option Act} (hv : m.vert v = some (.composite p t d a)) :
    isState m d = true ∧ m.parent d = some (some v) ∧ home d = home v ∧ ∀ c, (inserted m N).parent (occ N c d) = some (some (occ N c v)) := by
  have hok := P.ok _ _ hv
  simp only [okVertex, Bool.and_eq_true, beq_iff_eq] at hok
  obtain ⟨⟨_, hs⟩, hp⟩ := hok
  have hlt := isState_lt P hs
  refine ⟨hs, hp, ?_, ?_⟩
  · rcases isState_cases hs with ⟨q, u, hd⟩ | ⟨q, u, d', a', hd⟩ | ⟨q, hd⟩ <;>
    · have hok := P.ok _ _ hd
      simp [Machine.parent, hd] at hp
      subst hp
      simp [okVertex, okParent, hv] at hok
      first | exact hok.1.symm | exact hok.1.1.1.symm | exact hok.symm
  · intro c
    unfold SM.Machine.parent
    rw [vert_occ hlt]
    rcases isState_cases hs with ⟨q, u, hd⟩ | ⟨q, u, d', a', hd⟩ | ⟨q, hd⟩ <;>
    · simp [Machine.parent, hd] at hp
      subst hp
      simp [copy, hd, Spec.parent, hv]

theorem addTarget_state {v : Vid} (h : isState m v = true) (f : Nat) (cmp : Option Vid) : addTarget m f v cmp = addTargetLoop m cmp f (some v) [] := by
  unfold addTarget
  rcases isState_cases h with ⟨q, u, hd⟩ | ⟨q, u, d', a', hd⟩ | ⟨q, hd⟩ <;> simp [hd]

theorem addTarget_copy {v : Vid} (P : Proper m N home rank) (h : isState m v = true) (f c : Nat) (cmp : Option Vid) :
    SM.addTarget (inserted m N) f (occ N c v) cmp = SM.addTargetLoop (inserted m N) cmp f (some (occ N c v)) [] := by
  unfold SM.addTarget
  rw [vert_occ (isState_lt P h)]
  rcases isState_cases h with ⟨q, u, hd⟩ | ⟨q, u, d', a', hd⟩ | ⟨q, hd⟩ <;> simp [copy, hd]

theorem addTarget_default (P : Proper m N home rank) {v d : Vid} {p : Option Vid} {t : List Tr} {a : Option Act} (hv : m.vert v = some (.composite p t d a))
    {c : Nat} (hc : Ctx m N home D c (home v)) (f : Nat) :
    (∀ r, SM.addTarget (inserted m N) f (occ N c d) (some (occ N c v)) = .ok r →
      addTarget m f d (some v) = .ok (r.map (vtx N)) ∧ (r = [] ∨ r = [occ N c d])) ∧
    ∀ r, SM.addTarget (inserted m N) f (occ N c d) (some (occ N c v)) ≠ .stop (.rc r) := by
  obtain ⟨hs, hp, hh, hq⟩ := parent_default P hv
  have hlt := isState_lt P hs
  have hvlt := P.small _ _ hv
  rw [addTarget_state hs, addTarget_copy P hs]
  have heq : (occ N c d = occ N c v) ↔ d = v := ⟨fun h => (occ_inj hlt hvlt h).2, fun h => by rw [h]⟩
  match f with
  | 0 => exact ⟨fun r h => (by cases h), fun r h => (by cases h)⟩
  | 1 =>
    unfold SM.addTargetLoop addTargetLoop
    simp only [Option.some.injEq, heq, List.length_nil]
    by_cases e : d = v
    · simp only [if_pos e]
      exact ⟨fun r h => (by cases h; exact ⟨rfl, .inl rfl⟩), fun r h => (by cases h)⟩
    · simp only [if_neg e]
      show (∀ r, (if 0 < m.maxDepth then _ else _) = _ → _) ∧ (∀ r, (if 0 < m.maxDepth then _ else _) ≠ _)
      by_cases hd : 0 < m.maxDepth
      · simp only [if_pos hd, hq, hp]
        exact ⟨fun r h => (by cases h), fun r h => (by cases h)⟩
      · simp only [if_neg hd]
        exact ⟨fun r h => (by cases h), fun r h => (by cases h)⟩
  | f + 2 =>
    unfold SM.addTargetLoop addTargetLoop
    simp only [Option.some.injEq, heq, List.length_nil]
    by_cases e : d = v
    · simp only [if_pos e]
      exact ⟨fun r h => (by cases h; exact ⟨rfl, .inl rfl⟩), fun r h => (by cases h)⟩
    · simp only [if_neg e]
      show (∀ r, (if 0 < m.maxDepth then _ else _) = _ → _) ∧ (∀ r, (if 0 < m.maxDepth then _ else _) ≠ _)
      by_cases hd : 0 < m.maxDepth
      · simp only [if_pos hd, hq, hp, SM.addTargetLoop, addTargetLoop, if_true]
        exact ⟨fun r h => (by cases h; exact ⟨by simp [vtx_occ hlt], .inr rfl⟩), fun r h => (by cases h)⟩
      · simp only [if_neg hd]
        exact ⟨fun r h => (by cases h), fun r h => (by cases h)⟩

/-- The end of a compound transition. -/
def SameEnd (m : Machine) (N : Nat) (home : Vid → Option Vid) (D : Vid → Option Vid) (c : Nat) : (Vid → Option Vid) → Vid × Bool → Vid × Bool → Prop :=
  fun D' a b => D' = D ∧ a.2 = b.2 ∧ a.1 = vtx N b.1 ∧ Occ m N home D b.1 ∧ ctx N b.1 = c

theorem comp_copy (P : Proper m N home rank) {v : Vid} (h : isState m v = true) (c : Nat) :
    (inserted m N).comp (occ N c v) = (m.comp v).map fun q => (target m N c q.1, q.2) := by
  unfold SM.Machine.comp Machine.comp
  rw [vert_occ (isState_lt P h)]
  rcases isState_cases h with ⟨q, u, hd⟩ | ⟨q, u, d', a', hd⟩ | ⟨q, hd⟩ <;> simp [copy, hd]

theorem comp_iff {v d : Vid} {a : Option Act} (h : m.comp v = some (d, a)) : ∃ p t, m.vert v = some (.composite p t d a) := by
  unfold Machine.comp at h
  cases hv : m.vert v with
  | none => simp [hv] at h
  | some x => cases x <;> simp [hv] at h; obtain ⟨rfl, rfl⟩ := h; exact ⟨_, _, rfl⟩

/-- Entering the states found, and the default transitions. -/
theorem Sim.tail (P : Proper m N home rank) {E : Vid → Option Vid} (env : Env) (e : Sig) (cr : Bool) (cs cs' : Vid) (f : Nat) {v : Vid} {c : Nat} (hs : isState m v = true)
    (hc : Ctx m N home D c (home v)) (al : List Act) (compl : Bool) {ent : List Vid} (ho : ∀ o ∈ ent, Occ m N home D o) (hh : Heads (occ N c v) ent)
    (ih : ∀ {v d : Vid} {p : Option Vid} {t : List Tr} {a : Option Act} (compl : Bool), m.vert v = some (.composite p t d a) → Ctx m N home D c (home v) →
      Sim N D E (segLoop m env e cr cs f true v d a compl) (SM.segLoop (inserted m N) (seenBy N env) e cr cs' f true (occ N c v) (occ N c d) a compl)
        (SameEnd m N home D c)) :
    Sim N D E
      (Subm.exec e al >>= fun _ => Subm.enter m (ent.map (vtx N)).reverse compl >>= fun b =>
        match m.comp v with
        | some (d, ia) => segLoop m env e cr cs f true v d ia b
        | none =>
          match (generalizing := false) ent.map (vtx N) with
          | [] => Eng.stop .ub
          | s :: _ => (Pure.pure (s, b) : Eng _))
      (SM.exec e al >>= fun _ => SM.enter (inserted m N) ent.reverse compl >>= fun b =>
        match (inserted m N).comp (occ N c v) with
        | some (d, ia) => SM.segLoop (inserted m N) (seenBy N env) e cr cs' f true (occ N c v) d ia b
        | none =>
          match (generalizing := false) ent with
          | [] => SM.Eng.stop .ub
          | s :: _ => (Pure.pure (s, b) : SM.Eng _))
      (SameEnd m N home D c) := by
  have hlt := isState_lt P hs
  refine (Sim.exec e al).bind ?_
  rintro D1 _ _ ⟨hD, _⟩
  rw [hD, ← List.map_reverse]
  refine (Sim.enter P ent.reverse compl fun o h => ho o (List.mem_reverse.mp h)).bind ?_
  rintro D2 b b' ⟨hD2, hb⟩
  rw [hD2, hb, comp_copy P hs]
  cases hcomp : m.comp v with
  | some q =>
    obtain ⟨d, a⟩ := q
    obtain ⟨p, t, hv⟩ := comp_iff hcomp
    simp only [Option.map_some]
    rw [target_state (parent_default P hv).1]
    exact ih b' hv hc
  | none =>
    simp only [Option.map_none]
    cases ent with
    | nil => exact Sim.bad (by simp)
    | cons s l =>
      have : s = occ N c v := by
        rcases hh with h | h
        · cases h
        · simpa using h
      subst this
      exact Sim.pure ⟨rfl, rfl, rfl, Occ.mk' hlt hc, ctx_occ hlt⟩

theorem Sim.micro (P : Proper m N home rank) (hA : m.assertEn = true) {E : Vid → Option Vid} (env : Env) (e : Sig) (cr : Bool) (cs cs' : Vid) {c : Nat} :
    ∀ f {v d : Vid} {p : Option Vid} {t : List Tr} {a : Option Act} (compl : Bool), m.vert v = some (.composite p t d a) → Ctx m N home D c (home v) →
      Sim N D E (segLoop m env e cr cs f true v d a compl) (SM.segLoop (inserted m N) (seenBy N env) e cr cs' f true (occ N c v) (occ N c d) a compl)
        (SameEnd m N home D c) := by
  intro f
  induction f with
  | zero => exact fun _ _ _ => Sim.bad (by simp)
  | succ f ih =>
    intro v d p t a compl hv hc
    obtain ⟨hs, hp, hh, hq⟩ := parent_default P hv
    have hlt := isState_lt P hs
    unfold segLoop SM.segLoop
    refine (Sim.pushAct hA [] a).bind ?_
    rintro D1 al al' ⟨hD, rfl⟩
    rw [hD]
    cases f with
    | zero =>
      intro s t hd hl
      exact ⟨fun t' b h => (by cases h), fun t' b h => (by cases h)⟩
    | succ f =>
      rw [resolve_state hs, resolve_copy P hs]
      refine Sim.bind (Q := fun D' x y => D' = D ∧ x = (d, al) ∧ y = (occ N c v, occ N c d, al)) (Sim.pure ⟨rfl, rfl, rfl⟩) ?_
      rintro D2 _ _ ⟨hD2, rfl, rfl⟩
      rw [hD2]
      obtain ⟨h1, h2⟩ := addTarget_default P hv hc (f + 1)
      refine Sim.bind (Q := fun D' x y => D' = D ∧ x = y.map (vtx N) ∧ (y = [] ∨ y = [occ N c d])) (Sim.lift ?_ h2) ?_
      · intro r hr
        exact ⟨_, (h1 r hr).1, rfl, rfl, (h1 r hr).2⟩
      · rintro D3 _ ent ⟨hD3, rfl, hent⟩
        rw [hD3]
        refine Sim.tail P env e cr cs cs' (f + 1) hs (hh ▸ hc) al compl (ent := ent) ?_ ?_ ih
        · intro o ho
          rcases hent with h | h
          · rw [h] at ho; cases ho
          · rw [h] at ho
            rw [List.mem_singleton.mp ho]
            exact Occ.mk' hlt (hh ▸ hc)
        · rcases hent with h | h
          · exact .inl h
          · right; rw [h]; rfl

end Verif.Subm
