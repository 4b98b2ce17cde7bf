import Verif.Subm.Lemmas
namespace Verif.Subm
open Spec
open SM (Vid Sig Act Guard Tr Obs Env RC Stop Ans sigAny sigCompletion sigCreation)

variable {m : Machine} {N : Nat} {home : Vid → Option Vid} {rank : Option Vid → Nat} {D : Vid → Option Vid}

theorem Within.trans {o s s' : Vid} (h : Within N o s') (h' : Within N s' s) : Within N o s := by
  induction h with
  | here h1 => exact .out h1 h'
  | out h1 _ ih => exact .out h1 (ih h')

/-- Only submachines around the new state are written. -/
def Entered (m : Machine) (N : Nat) (D D' : Vid → Option Vid) (o : Vid) : Prop :=
  ∀ M, D' M = D M ∨ ∃ s, Within N o s ∧ sbm m (vtx N s) = some M ∧ D' M = some (vtx N s)

theorem Entered.refl (o : Vid) : Entered m N D D o := fun _ => .inl rfl

theorem Entered.step {D' : Vid → Option Vid} {o : Vid} {c : Nat} {v M : Vid} {p : Option Vid} {t : List Tr} {x : List (Option Act × Vid)}
    (hv : v < N) (hm : m.vert v = some (.subm p t x M)) (hw : Within N o (occ N c v)) (h : Entered m N (setDyp D M v) D' o) :
    Entered m N D D' o := by
  intro M'
  rcases h M' with h | h
  · by_cases e : M' = M
    · subst e
      exact .inr ⟨_, hw, by rw [vtx_occ hv]; simp [sbm, hm], by rw [vtx_occ hv, h]; simp [setDyp]⟩
    · left
      rw [h]; simp [setDyp, e]
  · exact .inr h

/-- Relation between the targets found. -/
def SameTarget (m : Machine) (N : Nat) (home : Vid → Option Vid) (D : Vid → Option Vid) :
    (Vid → Option Vid) → Vid × List Act → Vid × Vid × List Act → Prop := fun D' a b =>
  a.2 = b.2.2 ∧ a.1 = vtx N b.2.1 ∧ Occ m N home D' b.2.1 ∧ isState m a.1 = true ∧ Entered m N D D' b.2.1

theorem takeBranch_junction (U : SM.Machine) (env : Env) (e : Sig) (a : Option Act) (t : Vid) (al : List Act) (s : SM.Mem) :
    SM.takeBranch U env e [⟨0, some .els, a, some t⟩] al s = (SM.pushAct U al a >>= fun al => (pure (t, al) : SM.Eng _)) s := by
  unfold SM.takeBranch
  rfl

theorem resolve_junction {U : SM.Machine} (env : Env) (e : Sig) {o t : Vid} {a : Option Act} (h : U.vert o = some (junction a t)) (f : Nat) (stn : Vid) (al : List Act) :
    SM.resolve U env e false (f + 1) stn o al = (SM.pushAct U al a >>= fun al => SM.resolve U env e false f stn t al) := by
  funext s
  conv => lhs; unfold SM.resolve
  simp only [h, junction]
  show SM.Eng.bind (SM.takeBranch U env e _ al) _ s = SM.Eng.bind _ _ s
  unfold SM.Eng.bind
  rw [takeBranch_junction]
  have hb : (SM.pushAct U al a >>= fun al => (pure (t, al) : SM.Eng _)) s = match SM.pushAct U al a s with
      | (s1, .ok l) => (s1, .ok (t, l))
      | (s1, .stop c) => (s1, .stop c) := by
    show SM.Eng.bind _ _ s = _
    unfold SM.Eng.bind
    cases SM.pushAct U al a s with
    | mk s1 r => cases r <;> rfl
  rw [hb]
  cases hp : SM.pushAct U al a s with
  | mk s1 r =>
    cases r with
    | stop c => rfl
    | ok l => rfl

theorem Sim.setDyp {α β : Type} {E : Vid → Option Vid} {Q : (Vid → Option Vid) → α → β → Prop} {k : Unit → Eng α} {y : SM.Eng β} {M v : Vid}
    (h : Sim N (setDyp D M v) E (k ()) y Q) : Sim N D E (Eng.modify (fun mem => { mem with dyp := Subm.setDyp mem.dyp M v }) >>= k) y Q := by
  intro s t hd hl
  obtain ⟨h1, h2⟩ := h { s with dyp := Subm.setDyp s.dyp M v } t (by rw [hd]) hl
  constructor
  · intro t' b he
    obtain ⟨s', a, k1, k2, k3⟩ := h1 t' b he
    exact ⟨s', a, k1, k2, k3.here, k3.there, k3.log⟩
  · intro t' c he
    obtain ⟨s', k1, k2, k3⟩ := h2 t' c he
    exact ⟨s', k1, k2, k3.here, k3.there, k3.log⟩

theorem isState_cases {v : Vid} (h : isState m v = true) : (∃ p t, m.vert v = some (.basic p t)) ∨ (∃ p t d a, m.vert v = some (.composite p t d a)) ∨
    ∃ p, m.vert v = some (.final p) := by
  unfold isState at h
  cases hv : m.vert v with
  | none => simp [hv] at h
  | some x => cases x <;> simp_all

theorem target_state {v : Vid} (h : isState m v = true) (c : Nat) : target m N c v = occ N c v := by
  unfold target
  rcases isState_cases h with ⟨p, t, hv⟩ | ⟨p, t, d, a, hv⟩ | ⟨p, hv⟩ <;> simp [hv]

theorem resolve_state {v : Vid} (h : isState m v = true) (env : Env) (e : Sig) (micro : Bool) (stn : Vid) (f : Nat) (al : List Act) :
    resolve m env e micro stn (f + 1) v al = pure (v, al) := by
  unfold resolve
  rcases isState_cases h with ⟨p, t, hv⟩ | ⟨p, t, d, a, hv⟩ | ⟨p, hv⟩ <;> simp [hv]

theorem resolve_copy {v : Vid} (P : Proper m N home rank) (h : isState m v = true) (env : Env) (e : Sig) (micro : Bool) (stn : Vid) (f c : Nat) (al : List Act) :
    SM.resolve (inserted m N) env e micro (f + 1) stn (occ N c v) al = pure (stn, occ N c v, al) := by
  unfold SM.resolve
  rcases isState_cases h with ⟨p, t, hv⟩ | ⟨p, t, d, a, hv⟩ | ⟨p, hv⟩ <;> simp [vert_occ (P.small _ _ hv), copy, hv]

theorem isState_lt {v : Vid} (P : Proper m N home rank) (h : isState m v = true) : v < N := by
  rcases isState_cases h with ⟨p, t, hv⟩ | ⟨p, t, d, a, hv⟩ | ⟨p, hv⟩ <;> exact P.small _ _ hv

theorem isEntrance_cases {v : Vid} (h : isEntrance m v = true) : isState m v = true ∨ ∃ p t x M, m.vert v = some (.subm p t x M) := by
  unfold isEntrance at h
  split at h
  · next x => exact .inr ⟨_, _, _, _, x⟩
  · exact .inl h

theorem sub_ok {v M : Vid} {p : Option Vid} {t : List Tr} {x : List (Option Act × Vid)} (P : Proper m N home rank)
    (hv : m.vert v = some (.subm p t x M)) : okParent m home v p = true ∧ okTrs m home v t = true ∧ (∀ q ∈ x, okTarget m home v q.2 = true) ∧
      rank (home v) < rank (some M) ∧ ∃ d a, m.vert M = some (.ref d a) ∧ home d = some M ∧ isEntrance m d = true := by
  have := P.ok _ _ hv
  simp only [okVertex, Bool.and_eq_true, decide_eq_true_eq, List.all_eq_true] at this
  obtain ⟨⟨⟨⟨h1, h2⟩, h3⟩, h4⟩, h5⟩ := this
  refine ⟨h1, h2, h3, h4, ?_⟩
  cases hM : m.vert M with
  | none => simp [hM] at h5
  | some y =>
    cases y with
    | ref d a =>
      simp only [hM, Bool.and_eq_true, beq_iff_eq] at h5
      exact ⟨d, a, rfl, h5.1, h5.2⟩
    | _ => simp [hM] at h5

/-- The context that is entered. -/
theorem ctx_enter {c : Nat} {v M : Vid} {p : Option Vid} {t : List Tr} {x : List (Option Act × Vid)} (P : Proper m N home rank)
    (hv : m.vert v = some (.subm p t x M)) (hc : Ctx m N home D c (home v)) : Ctx m N home (setDyp D M v) (occ N c v + 1) (some M) :=
  .sub (ctx_set P hc (sub_ok P hv).2.2.2.1) (P.small _ _ hv) hv (by simp [setDyp])

theorem Sim.resolveIn (P : Proper m N home rank) (hA : m.assertEn = true) {E : Vid → Option Vid} (env : Env) (e : Sig) (stn stn' : Vid) :
    ∀ f {D : Vid → Option Vid} {c : Nat} {v : Vid} (al : List Act), isEntrance m v = true → Ctx m N home D c (home v) →
    Sim N D E (resolve m env e false stn f v al) (SM.resolve (inserted m N) (seenBy N env) e false f stn' (target m N c v) al)
      (fun D' a b => SameTarget m N home D D' a b ∧ (ctx N b.2.1 = c ∨ ∀ s, c = s + 1 → Within N b.2.1 s)) := by
  intro f
  induction f with
  | zero => exact fun _ _ _ => Sim.bad (by simp)
  | succ f ih =>
    intro D c v al hv hc
    rcases isEntrance_cases hv with hs | ⟨p, t, x, M, hm⟩
    · rw [target_state hs, resolve_state hs, resolve_copy P hs]
      have hlt := isState_lt P hs
      exact Sim.pure ⟨⟨rfl, (vtx_occ hlt).symm, Occ.mk' hlt hc, hs, .refl _⟩, .inl (ctx_occ hlt)⟩
    · obtain ⟨_, _, _, hr, d, a, hM, hd, hent⟩ := sub_ok P hm
      have hlt := P.small _ _ hm
      have htg : target m N c v = border N c v := by simp [target, hm]
      rw [htg, resolve_junction (a := a) (t := target m N (occ N c v + 1) d) _ _ (by rw [vert_border hlt]; simp [atBorder, hm, hM])]
      unfold resolve
      simp only [hm, hM]
      refine Sim.setDyp ((Sim.pushAct hA al a).bind ?_)
      rintro D1 l l' ⟨rfl, rfl⟩
      refine (ih l hent (hd ▸ ctx_enter P hm hc)).post ?_
      rintro D' r r' ⟨⟨h1, h2, h3, h4, h5⟩, h6⟩
      have hw : Within N r'.2.1 (occ N c v) := by
        rcases h6 with h | h
        · exact .here h
        · exact h _ rfl
      refine ⟨⟨h1, h2, h3, h4, h5.step hlt hm hw⟩, .inr ?_⟩
      intro s hs
      exact Within.trans hw (.here (by rw [ctx_occ hlt]; exact hs))

/-- The relation between branches. -/
theorem Sim.takeBranch (hA : m.assertEn = true) (env : Env) (e : Sig) (c : Nat) (l : List Tr) (al : List Act) :
    Sim N D D (takeBranch m env e l al) (SM.takeBranch (inserted m N) (seenBy N env) e (trs m N c l) al)
      (fun D' a b => D' = D ∧ a.2 = b.2 ∧ b.1 = target m N c a.1 ∧ ∃ t ∈ l, t.target = some a.1) := by
  refine (Sim.findBranch env e c l).bind ?_
  rintro D1 a b ⟨hD, hab⟩
  rw [hD]
  cases a with
  | none =>
    cases b with
    | some _ => exact hab.elim
    | none =>
      intro s t hd hl
      constructor
      · intro t' b he; cases he
      · intro t' c' he
        cases he
        exact ⟨s, rfl, hd, .refl _ _⟩
  | some tr =>
    cases b with
    | none => exact hab.elim
    | some tr' =>
      obtain ⟨hmem, rfl⟩ := hab
      refine (Sim.pushAct hA al tr.action).bind ?_
      rintro D2 a2 b2 ⟨rfl, rfl⟩
      cases ht : tr.target with
      | none => exact Sim.bad (by simp)
      | some v => exact Sim.pure ⟨rfl, rfl, rfl, tr, hmem, ht⟩

theorem okTrs_mem {v w : Vid} {l : List Tr} {t : Tr} (h : okTrs m home v l = true) (ht : t ∈ l) (hw : t.target = some w) : okTarget m home v w = true := by
  have := List.all_eq_true.mp h t ht
  simpa [hw] using this

theorem okTarget_iff {v t : Vid} (h : okTarget m home v t = true) : home t = home v ∧ ∃ x, m.vert t = some x ∧ ∀ d a, x ≠ .ref d a := by
  unfold okTarget at h
  simp only [Bool.and_eq_true, beq_iff_eq] at h
  refine ⟨h.1, ?_⟩
  cases hv : m.vert t with
  | none => simp [hv] at h
  | some x =>
    refine ⟨x, rfl, ?_⟩
    rintro d a rfl
    simp [hv] at h

theorem Sim.resolve (P : Proper m N home rank) (hA : m.assertEn = true) (env : Env) (e : Sig) (stn stn' : Vid) :
    ∀ f {c : Nat} {v : Vid} (al : List Act), (∃ x, m.vert v = some x ∧ ∀ d a, x ≠ .ref d a) → Ctx m N home D c (home v) →
    Sim N D D (resolve m env e false stn f v al) (SM.resolve (inserted m N) (seenBy N env) e false f stn' (target m N c v) al)
      (SameTarget m N home D) := by
  intro f
  induction f with
  | zero => exact fun _ _ _ => Sim.bad (by simp)
  | succ f ih =>
    intro c v al ⟨x, hv, hnr⟩ hc
    have hlt := P.small _ _ hv
    have hok := P.ok _ _ hv
    have entr : isEntrance m v = true → Sim N D D (Subm.resolve m env e false stn (f + 1) v al)
        (SM.resolve (inserted m N) (seenBy N env) e false (f + 1) stn' (target m N c v) al) (SameTarget m N home D) :=
      fun h => (Sim.resolveIn P hA env e stn stn' (f + 1) al h hc).post fun _ _ _ h => h.1
    have step : ∀ (l : List Tr) (al : List Act), okTrs m home v l = true →
        Sim N D D (Subm.takeBranch m env e l al >>= fun r => precheck m f false r.1 stn >>= fun _ => Subm.resolve m env e false stn f r.1 r.2)
          (SM.takeBranch (inserted m N) (seenBy N env) e (trs m N c l) al >>= fun r => SM.precheck (inserted m N) f false r.1 stn' >>= fun _ =>
            SM.resolve (inserted m N) (seenBy N env) e false f stn' r.1 r.2) (SameTarget m N home D) := by
      intro l al hl
      refine (Sim.takeBranch hA env e c l al).bind ?_
      rintro D1 ⟨w, al1⟩ ⟨w', al1'⟩ ⟨hD, rfl, hw, t, ht, htw⟩
      simp only at hw htw
      rw [hD, hw]
      refine Sim.bind (Q := fun D' _ _ => D' = D) (Sim.pure rfl) ?_
      rintro D2 _ _ hD2
      rw [hD2]
      obtain ⟨h1, h2⟩ := okTarget_iff (okTrs_mem hl ht htw)
      exact ih al1 h2 (h1 ▸ hc)
    cases x with
    | basic p t => exact entr (by simp [isEntrance, isState, hv])
    | composite p t d a => exact entr (by simp [isEntrance, isState, hv])
    | final p => exact entr (by simp [isEntrance, isState, hv])
    | subm p t x M => exact entr (by simp [isEntrance, hv])
    | ref d a => exact absurd rfl (hnr d a)
    | cond l =>
      have htg : target m N c v = occ N c v := by simp [target, hv]
      rw [htg]
      unfold Subm.resolve SM.resolve
      simp only [vert_occ hlt, copy, hv]
      exact step l al hok
    | choice l =>
      have htg : target m N c v = occ N c v := by simp [target, hv]
      rw [htg]
      unfold Subm.resolve SM.resolve
      simp only [vert_occ hlt, copy, hv]
      refine (Sim.exec e al).bind ?_
      rintro D1 _ _ ⟨rfl, _⟩
      exact step l [] hok
    | enpnt a t par =>
      have htg : target m N c v = occ N c v := by simp [target, hv]
      simp only [okVertex, Bool.and_eq_true, beq_iff_eq] at hok
      obtain ⟨hh, hok⟩ := hok
      cases hpar : m.vert par with
      | none => simp [hpar] at hok
      | some y =>
        cases y with
        | subm p tt x M =>
          simp only [hpar, Bool.and_eq_true, beq_iff_eq] at hok
          have hplt := P.small _ _ hpar
          rw [htg, resolve_junction (a := a) (t := target m N (occ N c par + 1) t) _ _ (by rw [vert_occ hlt]; simp [copy, hv])]
          unfold Subm.resolve
          simp only [hv, hpar]
          refine Sim.setDyp ((Sim.pushAct hA al a).bind ?_)
          rintro D1 l l' ⟨rfl, rfl⟩
          refine (Sim.resolveIn P hA env e stn stn' f l hok.2 (hok.1 ▸ ctx_enter P hpar (hh ▸ hc))).post ?_
          rintro D' r r' ⟨⟨h1, h2, h3, h4, h5⟩, h6⟩
          have hw : Within N r'.2.1 (occ N c par) := by
            rcases h6 with h | h
            · exact .here h
            · exact h _ rfl
          exact ⟨h1, h2, h3, h4, h5.step hplt hpar hw⟩
        | _ => simp [hpar] at hok
    | expnt ix par =>
      have htg : target m N c v = occ N c v := by simp [target, hv]
      simp only [okVertex, beq_iff_eq] at hok
      rw [hok] at hc
      obtain ⟨c', w, p, t, x, rfl, k1, k2, k3, k4⟩ := ctx_some hc
      cases hx : x[ix]? with
      | none =>
        rw [htg]
        have : (inserted m N).vert (occ N (occ N c' w + 1) v) = none := by
          rw [vert_occ hlt]; simp [copy, hv, vtx_occ k2, k3, hx]
        unfold SM.resolve
        rw [this]
        exact Sim.bad (by simp)
      | some q =>
        obtain ⟨a, tt⟩ := q
        rw [htg, resolve_junction (a := a) (t := target m N c' tt) _ _ (by rw [vert_occ hlt]; simp [copy, hv, vtx_occ k2, ctx_occ k2, k3, hx])]
        have hmem : (a, tt) ∈ x := List.mem_of_getElem? hx
        obtain ⟨h1, h2⟩ := okTarget_iff ((sub_ok P k3).2.2.1 _ hmem)
        have key : Sim N D D (Subm.pushAct m al a >>= fun al => Subm.resolve m env e false stn f tt al)
            (SM.pushAct (inserted m N) al a >>= fun al => SM.resolve (inserted m N) (seenBy N env) e false f stn' (target m N c' tt) al)
            (SameTarget m N home D) := by
          refine (Sim.pushAct hA al a).bind ?_
          rintro D1 l l' ⟨rfl, rfl⟩
          exact ih l h2 (h1 ▸ k1)
        intro s t hd hl
        have he : Subm.resolve m env e false stn (f + 1) v al s = (Subm.pushAct m al a >>= fun al => Subm.resolve m env e false stn f tt al) s := by
          conv => lhs; unfold Subm.resolve
          simp only [hv]
          show Eng.bind Eng.get _ s = _
          simp only [Eng.bind, Eng.get, hd, k4, k3, hx]
        rw [he]
        exact key s t hd hl
    | unknown =>
      have htg : target m N c v = occ N c v := by simp [target, hv]
      rw [htg]
      unfold SM.resolve
      simp only [vert_occ hlt, copy, hv]
      refine Sim.bad (c := if (inserted m N).assertEn then .assert else .rc .unknState) ?_
      rw [show (inserted m N).assertEn = true from hA]
      simp

end Verif.Subm
