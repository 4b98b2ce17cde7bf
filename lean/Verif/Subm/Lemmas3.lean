import Verif.Subm.Lemmas2
namespace Verif.Subm
open Spec
open SM (Vid Sig Act Guard Tr Obs Env RC Stop Ans sigAny sigCompletion sigCreation)

variable {m : Machine} {N : Nat} {home : Vid → Option Vid} {rank : Option Vid → Nat} {D : Vid → Option Vid}

theorem Sim.lift {α β : Type} {E : Vid → Option Vid} {Q : (Vid → Option Vid) → α → β → Prop} {a : Ans α} {b : Ans β}
    (h : ∀ r, b = .ok r → ∃ q, a = .ok q ∧ Q D q r) (hr : ∀ c, b ≠ .stop (.rc c)) : Sim N D E (Eng.lift a) (SM.Eng.lift b) Q := by
  intro s t hd hl
  constructor
  · intro t' r he
    cases he
    obtain ⟨q, rfl, hq⟩ := h r rfl
    exact ⟨s, q, rfl, hd ▸ hq, .refl _ _⟩
  · intro t' c he
    cases he
    exact absurd rfl (hr c)

theorem Sim.getDyp {α β : Type} {E : Vid → Option Vid} {Q : (Vid → Option Vid) → α → β → Prop} {g : (Vid → Option Vid) → Eng α} {y : SM.Eng β}
    (h : Sim N D E (g D) y Q) : Sim N D E (Eng.get >>= fun mem => g mem.dyp) y Q := by
  intro s t hd hl
  have := h s t hd hl
  subst hd
  exact this

/-! ## Leaving states -/

theorem findLca_sim (P : Proper m N home rank) (hA : m.assertEn = true) {x : Vid} (hx : Occ m N home D x) : ∀ f {st : Option Vid} {acc : List Vid},
    (∀ o, st = some o → Occ m N home D o) → (∀ o ∈ acc, Occ m N home D o) →
    (∀ r, SM.findLca (inserted m N) x f st acc = .ok r →
      findLca m D (vtx N x) f (st.map (vtx N)) (acc.map (vtx N)) = .ok (r.1, r.2.map (vtx N)) ∧ (∀ o ∈ r.2, Occ m N home D o)) ∧
    ∀ c, SM.findLca (inserted m N) x f st acc ≠ .stop (.rc c) := by
  intro f
  induction f with
  | zero => exact fun _ _ => ⟨fun r h => (by cases h), fun c h => (by cases h)⟩
  | succ f ih =>
    intro st acc hst hacc
    cases st with
    | none =>
      refine ⟨fun r h => ?_, fun c h => (by cases h)⟩
      cases h
      exact ⟨rfl, hacc⟩
    | some n =>
      have hn := hst n rfl
      unfold SM.findLca
      simp only [Option.map_some, findLca]
      by_cases e : n = x
      · subst e
        simp only [if_true]
        refine ⟨fun r h => ?_, fun c h => (by cases h)⟩
        cases h
        exact ⟨rfl, hacc⟩
      · have e' : vtx N n ≠ vtx N x := fun h => e (occ_unique hn hx h)
        simp only [if_neg e, if_neg e', List.length_map]
        show (∀ r, (if acc.length < m.maxDepth then _ else _) = _ → _) ∧ (∀ c, (if acc.length < m.maxDepth then _ else _) ≠ _)
        by_cases hlen : acc.length < m.maxDepth
        · simp only [if_pos hlen]
          cases hp : (inserted m N).parent n with
          | none => exact ⟨fun r h => (by cases h), fun c h => (by cases h)⟩
          | some q =>
            obtain ⟨h1, h2⟩ := up_inserted P hn hp
            simp only [h1]
            have := ih (st := q) (acc := acc ++ [n]) h2 (by
              intro o ho
              rcases List.mem_append.mp ho with h | h
              · exact hacc o h
              · rw [List.mem_singleton.mp h]; exact hn)
            rw [List.map_append] at this
            exact this
        · simp only [if_neg hlen]
          rw [show (inserted m N).assertEn = true from hA]
          exact ⟨fun r h => (by cases h), fun c h => (by cases h)⟩

/-- The first state to enter is the target. -/
def Heads (ts : Vid) (l : List Vid) : Prop := l = [] ∨ l.head? = some ts

theorem findLca_prefix (U : SM.Machine) (x : Vid) : ∀ f st acc r, SM.findLca U x f st acc = .ok r → ∃ d, r.2 = acc ++ d := by
  intro f
  induction f with
  | zero => intro st acc r h; cases h
  | succ f ih =>
    intro st acc r h
    cases st with
    | none => cases h; exact ⟨[], by simp⟩
    | some n =>
      unfold SM.findLca at h
      split at h
      · cases h; exact ⟨[], by simp⟩
      · split at h
        · split at h
          · cases h
          · obtain ⟨d, hd⟩ := ih _ _ _ h
            exact ⟨n :: d, by rw [hd]; simp⟩
        · cases h

theorem findLca_head {U : SM.Machine} {x ts : Vid} {f : Nat} {r : Bool × List Vid} (h : SM.findLca U x f (some ts) [] = .ok r) :
    (r.2 = [] ∧ (r.1 = true → ts = x)) ∨ r.2.head? = some ts := by
  cases f with
  | zero => cases h
  | succ f =>
    unfold SM.findLca at h
    split at h
    · next e => cases h; exact .inl ⟨rfl, fun _ => e⟩
    · split at h
      · split at h
        · cases h
        · obtain ⟨d, hd⟩ := findLca_prefix U x _ _ _ _ h
          right; rw [hd]; rfl
      · cases h

/-- The way `exits` ends and continues. -/
theorem exits_succ (U : SM.Machine) (ts x : Vid) (f ix : Nat) (ent0 : List Vid) : SM.exits U ts (f + 1) ix (some x) ent0 =
    (SM.Eng.lift (SM.findLca U x f (some ts) []) >>= fun r =>
      match r with
      | (true, ent) =>
        match ix with
        | 0 => (SM.Eng.emit (.exit x) >>= fun _ => SM.updShallow U x >>= fun _ =>
            if ent.length < U.maxDepth then (pure (ent ++ [x]) : SM.Eng _) else SM.Eng.stop .ub)
        | _ + 1 => pure ent
      | (false, ent) => (SM.Eng.emit (.exit x) >>= fun _ => SM.updShallow U x >>= fun _ =>
          match U.parent x with
          | none => SM.Eng.stop .ub
          | some p => SM.exits U ts f (ix + 1) p ent)) := by
  conv => lhs; unfold SM.exits
  rfl

theorem shallow_inserted (x : Vid) : SM.shallowTarget (inserted m N) x = .ok none ∨ SM.shallowTarget (inserted m N) x = .stop .ub := by
  unfold SM.shallowTarget
  cases (inserted m N).parent x with
  | none => exact .inr rfl
  | some q =>
    cases q with
    | none => exact .inl rfl
    | some p =>
      cases hv : (inserted m N).vert p with
      | none => simp [hv]
      | some y =>
        cases y with
        | composite a b c d hist =>
          have : hist = none := by
            have hv' : (if vtx N p < N then copy m N (ctx N p) (vtx N p) else atBorder m N (ctx N p) (vtx N p - N)) = some (.composite a b c d hist) := hv
            unfold copy atBorder junction at hv'
            repeat' (first | split at hv' | simp at hv')
            all_goals simp_all
          subst this
          simp [hv]
        | _ => simp [hv]

theorem Sim.updShallow {α β : Type} {E : Vid → Option Vid} {Q : (Vid → Option Vid) → α → β → Prop} {x : Eng α} {k : Unit → SM.Eng β} (v : Vid)
    (h : Sim N D E x (k ()) Q) : Sim N D E x (SM.updShallow (inserted m N) v >>= k) Q := by
  intro s t hd hl
  show (∀ t' b, SM.Eng.bind _ k t = _ → _) ∧ (∀ t' c, SM.Eng.bind _ k t = _ → _)
  have : SM.updShallow (inserted m N) v t = (t, .ok ()) ∨ SM.updShallow (inserted m N) v t = (t, .stop .ub) := by
    show SM.Eng.bind (SM.Eng.lift _) _ t = _ ∨ SM.Eng.bind (SM.Eng.lift _) _ t = _
    unfold SM.Eng.bind SM.Eng.lift
    rcases shallow_inserted (m := m) (N := N) v with e | e
    · rw [e]; exact .inl rfl
    · rw [e]; exact .inr rfl
  unfold SM.Eng.bind
  rcases this with e | e
  · rw [e]; exact h s t hd hl
  · rw [e]; exact ⟨fun t' b h => (by cases h), fun t' c h => (by cases h)⟩

/-- The states to enter. -/
abbrev SameEnt (m : Machine) (N : Nat) (home : Vid → Option Vid) (D : Vid → Option Vid) : (Vid → Option Vid) → List Vid → List Vid → Prop := fun D' a b =>
  D' = D ∧ a = b.map (vtx N) ∧ ∀ o ∈ b, Occ m N home D o

theorem Sim.exits (P : Proper m N home rank) (hA : m.assertEn = true) {E : Vid → Option Vid} {ts : Vid} (hts : Occ m N home D ts) : ∀ f ix {x : Option Vid} {ent : List Vid},
    (∀ o, x = some o → Occ m N home D o) → (∀ o ∈ ent, Occ m N home D o) →
    Sim N D E (exits m (vtx N ts) f ix (x.map (vtx N)) (ent.map (vtx N))) (SM.exits (inserted m N) ts f ix x ent) (SameEnt m N home D) := by
  intro f
  induction f with
  | zero => exact fun _ _ _ _ _ => Sim.bad (by simp)
  | succ f ih =>
    intro ix x ent hx hent
    cases x with
    | none => exact Sim.pure ⟨rfl, rfl, hent⟩
    | some x =>
      have hox := hx x rfl
      rw [exits_succ]
      simp only [Option.map_some]
      unfold Subm.exits
      refine Sim.getDyp (g := fun d => (Eng.lift (findLca m d (vtx N x) f (some (vtx N ts)) []) >>= fun r =>
        match r with
        | (true, ent) =>
          match ix with
          | 0 => (Eng.emit (.exit (vtx N x)) >>= fun _ => if ent.length < m.maxDepth then (Pure.pure (ent ++ [vtx N x]) : Eng _) else Eng.stop .ub)
          | _ + 1 => Pure.pure ent
        | (false, ent) => (Eng.emit (.exit (vtx N x)) >>= fun _ =>
            match m.up d (vtx N x) with
            | none => Eng.stop .ub
            | some p => Subm.exits m (vtx N ts) f (ix + 1) p ent))) ?_
      obtain ⟨hl, hrc⟩ := findLca_sim P hA hox f (st := some ts) (acc := []) (fun o h => by cases h; exact hts) (by simp)
      refine Sim.bind (Q := fun D' a b => D' = D ∧ a = (b.1, b.2.map (vtx N)) ∧ ∀ o ∈ b.2, Occ m N home D o) (Sim.lift ?_ hrc) ?_
      · intro r hr
        obtain ⟨h1, h2⟩ := hl r hr
        exact ⟨_, h1, rfl, rfl, h2⟩
      · rintro D1 _ ⟨b, l⟩ ⟨hD, rfl, hocc⟩
        rw [hD]
        cases b with
        | true =>
          cases ix with
          | zero =>
            refine (Sim.emit (o := .exit (vtx N x)) (o' := .exit x) rfl (by simp)).bind ?_
            rintro D2 _ _ hD2
            rw [hD2]
            refine Sim.updShallow x ?_
            simp only [List.length_map]
            show Sim N D E _ (if l.length < m.maxDepth then _ else _) _
            split
            · refine Sim.pure ⟨rfl, by simp, ?_⟩
              intro o ho
              rcases List.mem_append.mp ho with h | h
              · exact hocc o h
              · rw [List.mem_singleton.mp h]; exact hox
            · exact Sim.bad (by simp)
          | succ ix => exact Sim.pure ⟨rfl, rfl, hocc⟩
        | false =>
          refine (Sim.emit (o := .exit (vtx N x)) (o' := .exit x) rfl (by simp)).bind ?_
          rintro D2 _ _ hD2
          rw [hD2]
          refine Sim.updShallow x ?_
          cases hp : (inserted m N).parent x with
          | none => exact Sim.bad (by simp)
          | some q =>
            obtain ⟨h1, h2⟩ := up_inserted P hox hp
            simp only [h1]
            exact ih (ix + 1) h2 hocc

/-! ## Entering states -/

theorem findCompletion_trs (c : Nat) : ∀ l, SM.findCompletion (trs m N c l) = findCompletion l
  | [] => rfl
  | t :: l => by
    unfold trs
    rw [List.map_cons]
    unfold SM.findCompletion findCompletion
    have := findCompletion_trs c l
    unfold trs at this
    rw [this]

theorem isCompletion_copy (P : Proper m N home rank) {o : Vid} (ho : Occ m N home D o) : SM.isCompletion (inserted m N) o = isCompletion m (vtx N o) := by
  unfold SM.isCompletion isCompletion
  rw [vert_of_occ ho.1]
  unfold copy
  cases hv : m.vert (vtx N o) with
  | none => rfl
  | some x =>
    cases x with
    | basic p t => simp [findCompletion_trs]
    | final p =>
      have hok := P.ok _ _ hv
      cases p with
      | none => rfl
      | some p =>
        obtain ⟨w, hw⟩ : ∃ w, Spec.parent m N (ctx N o) (some p) = some w := by
          unfold okVertex okParent at hok
          simp only at hok
          unfold Spec.parent
          cases hp : m.vert p with
          | none => simp [hp] at hok
          | some y =>
            cases y with
            | ref d a =>
              simp only [hp, beq_iff_eq] at hok
              have := ho.2
              rw [hok] at this
              obtain ⟨c', w, _, _, _, e, _⟩ := ctx_some this
              exact ⟨occ N c' w, by simp [e, hp]⟩
            | _ => exact ⟨occ N (ctx N o) p, by simp [hp]⟩
        simp [hw]
    | subm p t x M =>
      simp only
      cases m.vert M with
      | none => rfl
      | some y => cases y <;> rfl
    | expnt ix par =>
      simp only
      by_cases hc : ctx N o = 0
      · simp [hc]
      · simp only [if_neg hc]
        cases m.vert (vtx N (ctx N o - 1)) with
        | none => rfl
        | some y =>
          cases y with
          | subm p t x M =>
            simp only
            cases x[ix]? with
            | none => rfl
            | some q => rfl
          | _ => rfl
    | _ => rfl

theorem Sim.enter (P : Proper m N home rank) {E : Vid → Option Vid} : ∀ (l : List Vid) (c : Bool), (∀ o ∈ l, Occ m N home D o) →
    Sim N D E (enter m (l.map (vtx N)) c) (SM.enter (inserted m N) l c) (Same D) := by
  intro l
  induction l with
  | nil => exact fun _ _ => Sim.pure ⟨rfl, rfl⟩
  | cons o l ih =>
    intro c hl
    unfold SM.enter
    rw [List.map_cons]
    unfold Subm.enter
    refine (Sim.emit (o := .entry (vtx N o)) (o' := .entry o) rfl (by simp)).bind ?_
    rintro D1 _ _ hD
    rw [hD, isCompletion_copy P (hl o (by simp))]
    exact ih _ fun x hx => hl x (by simp [hx])

/-! ## Creation -/

theorem parent_main (P : Proper m N home rank) {o : Vid} (ho : Occ m N home D o) (hh : home (vtx N o) = none) {q : Option Vid}
    (h : (inserted m N).parent o = some q) : m.parent (vtx N o) = some (q.map (vtx N)) ∧ ∀ o', q = some o' → Occ m N home D o' ∧ home (vtx N o') = none := by
  obtain ⟨h1, h2⟩ := up_inserted P ho h
  rw [up_eq] at h1
  cases hp : m.parent (vtx N o) with
  | none => rw [hp] at h1; cases h1
  | some p =>
    rw [hp] at h1
    simp only [Option.map_some, Option.some.injEq] at h1
    have hpar : okParent m home (vtx N o) p = true := by
      unfold Machine.parent at hp
      cases hv : m.vert (vtx N o) with
      | none => simp [hv] at hp
      | some x =>
        have hok := P.ok _ _ hv
        cases x with
        | basic p' t => simp [hv] at hp; subst hp; simp only [okVertex, Bool.and_eq_true] at hok; exact hok.1
        | composite p' t d a => simp [hv] at hp; subst hp; simp only [okVertex, Bool.and_eq_true] at hok; exact hok.1.1.1
        | final p' => simp [hv] at hp; subst hp; exact hok
        | subm p' t x M => simp [hv] at hp; subst hp; exact (sub_ok P hv).1
        | _ => simp [hv] at hp
    cases p with
    | none =>
      simp only [upOf] at h1
      cases q with
      | none => exact ⟨rfl, fun _ h => (by cases h)⟩
      | some o' => simp at h1
    | some p =>
      unfold okParent at hpar
      cases hv : m.vert p with
      | none => simp [hv] at hpar
      | some y =>
        cases y with
        | ref d a => simp [hv, hh] at hpar
        | composite p' t d a =>
          simp only [hv, beq_iff_eq] at hpar
          simp only [upOf, hv] at h1
          refine ⟨by rw [h1], fun o' ho' => ⟨h2 o' ho', ?_⟩⟩
          subst ho'
          simp only [Option.map_some, Option.some.injEq] at h1
          rw [← h1, hpar, hh]
        | _ => simp [hv] at hpar

theorem addTarget_main (P : Proper m N home rank) : ∀ f {st : Option Vid} {acc : List Vid},
    (∀ o, st = some o → Occ m N home D o ∧ home (vtx N o) = none) → (∀ o ∈ acc, Occ m N home D o) →
    (∀ r, SM.addTargetLoop (inserted m N) none f st acc = .ok r →
      addTargetLoop m none f (st.map (vtx N)) (acc.map (vtx N)) = .ok (r.map (vtx N)) ∧ (∀ o ∈ r, Occ m N home D o) ∧ ∃ d, r = acc ++ d) ∧
    ∀ c, SM.addTargetLoop (inserted m N) none f st acc ≠ .stop (.rc c) := by
  intro f
  induction f with
  | zero => exact fun _ _ => ⟨fun r h => (by cases h), fun c h => (by cases h)⟩
  | succ f ih =>
    intro st acc hst hacc
    cases st with
    | none =>
      refine ⟨fun r h => ?_, fun c h => (by cases h)⟩
      cases h
      exact ⟨rfl, hacc, [], by simp⟩
    | some n =>
      obtain ⟨hn, hh⟩ := hst n rfl
      unfold SM.addTargetLoop
      simp only [Option.map_some, addTargetLoop, reduceCtorEq, if_false, List.length_map]
      show (∀ r, (if acc.length < m.maxDepth then _ else _) = _ → _) ∧ (∀ c, (if acc.length < m.maxDepth then _ else _) ≠ _)
      by_cases hlen : acc.length < m.maxDepth
      · simp only [if_pos hlen]
        cases hp : (inserted m N).parent n with
        | none => exact ⟨fun r h => (by cases h), fun c h => (by cases h)⟩
        | some q =>
          obtain ⟨h1, h2⟩ := parent_main P hn hh hp
          simp only [h1]
          have := ih (st := q) (acc := acc ++ [n]) h2 (by
            intro o ho
            rcases List.mem_append.mp ho with h | h
            · exact hacc o h
            · rw [List.mem_singleton.mp h]; exact hn)
          rw [List.map_append] at this
          refine ⟨fun r hr => ?_, this.2⟩
          obtain ⟨a, b, d, c⟩ := this.1 r hr
          exact ⟨a, b, n :: d, by rw [c]; simp⟩
      · simp only [if_neg hlen]
        exact ⟨fun r h => (by cases h), fun c h => (by cases h)⟩

end Verif.Subm
