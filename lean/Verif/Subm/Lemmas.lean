import Verif.Subm.Spec
namespace Verif.Subm
open Spec
open SM (Vid Sig Act Guard Tr Obs Env RC Stop Ans sigAny sigCompletion sigCreation)

/-! ## Numbers -/

section
variable {N : Nat}

theorem vtx_occ {c : Nat} {v : Nat} (h : v < N) : vtx N (occ N c v) = v := by
  unfold vtx occ
  rw [Nat.add_mul_mod_self_left]
  exact Nat.mod_eq_of_lt (by omega)

theorem ctx_occ {c : Nat} {v : Nat} (h : v < N) : ctx N (occ N c v) = c := by
  unfold ctx occ
  rw [Nat.add_mul_div_left _ _ (by omega), Nat.div_eq_of_lt (by omega)]
  omega

theorem vtx_border {c : Nat} {v : Nat} (h : v < N) : vtx N (border N c v) = N + v := by
  unfold vtx border
  rw [Nat.add_mul_mod_self_left]
  exact Nat.mod_eq_of_lt (by omega)

theorem ctx_border {c : Nat} {v : Nat} (h : v < N) : ctx N (border N c v) = c := by
  unfold ctx border
  rw [Nat.add_mul_div_left _ _ (by omega), Nat.div_eq_of_lt (by omega)]
  omega

theorem occ_self (o : Nat) : occ N (ctx N o) (vtx N o) = o := by
  unfold occ ctx vtx
  have := Nat.mod_add_div o (2 * N)
  omega

theorem occ_inj {c c' : Nat} {v v' : Nat} (h : v < N) (h' : v' < N) (he : occ N c v = occ N c' v') : c = c' ∧ v = v' := by
  constructor
  · rw [← ctx_occ (N := N) (c := c) h, he, ctx_occ h']
  · rw [← vtx_occ (N := N) (c := c) h, he, vtx_occ h']

end

/-! ## Copies -/

/-- The context `c` belongs to the submachine `h` (none: the machine itself), and the variables `*dyp` of all submachines around are those
of this context. -/
inductive Ctx (m : Machine) (N : Nat) (home : Vid → Option Vid) (D : Vid → Option Vid) : Nat → Option Vid → Prop where
  | main : Ctx m N home D 0 none
  | sub {c : Nat} {v : Vid} {p : Option Vid} {t : List Tr} {x : List (Option Act × Vid)} {M : Vid} : Ctx m N home D c (home v) → v < N →
      m.vert v = some (.subm p t x M) → D M = some v → Ctx m N home D (occ N c v + 1) (some M)

/-- The copy `o` is the one that the variables describe. -/
def Occ (m : Machine) (N : Nat) (home : Vid → Option Vid) (D : Vid → Option Vid) (o : Vid) : Prop :=
  vtx N o < N ∧ Ctx m N home D (ctx N o) (home (vtx N o))

variable {m : Machine} {N : Nat} {home : Vid → Option Vid} {rank : Option Vid → Nat} {D : Vid → Option Vid}

theorem Occ.mk' {c : Nat} {v : Vid} (h : v < N) (hc : Ctx m N home D c (home v)) : Occ m N home D (occ N c v) :=
  ⟨by rw [vtx_occ h]; exact h, by rw [vtx_occ h, ctx_occ h]; exact hc⟩

theorem ctx_none {c : Nat} (h : Ctx m N home D c none) : c = 0 := by cases h; rfl

theorem ctx_zero {h : Option Vid} (hc : Ctx m N home D 0 h) : h = none := by
  generalize hz : (0 : Nat) = z at hc
  cases hc with
  | main => rfl
  | sub => omega

theorem ctx_some {c : Nat} {M : Vid} (h : Ctx m N home D c (some M)) : ∃ c' v p t x, c = occ N c' v + 1 ∧ Ctx m N home D c' (home v) ∧ v < N ∧
    m.vert v = some (.subm p t x M) ∧ D M = some v := by
  cases h with
  | sub h1 h2 h3 h4 => exact ⟨_, _, _, _, _, rfl, h1, h2, h3, h4⟩

/-- There is only one such context for each submachine. -/
theorem ctx_unique {c c' : Nat} {h : Option Vid} (h1 : Ctx m N home D c h) (h2 : Ctx m N home D c' h) : c = c' := by
  induction h1 generalizing c' with
  | main => exact (ctx_none h2).symm
  | sub _ hv hm hd ih =>
    obtain ⟨c2, v2, p2, t2, x2, e, k1, k2, k3, k4⟩ := ctx_some h2
    rw [hd] at k4; cases k4
    rw [e, ih k1]

theorem occ_unique {o o' : Vid} (h1 : Occ m N home D o) (h2 : Occ m N home D o') (hv : vtx N o = vtx N o') : o = o' := by
  have := ctx_unique h1.2 (hv ▸ h2.2)
  rw [← occ_self (N := N) o, ← occ_self (N := N) o', this, hv]

/-- Inside a submachine of higher rank nothing changes when it is entered. -/
theorem ctx_set {c : Nat} {h : Option Vid} {M S : Vid} (P : Proper m N home rank) (hc : Ctx m N home D c h) (hr : rank h < rank (some M)) :
    Ctx m N home (setDyp D M S) c h := by
  induction hc with
  | main => exact .main
  | @sub c v p t x M' _ hv hm hd ih =>
    have hok := P.ok _ _ hm
    simp only [okVertex, Bool.and_eq_true, decide_eq_true_eq] at hok
    refine .sub (ih (by omega)) hv hm ?_
    have : M' ≠ M := fun e => by subst e; omega
    simp [setDyp, this, hd]

/-- Only the submachines that are entered are written. -/
theorem ctx_keep {D' : Vid → Option Vid} {c : Nat} {h : Option Vid} (hc : Ctx m N home D c h)
    (hk : ∀ (o : Vid) (v : Nat × Vid) p t x M, ctx N o = c → Within N o (occ N v.1 v.2) → v.2 < N → m.vert v.2 = some (.subm p t x M) → D' M = D M) :
    Ctx m N home D' c h := by
  induction hc with
  | main => exact .main
  | @sub c v p t x M _ hv hm hd ih =>
    refine .sub (ih ?_) hv hm ?_
    · intro o w q u y M' ho hw hw2 hm2
      refine hk (occ N (occ N c v + 1) v) w q u y M' (ctx_occ hv) (.out (ctx_occ hv) ?_) hw2 hm2
      cases hw with
      | here h1 => exact .here (by rw [ctx_occ hv, ← ho]; exact h1)
      | out h1 h2 => exact .out (by rw [ctx_occ hv, ← ho]; exact h1) h2
    · rw [hk (occ N (occ N c v + 1) v) (c, v) p t x M (ctx_occ hv) (.here (ctx_occ hv)) hv hm, hd]

/-! ## The inserted machine -/

theorem vert_occ {c : Nat} {v : Vid} (h : v < N) : (inserted m N).vert (occ N c v) = copy m N c v := by
  show (if vtx N (occ N c v) < N then _ else _) = _
  rw [vtx_occ h, ctx_occ h, if_pos h]

theorem vert_border {c : Nat} {v : Nat} (h : v < N) : (inserted m N).vert (border N c v) = atBorder m N c v := by
  show (if vtx N (border N c v) < N then _ else _) = _
  rw [vtx_border h, ctx_border h, if_neg (show ¬ (N + v : Nat) < N by omega)]
  show atBorder m N c (N + v - N : Nat) = _
  rw [Nat.add_sub_cancel_left]

theorem vert_of_occ {o : Vid} (h : vtx N o < N) : (inserted m N).vert o = copy m N (ctx N o) (vtx N o) := by
  show (if vtx N o < N then _ else _) = _
  rw [if_pos h]

theorem trtbl_inserted {o : Vid} (h : vtx N o < N) {l : List Tr} (ht : (inserted m N).trtbl o = some l) :
    ∃ l', m.trtbl (vtx N o) = some l' ∧ l = trs m N (ctx N o) l' := by
  unfold SM.Machine.trtbl at ht
  rw [vert_of_occ h] at ht
  unfold copy at ht
  unfold Machine.trtbl
  cases hv : m.vert (vtx N o) with
  | none => simp [hv] at ht
  | some x =>
    cases x with
    | basic p t => simp [hv] at ht ⊢; exact ht.symm
    | composite p t d a => simp [hv] at ht ⊢; exact ht.symm
    | final p => simp [hv] at ht ⊢; rw [ht]; rfl
    | cond t => simp [hv] at ht
    | choice t => simp [hv] at ht
    | subm p t x M =>
      simp only [hv] at ht ⊢
      cases hM : m.vert M with
      | none => simp [hM] at ht
      | some y => cases y <;> simp [hM] at ht ⊢; exact ht.symm
    | ref d a => simp [hv] at ht
    | enpnt a t par => simp [hv, junction] at ht
    | expnt ix par =>
      simp only [hv] at ht
      split at ht
      next x => 
        split at x <;> try simp at x
        split at x <;> try simp at x
        split at x <;> simp [junction] at x
      next x => 
        split at x <;> try simp at x
        split at x <;> try simp at x
        split at x <;> simp [junction] at x
      next x => 
        split at x <;> try simp at x
        split at x <;> try simp at x
        split at x <;> simp [junction] at x
      next => cases ht
    | unknown => simp [hv] at ht

/-- `UPDATE_PARENT` from the parent. -/
def upOf (m : Machine) (D : Vid → Option Vid) : Option Vid → Option Vid
  | none => none
  | some p =>
    match m.vert p with
    | some (.ref _ _) => D p
    | _ => some p

theorem up_eq (v : Vid) : m.up D v = (m.parent v).map (upOf m D) := by
  unfold Machine.up
  cases m.parent v with
  | none => rfl
  | some p =>
    cases p with
    | none => rfl
    | some p =>
      simp only [Option.map_some, upOf]
      split <;> simp_all

theorem parent_copy (P : Proper m N home rank) {c : Nat} {v : Vid} {p : Option Vid} (hp : okParent m home v p = true)
    (hc : Ctx m N home D c (home v)) :
    upOf m D p = (Spec.parent m N c p).map (vtx N) ∧ ∀ o, Spec.parent m N c p = some o → Occ m N home D o := by
  cases p with
  | none => exact ⟨rfl, fun _ h => (by cases h)⟩
  | some p =>
    unfold okParent at hp
    cases hv : m.vert p with
    | none => simp [hv] at hp
    | some x =>
      cases x with
      | composite q t d a =>
        simp only [hv, beq_iff_eq] at hp
        have hlt := P.small _ _ hv
        simp only [upOf, Spec.parent, hv, Option.map_some, vtx_occ hlt, true_and]
        intro o ho
        cases ho
        exact Occ.mk' hlt (hp ▸ hc)
      | ref d a =>
        simp only [hv, beq_iff_eq] at hp
        rw [hp] at hc
        obtain ⟨c', w, q, t, x, e, k1, k2, k3, k4⟩ := ctx_some hc
        subst e
        simp only [upOf, Spec.parent, hv, Nat.succ_ne_zero, Nat.add_eq_zero_iff, Nat.one_ne_zero, and_false, if_false, Nat.add_sub_cancel, Option.map_some,
          vtx_occ k2, k4, true_and]
        intro o ho
        cases ho
        exact Occ.mk' k2 k1
      | _ => simp [hv] at hp

theorem up_inserted (P : Proper m N home rank) {o : Vid} (ho : Occ m N home D o) {q : Option Vid} (h : (inserted m N).parent o = some q) :
    m.up D (vtx N o) = some (q.map (vtx N)) ∧ ∀ o', q = some o' → Occ m N home D o' := by
  unfold SM.Machine.parent at h
  rw [vert_of_occ ho.1] at h
  unfold copy at h
  rw [up_eq]
  unfold Machine.parent
  cases hv : m.vert (vtx N o) with
  | none => simp [hv] at h
  | some x =>
    have hok := P.ok _ _ hv
    cases x with
    | basic p t =>
      simp only [hv, Option.some.injEq] at h
      simp only [okVertex, Bool.and_eq_true] at hok
      obtain ⟨a, b⟩ := parent_copy P hok.1 ho.2
      subst h
      exact ⟨by simp [a], b⟩
    | composite p t d a =>
      simp only [hv, Option.some.injEq] at h
      simp only [okVertex, Bool.and_eq_true] at hok
      obtain ⟨a, b⟩ := parent_copy P hok.1.1.1 ho.2
      subst h
      exact ⟨by simp [a], b⟩
    | final p =>
      simp only [hv, Option.some.injEq] at h
      obtain ⟨a, b⟩ := parent_copy P hok ho.2
      subst h
      exact ⟨by simp [a], b⟩
    | subm p t x M =>
      simp only [okVertex, Bool.and_eq_true] at hok
      simp only [hv] at h
      cases hM : m.vert M with
      | none => simp [hM] at h
      | some y =>
        cases y with
        | ref d a =>
          simp only [hM, Option.some.injEq] at h
          obtain ⟨a, b⟩ := parent_copy P hok.1.1.1.1 ho.2
          subst h
          exact ⟨by simp [a], b⟩
        | _ => simp [hM] at h
    | cond t => simp [hv] at h
    | choice t => simp [hv] at h
    | ref d a => simp [hv] at h
    | enpnt a t par => simp [hv, junction] at h
    | expnt ix par =>
      simp only [hv] at h
      split at h
      next x =>
        split at x <;> try simp at x
        split at x <;> try simp at x
        split at x <;> simp [junction] at x
      next x =>
        split at x <;> try simp at x
        split at x <;> try simp at x
        split at x <;> simp [junction] at x
      next x =>
        split at x <;> try simp at x
        split at x <;> try simp at x
        split at x <;> simp [junction] at x
      next => cases h
    | unknown => simp [hv] at h

/-! ## Simulation -/

/-- What both machines did. -/
structure Grown (N : Nat) (s s' : Mem) (t t' : SM.Mem) : Prop where
  here : s'.state = s.state
  there : t'.state = t.state
  log : ∃ d, t'.log = t.log ++ d ∧ s'.log = s.log ++ d.map (seen N) ∧ ∀ v, Obs.stable v ∉ d

theorem Grown.refl (s : Mem) (t : SM.Mem) : Grown N s s t t := ⟨rfl, rfl, [], by simp, by simp, by simp⟩

theorem Grown.trans {s s' s'' : Mem} {t t' t'' : SM.Mem} (h : Grown N s s' t t') (h' : Grown N s' s'' t' t'') : Grown N s s'' t t'' := by
  obtain ⟨a, b, d, c1, c2, c3⟩ := h
  obtain ⟨a', b', d', c1', c2', c3'⟩ := h'
  refine ⟨a'.trans a, b'.trans b, d ++ d', by rw [c1', c1, List.append_assoc], by rw [c2', c2, List.map_append, List.append_assoc], ?_⟩
  intro v hv
  rcases List.mem_append.mp hv with h | h
  · exact c3 v h
  · exact c3' v h

theorem Grown.same {s s' : Mem} {t t' : SM.Mem} (h : Grown N s s' t t') (hl : s.log = t.log.map (seen N)) : s'.log = t'.log.map (seen N) := by
  obtain ⟨_, _, d, c1, c2, _⟩ := h
  rw [c1, c2, hl, List.map_append]

/-- Whatever the inserted machine does (other than failing), the machine with submachines does too. `D`: the variables `*dyp` before; `E`:
the variables if an error code is returned. -/
def Sim (N : Nat) (D E : Vid → Option Vid) {α β : Type} (x : Eng α) (y : SM.Eng β) (Q : (Vid → Option Vid) → α → β → Prop) : Prop :=
  ∀ s t, s.dyp = D → s.log = t.log.map (seen N) →
    (∀ t' b, y t = (t', .ok b) → ∃ s' a, x s = (s', .ok a) ∧ Q s'.dyp a b ∧ Grown N s s' t t') ∧
    (∀ t' c, y t = (t', .stop (.rc c)) → ∃ s', x s = (s', .stop (.rc c)) ∧ s'.dyp = E ∧ Grown N s s' t t')

theorem Sim.pure {α β : Type} {D E : Vid → Option Vid} {Q : (Vid → Option Vid) → α → β → Prop} {a : α} {b : β} (h : Q D a b) :
    Sim N D E (pure a : Eng α) (pure b : SM.Eng β) Q := by
  intro s t hd hl
  constructor
  · intro t' b' he
    cases he
    exact ⟨s, a, rfl, hd ▸ h, .refl _ _⟩
  · intro t' c he; cases he

theorem Sim.bind {α β α' β' : Type} {D E : Vid → Option Vid} {Q : (Vid → Option Vid) → α → β → Prop} {Q' : (Vid → Option Vid) → α' → β' → Prop}
    {x : Eng α} {y : SM.Eng β} {f : α → Eng α'} {g : β → SM.Eng β'} (hx : Sim N D E x y Q)
    (hf : ∀ D' a b, Q D' a b → Sim N D' E (f a) (g b) Q') : Sim N D E (x >>= f) (y >>= g) Q' := by
  intro s t hd hl
  obtain ⟨h1, h2⟩ := hx s t hd hl
  show (∀ t' b, SM.Eng.bind y g t = _ → ∃ s' a, Eng.bind x f s = _ ∧ _) ∧ (∀ t' c, SM.Eng.bind y g t = _ → ∃ s', Eng.bind x f s = _ ∧ _)
  unfold SM.Eng.bind Eng.bind
  cases hy : y t with
  | mk t1 r =>
    cases r with
    | ok b =>
      obtain ⟨s1, a, e1, hq, hg⟩ := h1 t1 b hy
      simp only [e1]
      obtain ⟨k1, k2⟩ := hf _ a b hq s1 t1 rfl (hg.same hl)
      constructor
      · intro t' b' he
        obtain ⟨s', a', j1, j2, j3⟩ := k1 t' b' he
        exact ⟨s', a', j1, j2, hg.trans j3⟩
      · intro t' c he
        obtain ⟨s', j1, j2, j3⟩ := k2 t' c he
        exact ⟨s', j1, j2, hg.trans j3⟩
    | stop c =>
      simp only
      constructor
      · intro t' b' he; cases he
      · intro t' c' he
        cases he
        obtain ⟨s', j1, j2, j3⟩ := h2 _ _ hy
        rw [j1]
        exact ⟨s', rfl, j2, j3⟩

theorem Sim.post {α β : Type} {D E : Vid → Option Vid} {Q Q' : (Vid → Option Vid) → α → β → Prop} {x : Eng α} {y : SM.Eng β}
    (hx : Sim N D E x y Q) (h : ∀ D' a b, Q D' a b → Q' D' a b) : Sim N D E x y Q' := by
  intro s t hd hl
  obtain ⟨h1, h2⟩ := hx s t hd hl
  refine ⟨fun t' b he => ?_, h2⟩
  obtain ⟨s', a, k1, k2, k3⟩ := h1 t' b he
  exact ⟨s', a, k1, h _ _ _ k2, k3⟩

theorem Sim.bad {α β : Type} {D E : Vid → Option Vid} {Q : (Vid → Option Vid) → α → β → Prop} {x : Eng α} {c : Stop} (hc : ∀ r, c ≠ .rc r) :
    Sim N D E x (SM.Eng.stop c : SM.Eng β) Q := by
  intro s t _ _
  constructor
  · intro t' b he; cases he
  · intro t' r he
    cases he
    exact absurd rfl (hc r)

theorem Sim.emit {D E : Vid → Option Vid} {o o' : Obs} (ho : seen N o' = o) (hs : ∀ v, o' ≠ .stable v) :
    Sim N D E (Eng.emit o) (SM.Eng.emit o') (fun D' _ _ => D' = D) := by
  intro s t hd hl
  constructor
  · intro t' b he
    cases he
    exact ⟨_, (), rfl, hd, rfl, rfl, [o'], rfl, by rw [← ho]; rfl, by simp; exact fun v h => hs v h.symm⟩
  · intro t' c he; cases he

/-- Nothing is changed and the values are the same. -/
abbrev Same (D : Vid → Option Vid) {α : Type} : (Vid → Option Vid) → α → α → Prop := fun D' a b => D' = D ∧ a = b

theorem Sim.guard {D E : Vid → Option Vid} (env : Env) (e : Sig) : ∀ g, Sim N D E (evalGuard env e g) (SM.evalGuard (seenBy N env) e g) (Same D)
  | none => Sim.pure ⟨rfl, rfl⟩
  | some .els => Sim.pure ⟨rfl, rfl⟩
  | some (.fn g) => by
    intro s t hd hl
    constructor
    · intro t' b he
      cases he
      refine ⟨{ s with log := s.log ++ [.guard g e (env g e s.log)] }, env g e s.log, rfl, ⟨hd, by simp [seenBy, hl]⟩, rfl, rfl, ?_⟩
      exact ⟨[.guard g e (seenBy N env g e t.log)], rfl, by simp [seen, seenBy, hl], by simp⟩
    · intro t' c he; cases he

/-- The same row of a table. -/
def SameRow (m : Machine) (N c : Nat) (l : List Tr) (D : Vid → Option Vid) : (Vid → Option Vid) → Option Tr → Option Tr → Prop := fun D' a b =>
  D' = D ∧ match a, b with
    | none, none => True
    | some t, some t' => t ∈ l ∧ t' = { t with target := t.target.map (target m N c) }
    | _, _ => False

theorem SameRow.tail {c : Nat} {l : List Tr} {D D' : Vid → Option Vid} {r : Tr} {a b : Option Tr} (h : SameRow m N c l D D' a b) :
    SameRow m N c (r :: l) D D' a b := by
  unfold SameRow at h ⊢
  cases a <;> cases b <;> simp_all

theorem Sim.findTrn {D E : Vid → Option Vid} (env : Env) (e : Sig) (c : Nat) : ∀ l,
    Sim N D E (findTrn env e l) (SM.findTrn (seenBy N env) e (trs m N c l)) (SameRow m N c l D)
  | [] => Sim.pure ⟨rfl, trivial⟩
  | r :: l => by
    unfold trs
    rw [List.map_cons]
    unfold Subm.findTrn SM.findTrn
    split
    · exact Sim.pure ⟨rfl, trivial⟩
    · split
      · refine (Sim.guard env e r.guard).bind ?_
        rintro D' a b ⟨rfl, rfl⟩
        cases a with
        | true => exact Sim.pure ⟨rfl, by simp⟩
        | false => exact (Sim.findTrn env e c l).post fun _ _ _ h => h.tail
      · exact (Sim.findTrn env e c l).post fun _ _ _ h => h.tail

theorem Sim.findBranch {D E : Vid → Option Vid} (env : Env) (e : Sig) (c : Nat) : ∀ l,
    Sim N D E (findBranch env e l) (SM.findBranch (seenBy N env) e (trs m N c l)) (SameRow m N c l D)
  | [] => Sim.pure ⟨rfl, trivial⟩
  | r :: l => by
    unfold trs
    rw [List.map_cons]
    unfold Subm.findBranch SM.findBranch
    split
    · exact Sim.pure ⟨rfl, trivial⟩
    · cases hg : r.guard with
      | none => exact (Sim.findBranch env e c l).post fun _ _ _ h => h.tail
      | some g =>
        refine (Sim.guard env e (some g)).bind ?_
        rintro D' a b ⟨rfl, rfl⟩
        cases a with
        | true => exact Sim.pure ⟨rfl, by simp [hg]⟩
        | false => exact (Sim.findBranch env e c l).post fun _ _ _ h => h.tail

theorem Sim.exec {D E : Vid → Option Vid} (e : Sig) : ∀ l, Sim N D E (exec e l) (SM.exec e l) (Same D)
  | [] => Sim.pure ⟨rfl, rfl⟩
  | a :: l => by
    refine (Sim.emit (o := .act a e) (o' := .act a e) rfl (by simp)).bind ?_
    rintro D' _ _ rfl
    exact Sim.exec e l

theorem Sim.pushAct {D E : Vid → Option Vid} (hA : m.assertEn = true) (al : List Act) (a : Option Act) :
    Sim N D E (pushAct m al a) (SM.pushAct (inserted m N) al a) (Same D) := by
  have h : SM.addAct (inserted m N) al a = addAct m al a := rfl
  unfold Subm.pushAct SM.pushAct
  rw [h]
  cases addAct m al a with
  | none =>
    refine Sim.bad (c := if (inserted m N).assertEn then .assert else .rc .exTseg) ?_
    rw [show (inserted m N).assertEn = true from hA]
    simp
  | some l => exact Sim.pure ⟨rfl, rfl⟩

/-- A transition of the inserted machine. -/
def SameTrn (m : Machine) (N : Nat) (home : Vid → Option Vid) (D : Vid → Option Vid) :
    (Vid → Option Vid) → Option (Vid × Tr) → Option (Vid × Tr) → Prop := fun D' a b =>
  D' = D ∧ match a, b with
    | none, none => True
    | some (v, t), some (o, t') => v = vtx N o ∧ Occ m N home D o ∧ (∃ l, m.trtbl v = some l ∧ t ∈ l) ∧
        t' = { t with target := t.target.map (target m N (ctx N o)) }
    | _, _ => False

theorem Sim.searchUp (P : Proper m N home rank) {E : Vid → Option Vid} (env : Env) (e : Sig) : ∀ f {o : Vid}, Occ m N home D o →
    Sim N D E (searchUp m env e f (vtx N o)) (SM.searchUp (inserted m N) (seenBy N env) e f o) (SameTrn m N home D) := by
  intro f
  induction f with
  | zero => exact fun _ => Sim.bad (by simp)
  | succ f ih =>
    intro o ho
    unfold Subm.searchUp SM.searchUp
    cases ht : (inserted m N).trtbl o with
    | none => exact Sim.bad (by simp)
    | some l' =>
      obtain ⟨l, h1, rfl⟩ := trtbl_inserted ho.1 ht
      simp only [h1]
      refine (Sim.findTrn env e (ctx N o) l).bind ?_
      rintro D' a b ⟨hD, hab⟩
      rw [hD]
      cases a with
      | some tr =>
        cases b with
        | none => exact hab.elim
        | some tr' => exact Sim.pure ⟨rfl, rfl, ho, ⟨l, h1, hab.1⟩, hab.2⟩
      | none =>
        cases b with
        | some tr' => exact hab.elim
        | none =>
          simp only
          cases hp : (inserted m N).parent o with
          | none => exact Sim.bad (by simp)
          | some q =>
            obtain ⟨hu, hq⟩ := up_inserted P ho hp
            intro s t hd hl
            show _ ∧ (∀ t' c, _ → ∃ s', Eng.bind Eng.get _ s = _ ∧ _)
            show (∀ t' b, _ → ∃ s' a, Eng.bind Eng.get _ s = _ ∧ _) ∧ _
            simp only [Eng.bind, Eng.get, hd, hu]
            cases q with
            | none => exact Sim.pure (Q := SameTrn m N home D) (a := none) (b := none) ⟨rfl, trivial⟩ s t hd hl
            | some o' => exact ih (hq o' rfl) s t hd hl

end Verif.Subm
