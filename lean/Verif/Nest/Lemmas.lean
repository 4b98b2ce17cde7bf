import Verif.Nest.Model
import Verif.Nest.Spec
/-
Helper lemmas: as long as the actions leave the working variables alone, the engine over its working variables does what
the engine of SM/Model.lean does.
-/
namespace Verif.Nest
open Verif.SM Low

/-- Every state has a finite path to the root, of at most 255 states, and the configuration is admitted by
rkhitl.h:571-586. -/
structure Fits (m : Machine) : Prop where
  depth : 1 ≤ m.maxDepth ∧ m.maxDepth ≤ 8
  segs : 1 ≤ m.maxSegs ∧ m.maxSegs ≤ 8
  path : ∀ v, Spec.IsState m v → ∃ l, Spec.Path m v l ∧ l.length ≤ 255

/-- A relation between worlds that is kept by pieces of the engine of machine `i`, and what holds when a call made by an
action comes to a dead end. The relation holds of a world and itself if the world is in order. -/
structure Keeps (i : Nat) (T : World → World → Prop) (D : World → World → Stop → Prop) : Prop where
  right : ∀ {a b}, T a b → T b b
  trans : ∀ {a b c}, T a b → T b c → T a c
  upd : ∀ {w f}, T w w → (∃ q : List Obs, (∀ m, (f m).log = m.log ++ q) ∧ ∀ o ∈ q, quiet o = true) → T w (w.upd i f)
  dead : ∀ {a b c x}, T a b → D b c x → D a c x

/-- The piece `x`, run at `s`, does what `y` does, up to a dead end inside a call made by an action. -/
def Sim {α β : Type} (i : Nat) (T : World → World → Prop) (D : World → World → Stop → Prop) (x : Low β) (y : Eng α)
    (R : α → β → Vars → Prop) (s : World × Vars) : Prop :=
  T s.1 s.1 → ∀ s' b, x s = (s', b) → ∀ m' a, y (s.1.mem i) = (m', a) →
    a = .stop .ub ∨ (∃ c, b = .dead c ∧ D s.1 s'.1 c) ∨
    (s'.1.mem i = m' ∧ T s.1 s'.1 ∧ ((∃ a' b', a = .ok a' ∧ b = .ok b' ∧ R a' b' s'.2) ∨ ∃ c, a = .stop c ∧ b = .stop c))

/-- The calls of actions leave the working variables and the data of their own machine alone. -/
def CallOK (p : Prog) (d : Disp) (i : Nat) (T : World → World → Prop) (D : World → World → Stop → Prop) : Prop :=
  ∀ o s s' b, quiet o = false → T s.1 s.1 → call p d i o s = (s', b) → (∃ c, b = .dead c ∧ D s.1 s'.1 c) ∨
    (b = .ok () ∧ s'.2 = s.2 ∧ s'.1.mem i = { s.1.mem i with log := (s.1.mem i).log ++ [o] } ∧ T s.1 s'.1)

section
variable {i : Nat} {T : World → World → Prop} {D : World → World → Stop → Prop}

theorem Sim.weaken {α β : Type} {x : Low β} {y : Eng α} {R R' : α → β → Vars → Prop} {s : World × Vars}
    (h : Sim i T D x y R s) (hr : ∀ a b v, R a b v → R' a b v) : Sim i T D x y R' s := by
  intro hG s' b hx m' a hy
  rcases h hG s' b hx m' a hy with h | h | ⟨h1, h2, h3⟩
  · exact .inl h
  · exact .inr (.inl h)
  · refine .inr (.inr ⟨h1, h2, ?_⟩)
    rcases h3 with ⟨a', b', ha, hb, hR⟩ | h3
    · exact .inl ⟨a', b', ha, hb, hr _ _ _ hR⟩
    · exact .inr h3

theorem Sim.bind {α β α' β' : Type} (hT : Keeps i T D) {x : Low β} {y : Eng α} {g : β → Low β'} {k : α → Eng α'}
    {R : α → β → Vars → Prop} {R' : α' → β' → Vars → Prop} {s : World × Vars} (h : Sim i T D x y R s)
    (hk : ∀ a b s', R a b s'.2 → Sim i T D (g b) (k a) R' s') : Sim i T D (x >>= g) (y >>= k) R' s := by
  intro hG s' b hx m' a hy
  change Low.bind x g s = _ at hx
  change Eng.bind y k _ = _ at hy
  unfold Low.bind at hx
  unfold Eng.bind at hy
  cases hx1 : x s with
  | mk s1 b1 =>
    cases hy1 : y (s.1.mem i) with
    | mk m1 a1 =>
      rw [hx1] at hx
      rw [hy1] at hy
      rcases h hG s1 b1 hx1 m1 a1 hy1 with h | ⟨c, h, hc⟩ | ⟨h1, h2, ⟨a', b', ha, hb, hR⟩ | ⟨c, ha, hb⟩⟩
      · subst h; simp only [Prod.mk.injEq] at hy; exact .inl hy.2.symm
      · subst h; simp only [Prod.mk.injEq] at hx; exact .inr (.inl ⟨c, hx.2.symm, hx.1 ▸ hc⟩)
      · subst ha hb
        simp only at hx hy
        rw [← h1] at hy
        rcases hk a' b' s1 hR (hT.right h2) s' b hx m' a hy with h | ⟨c, h, hc⟩ | ⟨g1, g2, g3⟩
        · exact .inl h
        · exact .inr (.inl ⟨c, h, hT.dead h2 hc⟩)
        · exact .inr (.inr ⟨g1, hT.trans h2 g2, g3⟩)
      · subst ha hb
        simp only [Prod.mk.injEq] at hx hy
        refine .inr (.inr ⟨?_, ?_, .inr ⟨c, hy.2.symm, hx.2.symm⟩⟩)
        · rw [← hx.1, ← hy.1]; exact h1
        · rw [← hx.1]; exact h2

theorem Sim.pure {α β : Type} {a : α} {b : β} {R : α → β → Vars → Prop} {s : World × Vars} (h : R a b s.2) :
    Sim i T D (Pure.pure b) (Pure.pure a) R s := by
  intro hG s' b' hx m' a' hy
  cases hx; cases hy
  exact .inr (.inr ⟨rfl, hG, .inl ⟨a, b, rfl, rfl, h⟩⟩)

theorem Sim.stop {α β : Type} {c : Stop} {R : α → β → Vars → Prop} {s : World × Vars} :
    Sim i T D (Low.stop c : Low β) (Eng.stop c : Eng α) R s := by
  intro hG s' b' hx m' a' hy
  cases hx; cases hy
  exact .inr (.inr ⟨rfl, hG, .inr ⟨c, rfl, rfl⟩⟩)

theorem Sim.ub {α β : Type} {x : Low β} {R : α → β → Vars → Prop} {s : World × Vars} :
    Sim i T D x (Eng.stop .ub : Eng α) R s := by
  intro hG s' b' hx m' a' hy
  cases hy
  exact .inl rfl

theorem Sim.error {α β : Type} {m : Machine} {c : RC} {R : α → β → Vars → Prop} {s : World × Vars} :
    Sim i T D (Nest.error m c : Low β) (SM.error m c : Eng α) R s := Sim.stop

theorem Sim.bind_get {α β : Type} {g : Vars → Low β} {y : Eng α} {R : α → β → Vars → Prop} {s : World × Vars}
    (h : Sim i T D (g s.2) y R s) : Sim i T D (Low.get >>= g) y R s := h

theorem Sim.bind_set {α β : Type} {u : Vars → Vars} {g : Unit → Low β} {y : Eng α} {R : α → β → Vars → Prop}
    {s : World × Vars} (h : Sim i T D (g ()) y R (s.1, u s.2)) : Sim i T D (Low.set u >>= g) y R s := h

theorem Sim.set {β : Type} {u : Vars → Vars} {a : β} {R : β → Unit → Vars → Prop}
    {s : World × Vars} (h : R a () (u s.2)) : Sim i T D (Low.set u) (Pure.pure a) R s := by
  intro hG s' b' hx m' a' hy
  cases hx; cases hy
  exact .inr (.inr ⟨rfl, hG, .inl ⟨a, (), rfl, rfl, h⟩⟩)

theorem Sim.bind_mem {α β : Type} {g : Mem → Low β} {k : Mem → Eng α} {R : α → β → Vars → Prop} {s : World × Vars}
    (h : Sim i T D (g (s.1.mem i)) (k (s.1.mem i)) R s) : Sim i T D (Low.mem i >>= g) (Eng.get >>= k) R s := h

theorem Sim.bind_mem1 {α β : Type} {g : Mem → Low β} {y : Eng α} {R : α → β → Vars → Prop} {s : World × Vars}
    (h : Sim i T D (g (s.1.mem i)) y R s) : Sim i T D (Low.mem i >>= g) y R s := h

theorem upd_mem (w : World) (f : Mem → Mem) : (w.upd i f).mem i = f (w.mem i) := by simp [World.upd]

theorem Sim.upd (hT : Keeps i T D) {u : Mem → Mem} {R : Unit → Unit → Vars → Prop}
    {s : World × Vars} (h : R () () s.2) (hq : ∃ q : List Obs, (∀ m, (u m).log = m.log ++ q) ∧ ∀ o ∈ q, quiet o = true) :
    Sim i T D (updMem i u) (Eng.modify u) R s := by
  intro hG s' b' hx m' a' hy
  cases hx; cases hy
  exact .inr (.inr ⟨upd_mem _ _, hT.upd hG hq, .inl ⟨(), (), rfl, rfl, h⟩⟩)

/-- A step of `x` that neither calls an action nor changes the data of the machine. -/
theorem Sim.bind_pure {α β γ : Type} {x : Low γ} {g : γ → Low β} {y : Eng α} {R : α → β → Vars → Prop}
    {s : World × Vars} {v : Vars} {a : γ} (hx : x s = ((s.1, v), .ok a)) (h : Sim i T D (g a) y R (s.1, v)) :
    Sim i T D (x >>= g) y R s := by
  intro hG s' b' hx' m' a' hy
  change Low.bind x g s = _ at hx'
  unfold Low.bind at hx'
  rw [hx] at hx'
  exact h hG s' b' hx' m' a' hy

theorem Sim.call {p : Prog} {d : Disp} (hc : CallOK p d i T D) {o : Obs} (ho : quiet o = false) {s : World × Vars} :
    Sim i T D (Nest.call p d i o) (Eng.emit o) (fun _ _ v => v = s.2) s := by
  intro hG s' b' hx m' a' hy
  cases hy
  rcases hc o s s' b' ho hG hx with h | ⟨h1, h2, h3, h4⟩
  · exact .inr (.inl h)
  · exact .inr (.inr ⟨h3, h4, .inl ⟨(), (), rfl, h1, h2⟩⟩)

end

section
variable {p : Prog} {d : Disp} {i : Nat} {T : World → World → Prop} {D : World → World → Stop → Prop}

theorem evalGuard_sim (hT : Keeps i T D) (hc : CallOK p d i T D) (e : Sig) (g : Option Guard) (s : World × Vars) :
    Sim i T D (evalGuard p d i e g) (SM.evalGuard (p.env i) e g) (fun a b v => a = b ∧ v = s.2) s := by
  match g with
  | none => exact Sim.pure ⟨rfl, rfl⟩
  | some .els => exact Sim.pure ⟨rfl, rfl⟩
  | some (.fn g) =>
    have h : SM.evalGuard (p.env i) e (some (.fn g)) = (Eng.get >>= fun m =>
        Eng.emit (.guard g e (p.env i g e m.log)) >>= fun _ => Pure.pure (p.env i g e m.log)) := by
      funext m; rfl
    rw [h]
    unfold evalGuard
    refine Sim.bind_mem (Sim.bind hT (Sim.call hc rfl) ?_)
    intro a b s' hv
    exact Sim.pure ⟨rfl, hv⟩

theorem findTrn_sim (hT : Keeps i T D) (hc : CallOK p d i T D) (e : Sig) : ∀ (tbl : List Tr) (s : World × Vars),
    Sim i T D (findTrn p d i e tbl) (SM.findTrn (p.env i) e tbl) (fun a b v => a = b ∧ v = s.2) s
  | [], s => Sim.pure ⟨rfl, rfl⟩
  | t :: ts, s => by
    unfold findTrn SM.findTrn
    by_cases h1 : t.event = sigAny
    · simp only [h1, if_true]; exact Sim.pure ⟨rfl, rfl⟩
    · simp only [if_neg h1]
      by_cases h2 : t.event = e
      · simp only [if_pos h2]
        refine Sim.bind hT (evalGuard_sim hT hc e t.guard s) ?_
        rintro a b s' ⟨rfl, hv⟩
        cases a with
        | true => exact Sim.pure ⟨rfl, hv⟩
        | false => exact (findTrn_sim hT hc e ts s').weaken fun a b v h => ⟨h.1, h.2.trans hv⟩
      · simp only [if_neg h2]
        exact findTrn_sim hT hc e ts s

theorem findBranch_sim (hT : Keeps i T D) (hc : CallOK p d i T D) (e : Sig) : ∀ (tbl : List Tr) (s : World × Vars),
    Sim i T D (findBranch p d i e tbl) (SM.findBranch (p.env i) e tbl) (fun a b v => a = b ∧ v = s.2) s
  | [], s => Sim.pure ⟨rfl, rfl⟩
  | t :: ts, s => by
    unfold findBranch SM.findBranch
    by_cases h1 : t.event = sigAny
    · simp only [h1, if_true]; exact Sim.pure ⟨rfl, rfl⟩
    · simp only [if_neg h1]
      cases hg : t.guard with
      | none => exact findBranch_sim hT hc e ts s
      | some g =>
        refine Sim.bind hT (evalGuard_sim hT hc e (some g) s) ?_
        rintro a b s' ⟨rfl, hv⟩
        cases a with
        | true => exact Sim.pure ⟨rfl, hv⟩
        | false => exact (findBranch_sim hT hc e ts s').weaken fun a b v h => ⟨h.1, h.2.trans hv⟩

/-- The list of pending actions is stored. -/
def AL (m : Machine) (al : List Act) (v : Vars) : Prop :=
  v.pal = al.length ∧ v.nal = BitVec.ofNat 8 al.length ∧ al.length ≤ m.maxSegs ∧ ∀ k a, al[k]? = some a → v.al k = some a

/-- The states to enter are stored. -/
def SE (m : Machine) (ent : List Vid) (v : Vars) : Prop :=
  v.nn = BitVec.ofNat 8 ent.length ∧ ent.length ≤ m.maxDepth ∧ ∀ k a, ent[k]? = some a → v.sentry k = some a

theorem ofNat8_zero_iff {n : Nat} (h : n < 256) : BitVec.ofNat 8 n = 0 ↔ n = 0 := by
  constructor
  · intro he
    have := congrArg BitVec.toNat he
    simp at this
    omega
  · rintro rfl; rfl

theorem ofNat8_succ (n : Nat) : BitVec.ofNat 8 n + 1 = BitVec.ofNat 8 (n + 1) := by
  apply BitVec.eq_of_toNat_eq; simp [BitVec.toNat_add]

theorem ofNat8_pred {n : Nat} (_h : n + 1 < 256) : BitVec.ofNat 8 (n + 1) - 1 = BitVec.ofNat 8 n := by
  rw [← ofNat8_succ]; exact BitVec.add_sub_cancel _ _

theorem execLoop_sim (hT : Keeps i T D) (hc : CallOK p d i T D) (fit : Fits (p.mach i)) (e : Sig) :
    ∀ (rest pre : List Act) (f : Nat) (s : World × Vars), rest.length < f → (pre ++ rest).length ≤ (p.mach i).maxSegs →
    s.2.pal = pre.length → s.2.nal = BitVec.ofNat 8 rest.length →
    (∀ k a, (pre ++ rest)[k]? = some a → s.2.al k = some a) →
    Sim i T D (execLoop p d i e f) (SM.exec e rest) (fun _ _ v => ∃ k, v = { s.2 with pal := k, nal := 0 }) s := by
  intro rest
  induction rest with
  | nil =>
    intro pre f s hf hl hp hn ha
    cases f with
    | zero => exact absurd hf (by simp)
    | succ f =>
      unfold execLoop SM.exec
      refine Sim.bind_get ?_
      rw [if_pos (by rw [hn]; rfl)]
      refine Sim.pure ⟨s.2.pal, ?_⟩
      have : s.2.nal = 0 := by rw [hn]; rfl
      rw [← this]
  | cons a rest ih =>
    intro pre f s hf hl hp hn ha
    cases f with
    | zero => exact absurd hf (by simp)
    | succ f =>
      have hseg := fit.segs
      simp only [List.length_append, List.length_cons] at hl hf
      unfold execLoop SM.exec
      refine Sim.bind_get ?_
      have hne : ¬ s.2.nal = 0 := by
        rw [hn]
        intro h
        have := (ofNat8_zero_iff (n := (a :: rest).length) (by simp; omega)).1 h
        simp at this
      rw [if_neg hne]
      have hrd : rdA (p.mach i) s.2.pal s = ((s.1, s.2), .ok (some a)) := by
        have h1 : s.2.al s.2.pal = some a := ha _ _ (by rw [hp]; simp)
        have h2 : s.2.pal < (p.mach i).maxSegs := by omega
        simp [rdA, Low.get, Bind.bind, Low.bind, h2, Pure.pure, h1]
      refine Sim.bind_pure hrd ?_
      simp only
      refine Sim.bind hT (Sim.call hc rfl) ?_
      rintro _ _ s' hv
      simp only at hv
      refine Sim.bind_set ?_
      have := ih (pre ++ [a]) f (s'.1, { s'.2 with pal := s'.2.pal + 1, nal := s'.2.nal - 1 }) (by omega) (by simp; omega)
        (by simp [hv, hp]) (by
          simp only [hv, hn, List.length_cons]
          exact ofNat8_pred (by omega)) (by
          intro k b hb
          simp only [hv]
          exact ha k b (by simpa using hb))
      refine this.weaken ?_
      rintro _ _ v ⟨k, hk⟩
      refine ⟨k, ?_⟩
      rw [hk, hv]

theorem exec_sim (hT : Keeps i T D) (hc : CallOK p d i T D) (fit : Fits (p.mach i)) (e : Sig) {al : List Act} {f : Nat}
    {s : World × Vars} (h : AL (p.mach i) al s.2) (hf : 8 < f) :
    Sim i T D (exec p d i e f) (SM.exec e al) (fun _ _ v => v = { s.2 with pal := 0, nal := 0 }) s := by
  have hx : SM.exec e al = (SM.exec e al >>= fun u => Pure.pure u) := by
    funext m
    change _ = Eng.bind _ _ m
    unfold Eng.bind
    cases SM.exec e al m with
    | mk a b => cases b <;> rfl
  rw [hx]
  unfold exec
  refine Sim.bind_set ?_
  have hseg := fit.segs
  obtain ⟨h1, h2, h3, h4⟩ := h
  refine Sim.bind hT (execLoop_sim hT hc fit e al [] f _ (by omega) (by simpa using h3) rfl h2 (by simpa using h4)) ?_
  rintro _ _ s' ⟨k, hk⟩
  refine Sim.set ?_
  rw [hk]

/-- Only the list of actions changes. -/
def FrA (v v' : Vars) : Prop := v' = { v with al := v'.al, pal := v'.pal, nal := v'.nal }

theorem addAct_sim (hT : Keeps i T D) (fit : Fits (p.mach i)) {al : List Act} (a : Option Act) {s : World × Vars}
    (h : AL (p.mach i) al s.2) :
    Sim i T D (addAct p i a) (pushAct (p.mach i) al a) (fun al' _ v => AL (p.mach i) al' v ∧ FrA s.2 v) s := by
  obtain ⟨h1, h2, h3, h4⟩ := h
  have hseg := fit.segs
  have hnal : s.2.nal.toNat = al.length := by rw [h2]; simp; omega
  unfold addAct pushAct SM.addAct
  refine Sim.bind_get ?_
  rw [hnal]
  by_cases hf : (p.mach i).maxSegs ≤ al.length
  · rw [if_pos hf, if_pos hf]; exact Sim.error
  · rw [if_neg hf, if_neg hf]
    cases a with
    | none => exact Sim.pure ⟨⟨h1, h2, h3, h4⟩, rfl⟩
    | some x =>
      have hw : wrA (p.mach i) s.2.pal (some x) s =
          ((s.1, { s.2 with al := fun j => if j = s.2.pal then some x else s.2.al j }), .ok ()) := by
        unfold wrA; rw [if_pos (by omega)]; rfl
      simp only
      refine Sim.bind_pure hw ?_
      refine Sim.set ?_
      refine ⟨⟨by simp [h1], (by simp only [h2, List.length_append, List.length_singleton]; exact ofNat8_succ _), by simp; omega, ?_⟩, rfl⟩
      intro k b hb
      simp only
      by_cases hk : k = s.2.pal
      · rw [if_pos hk]
        rw [hk, h1] at hb
        simpa using hb
      · rw [if_neg hk]
        have hlt : k < al.length + 1 := by
          have := (List.getElem?_eq_some_iff.1 hb).1
          simpa using this
        rw [List.getElem?_append_left (by omega)] at hb
        exact h4 k b hb

theorem startSeg_sim (hT : Keeps i T D) (fit : Fits (p.mach i)) {s : World × Vars} :
    Sim i T D (startSeg p i) (pushAct (p.mach i) [] s.2.trnAct)
      (fun al' _ v => AL (p.mach i) al' v ∧ v.stn = s.2.stn ∧ v.nn = s.2.nn) s := by
  unfold startSeg
  refine Sim.bind_set (Sim.bind_get ?_)
  refine (addAct_sim hT fit (al := []) _ ⟨rfl, rfl, by simp, by simp⟩).weaken ?_
  rintro a b v ⟨h1, h2⟩
  exact ⟨h1, by rw [h2], by rw [h2]⟩

theorem searchUp_sim (hT : Keeps i T D) (hc : CallOK p d i T D) (e : Sig) : ∀ (f : Nat) (s : World × Vars) (st : Vid),
    s.2.stn = some st →
    Sim i T D (searchUp p d i e f) (SM.searchUp (p.mach i) (p.env i) e f st)
      (fun a b v => b = a.map (fun x => x.2) ∧ ∀ x, a = some x → v.stn = some x.1) s := by
  intro f
  induction f with
  | zero => intro s st _; exact Sim.stop
  | succ f ih =>
    intro s st hst
    unfold searchUp SM.searchUp
    refine Sim.bind_get ?_
    simp only [hst]
    cases htb : (p.mach i).trtbl st with
    | none => exact Sim.ub
    | some tbl =>
      simp only
      refine Sim.bind hT (findTrn_sim hT hc e tbl s) ?_
      rintro a b s' ⟨rfl, hv⟩
      cases a with
      | some t =>
        refine Sim.pure ⟨rfl, ?_⟩
        intro x hx
        cases hx
        rw [hv]; exact hst
      | none =>
        simp only
        refine Sim.bind_get ?_
        rw [hv]
        simp only [hst]
        cases hp : (p.mach i).parent st with
        | none => exact Sim.ub
        | some q =>
          simp only
          refine Sim.bind_set ?_
          cases q with
          | none =>
            exact Sim.pure ⟨rfl, by simp⟩
          | some q => exact ih _ q rfl

/-- Only the states to enter change. -/
def FrS (v v' : Vars) : Prop := v' = { v with sentry := v'.sentry }

theorem wrS_eq {m : Machine} {k : Nat} (h : k < m.maxDepth) (x : Option Vid) (s : World × Vars) :
    wrS m k x s = ((s.1, { s.2 with sentry := fun j => if j = k then x else s.2.sentry j }), .ok ()) := by
  unfold wrS; rw [if_pos h]; rfl

theorem rdS_eq {m : Machine} {k : Nat} (h : k < m.maxDepth) (s : World × Vars) :
    rdS m k s = ((s.1, s.2), .ok (s.2.sentry k)) := by
  simp [rdS, Low.get, Bind.bind, Low.bind, h, Pure.pure]

/-- The states listed so far are stored. -/
def Stored (acc : List Vid) (v : Vars) : Prop := ∀ k a, acc[k]? = some a → v.sentry k = some a

theorem Stored.snoc {acc : List Vid} {v : Vars} (h : Stored acc v) (x : Vid) :
    Stored (acc ++ [x]) { v with sentry := fun j => if j = acc.length then some x else v.sentry j } := by
  intro k a hk
  simp only
  by_cases he : k = acc.length
  · rw [if_pos he]; rw [he] at hk; simpa using hk
  · rw [if_neg he]
    have hlt := (List.getElem?_eq_some_iff.1 hk).1
    simp only [List.length_append, List.length_singleton] at hlt
    rw [List.getElem?_append_left (by omega)] at hk
    exact h k a hk

theorem addTargetLoop_sim (hT : Keeps i T D) (cmp : Option Vid) : ∀ (f : Nat) (st : Option Vid) (acc : List Vid)
    (s : World × Vars), acc.length ≤ (p.mach i).maxDepth → Stored acc s.2 →
    Sim i T D (addTargetLoop p i cmp f st acc.length (BitVec.ofNat 8 acc.length))
      (Eng.lift (SM.addTargetLoop (p.mach i) cmp f st acc))
      (fun a b v => b = BitVec.ofNat 8 a.length ∧ a.length ≤ (p.mach i).maxDepth ∧ Stored a v ∧ FrS s.2 v) s := by
  intro f
  induction f with
  | zero => intro st acc s _ _; exact Sim.stop
  | succ f ih =>
    intro st acc s hl hs
    unfold addTargetLoop SM.addTargetLoop
    by_cases hc : st = cmp
    · rw [if_pos hc, if_pos hc]
      exact Sim.pure (a := acc) ⟨rfl, hl, hs, rfl⟩
    · rw [if_neg hc, if_neg hc]
      cases st with
      | none => exact Sim.ub
      | some x =>
        simp only
        by_cases hd : acc.length < (p.mach i).maxDepth
        · rw [if_pos hd]
          refine Sim.bind_pure (wrS_eq hd _ _) ?_
          cases hp : (p.mach i).parent x with
          | none => exact Sim.ub
          | some q =>
            simp only
            have := ih q (acc ++ [x]) (s.1, { s.2 with sentry := fun j => if j = acc.length then some x else s.2.sentry j })
              (by simp; omega) (hs.snoc x)
            simp only [List.length_append, List.length_singleton] at this
            rw [ofNat8_succ]
            refine this.weaken ?_
            rintro a b v ⟨h1, h2, h3, h4⟩
            refine ⟨h1, h2, h3, ?_⟩
            rw [FrS] at h4 ⊢
            rw [h4]
        · rw [if_neg hd]; exact Sim.ub

theorem addTarget_sim (hT : Keeps i T D) (f : Nat) (t : Vid) (cmp : Option Vid) (s : World × Vars) :
    Sim i T D (addTarget p i f t cmp) (Eng.lift (SM.addTarget (p.mach i) f t cmp))
      (fun a b v => b = BitVec.ofNat 8 a.length ∧ a.length ≤ (p.mach i).maxDepth ∧ Stored a v ∧ FrS s.2 v) s := by
  have key := addTargetLoop_sim (p := p) hT cmp f (some t) [] s (by simp) (by intro k a h; simp at h)
  have k0 : Sim i T D (Pure.pure (0 : BitVec 8)) (Eng.lift (.ok ([] : List Vid)))
      (fun a b v => b = BitVec.ofNat 8 a.length ∧ a.length ≤ (p.mach i).maxDepth ∧ Stored a v ∧ FrS s.2 v) s :=
    Sim.pure (a := ([] : List Vid)) ⟨rfl, by simp, by intro k a h; simp at h, rfl⟩
  unfold addTarget SM.addTarget
  cases hv : (p.mach i).vert t with
  | none => exact Sim.ub
  | some x => cases x <;> first | exact key | exact k0

/-- The list of actions does not change. -/
def FrX (v v' : Vars) : Prop := v'.al = v.al ∧ v'.pal = v.pal ∧ v'.nal = v.nal

theorem lcaLoop_sim (hT : Keeps i T D) (fit : Fits (p.mach i)) (x : Vid) : ∀ (f : Nat) (st : Option Vid) (ent : List Vid)
    (s : World × Vars), s.2.stn = st → s.2.stx = some x → s.2.snl = ent.length → s.2.ixn = BitVec.ofNat 8 ent.length →
    s.2.islca = false → ent.length ≤ (p.mach i).maxDepth → Stored ent s.2 →
    Sim i T D (lcaLoop p i f) (Eng.lift (findLca (p.mach i) x f st ent))
      (fun a _ v => v.snl = a.2.length ∧ v.ixn = BitVec.ofNat 8 a.2.length ∧ v.islca = a.1 ∧ Stored a.2 v ∧
        a.2.length ≤ (p.mach i).maxDepth ∧ (a.1 = true → v.stn = some x) ∧
        v.stx = some x ∧ v.ixx = s.2.ixx ∧ FrX s.2 v) s := by
  intro f
  induction f with
  | zero => intro st ent s _ _ _ _ _ _ _; exact Sim.stop
  | succ f ih =>
    intro st ent s h1 h2 h3 h4 h5 h6 h7
    have hd := fit.depth
    unfold lcaLoop
    refine Sim.bind_get ?_
    rw [h1]
    cases st with
    | none => exact Sim.pure (a := (false, ent)) ⟨h3, h4, h5, h7, h6, by simp, h2, rfl, rfl, rfl, rfl⟩
    | some n =>
      simp only [h2, findLca]
      by_cases hn : n = x
      · subst hn
        rw [if_pos rfl, if_pos rfl]
        exact Sim.set (a := (true, ent)) ⟨h3, h4, rfl, h7, h6, fun _ => h1, h2, rfl, rfl, rfl, rfl⟩
      · rw [if_neg (by intro hh; cases hh; exact hn rfl), if_neg hn]
        have hix : s.2.ixn.toNat = ent.length := by rw [h4]; simp; omega
        rw [hix]
        by_cases hl : ent.length < (p.mach i).maxDepth
        · rw [if_pos hl, if_pos hl, h3]
          refine Sim.bind_pure (wrS_eq hl _ _) ?_
          cases hp : (p.mach i).parent n with
          | none => exact Sim.ub
          | some q =>
            simp only
            refine Sim.bind_set ?_
            exact ih q (ent ++ [n]) (s.1, { s.2 with
                sentry := fun j => if j = ent.length then some n else s.2.sentry j, stn := q, snl := s.2.snl + 1,
                ixn := s.2.ixn + 1 }) rfl h2 (by simp [h3])
              (by simp only [h4, List.length_append, List.length_singleton]; exact ofNat8_succ _) h5 (by simp; omega)
              (h7.snoc n)
        · rw [if_neg hl, if_neg hl]
          exact Sim.stop

theorem lift_bind {α β : Type} (a : Ans α) (k : α → Eng β) :
    (Eng.lift a >>= k) = match a with | .ok x => k x | .stop c => Eng.stop c := by
  funext m
  change Eng.bind _ _ m = _
  unfold Eng.bind Eng.lift
  cases a <;> rfl

theorem updShallow_sim (hT : Keeps i T D) (x : Vid) (s : World × Vars) :
    Sim i T D (updShallow p i (some x)) (SM.updShallow (p.mach i) x) (fun _ _ v => v = s.2) s := by
  unfold updShallow SM.updShallow
  rw [lift_bind]
  cases hst : shallowTarget (p.mach i) x with
  | stop c => simp only [hst]; exact Sim.stop
  | ok r =>
    cases r with
    | none => simp only [hst]; exact Sim.pure rfl
    | some h => simp only [hst]; exact Sim.upd hT rfl ⟨[], by simp⟩

theorem exitLoop_sim (hT : Keeps i T D) (hc : CallOK p d i T D) (fit : Fits (p.mach i)) (ts : Vid) :
    ∀ (f : Nat) (ix : Nat) (stx : Option Vid) (ent : List Vid) (s : World × Vars), s.2.stx = stx →
    (∀ x, stx = some x → ∃ l, Spec.Path (p.mach i) x l ∧ ix + l.length ≤ 255) →
    s.2.ixx = BitVec.ofNat 8 ix → s.2.islca = false →
    (stx = none → s.2.ixn = BitVec.ofNat 8 ent.length ∧ ent.length ≤ (p.mach i).maxDepth ∧ Stored ent s.2) →
    Sim i T D (exitLoop p d i ts f) (SM.exits (p.mach i) ts f ix stx ent)
      (fun a _ v => v.ixn = BitVec.ofNat 8 a.length ∧ a.length ≤ (p.mach i).maxDepth ∧ Stored a v ∧ FrX s.2 v) s := by
  intro f
  induction f with
  | zero => intro ix stx ent s _ _ _ _ _; exact Sim.stop
  | succ f ih =>
    intro ix stx ent s h1 h2 h3 h4 h5
    unfold exitLoop
    refine Sim.bind_get ?_
    rw [h1]
    cases stx with
    | none =>
      obtain ⟨a, b, c⟩ := h5 rfl
      exact Sim.pure ⟨a, b, c, rfl, rfl, rfl⟩
    | some x =>
      obtain ⟨l, hl, hlen⟩ := h2 x rfl
      simp only [SM.exits]
      refine Sim.bind_set ?_
      refine Sim.bind hT (lcaLoop_sim hT fit x f (some ts) [] _ rfl h1 rfl rfl h4 (by simp)
        (by intro k a h; simp at h)) ?_
      rintro ⟨r1, r2⟩ _ s' ⟨g1, g2, g3, g4, g5, g6, hstx, g8, hal⟩
      simp only at g1 g2 g3 g4 g5 g6
      have hixx : s'.2.ixx = BitVec.ofNat 8 ix := g8.trans h3
      have hlp : 1 ≤ l.length := by cases hl <;> simp
      refine Sim.bind_get ?_
      cases r1 with
      | true =>
        simp only [g3]
        cases ix with
        | zero =>
          simp only
          rw [if_pos (.inr hixx)]
          refine Sim.bind hT (Sim.call hc rfl) ?_
          rintro _ _ s2 hv
          refine Sim.bind_get ?_
          rw [hv, hstx]
          refine Sim.bind hT (updShallow_sim hT x s2) ?_
          rintro _ _ s3 hv3
          rw [if_pos g3]
          by_cases hd : r2.length < (p.mach i).maxDepth
          · rw [if_pos hd, g1, g6 rfl]
            refine Sim.bind_pure (wrS_eq hd _ _) ?_
            refine Sim.set ⟨?_, ?_, ?_, ?_⟩
            · simp only [hv3, hv, g2, List.length_append, List.length_singleton]; exact ofNat8_succ _
            · simp; omega
            · have := g4.snoc x
              rw [hv3, hv]
              exact this
            · simp only [FrX, hv3, hv]; exact hal
          · rw [if_neg hd]; exact Sim.ub
        | succ k =>
          simp only
          rw [if_neg ?_]
          · exact Sim.pure ⟨g2, g5, g4, hal⟩
          · rintro (h | h)
            · cases h
            · rw [hixx] at h
              have := (ofNat8_zero_iff (n := k + 1) (by omega)).1 h
              omega
      | false =>
        simp only [g3]
        rw [if_pos (.inl trivial)]
        refine Sim.bind hT (Sim.call hc rfl) ?_
        rintro _ _ s2 hv
        refine Sim.bind_get ?_
        rw [hv, hstx]
        refine Sim.bind hT (updShallow_sim hT x s2) ?_
        rintro _ _ s3 hv3
        rw [if_neg (by rw [g3]; simp)]
        simp only
        cases hp : (p.mach i).parent x with
        | none => exact Sim.ub
        | some q =>
          simp only
          refine Sim.bind_set ?_
          have e3 : s3.2 = s'.2 := by rw [hv3, hv]
          refine (ih (ix + 1) q r2 _ rfl ?_ ?_ ?_ ?_).weaken ?_
          · intro y hy
            subst hy
            cases hl with
            | root h => rw [h] at hp; cases hp
            | child h h' =>
              rw [h] at hp; cases hp
              refine ⟨_, h', ?_⟩
              simp only [List.length_cons] at hlen
              omega
          · simp only [e3, hixx]; exact ofNat8_succ _
          · simp only [e3, g3]
          · intro _; simp only [e3]; exact ⟨g2, g5, g4⟩
          · rintro a b v ⟨k1, k2, k3, k4⟩
            refine ⟨k1, k2, k3, ?_⟩
            obtain ⟨u1, u2, u3⟩ := k4
            obtain ⟨w1, w2, w3⟩ := hal
            exact ⟨u1.trans (by simp only [e3]; exact w1), u2.trans (by simp only [e3]; exact w2),
              u3.trans (by simp only [e3]; exact w3)⟩

theorem AL.of_frX {m : Machine} {al : List Act} {v v' : Vars} (h : AL m al v) (hf : FrX v v') : AL m al v' := by
  obtain ⟨h1, h2, h3, h4⟩ := h
  obtain ⟨f1, f2, f3⟩ := hf
  refine ⟨by rw [f2, h1], by rw [f3, h2], h3, ?_⟩
  intro k a hk
  rw [f1]; exact h4 k a hk

theorem eng_bind_pure {α : Type} (y : Eng α) : (y >>= fun u => Pure.pure u) = y := by
  funext m
  change Eng.bind _ _ m = _
  unfold Eng.bind
  cases y m with
  | mk a b => cases b <;> rfl

theorem stage4_sim (hT : Keeps i T D) (hc : CallOK p d i T D) (fit : Fits (p.mach i)) {f : Nat} {creation micro : Bool}
    {cs stn ts : Vid} {al : List Act} {s : World × Vars} (hstn : s.2.stn = some stn) (hal : AL (p.mach i) al s.2)
    (hnn : creation = true → micro = false → s.2.nn = 0) (hcs : ∃ l, Spec.Path (p.mach i) cs l ∧ l.length ≤ 255) :
    Sim i T D (stage4 p d i f creation micro cs ts) (SM.stage4 (p.mach i) f creation micro cs stn ts)
      (fun a _ v => SE (p.mach i) a v ∧ AL (p.mach i) al v) s := by
  match micro, creation with
  | true, c =>
    unfold stage4 SM.stage4
    simp only
    refine Sim.bind_get ?_
    rw [hstn]
    rw [← eng_bind_pure (Eng.lift _)]
    refine Sim.bind hT (addTarget_sim hT f ts (some stn) s) ?_
    rintro a b s' ⟨h1, h2, h3, h4⟩
    refine Sim.set ⟨⟨h1, h2, h3⟩, ?_⟩
    exact hal.of_frX (by rw [h4]; exact ⟨rfl, rfl, rfl⟩)
  | false, true =>
    unfold stage4 SM.stage4
    simp only
    rw [← eng_bind_pure (Eng.lift _)]
    refine Sim.bind hT (addTarget_sim hT f ts none s) ?_
    rintro a b s' ⟨h1, h2, h3, h4⟩
    refine Sim.set ⟨⟨?_, h2, h3⟩, ?_⟩
    · have : s'.2.nn = 0 := by rw [h4]; exact hnn rfl rfl
      simp [this, h1]
    · exact hal.of_frX (by rw [h4]; exact ⟨rfl, rfl, rfl⟩)
  | false, false =>
    unfold stage4 SM.stage4 exits
    simp only
    refine Sim.bind_set ?_
    rw [← eng_bind_pure (SM.exits _ _ _ _ _ _)]
    refine Sim.bind hT (exitLoop_sim hT hc fit ts f 0 (some cs) [] _ rfl ?_ rfl rfl (by intro h; cases h)) ?_
    · intro x hx
      cases hx
      simpa using hcs
    · rintro a b s' ⟨h1, h2, h3, h4⟩
      exact Sim.set ⟨⟨h1, h2, h3⟩, hal.of_frX h4⟩

theorem entryLoop_sim (hT : Keeps i T D) (hc : CallOK p d i T D) (fit : Fits (p.mach i)) :
    ∀ (pre post : List Vid) (f : Nat) (c : Bool) (s : World × Vars), pre.length < f →
    (pre ++ post).length ≤ (p.mach i).maxDepth → s.2.snl = pre.length → s.2.ixn = BitVec.ofNat 8 pre.length →
    Stored (pre ++ post) s.2 →
    Sim i T D (entryLoop p d i f c) (enter (p.mach i) pre.reverse c)
      (fun a b v => a = b ∧ v.snl = 0 ∧ Stored (pre ++ post) v) s := by
  intro pre
  induction hn : pre.length generalizing pre with
  | zero =>
    intro post f c s hf hl h1 h2 h3
    cases pre with
    | cons x y => simp at hn
    | nil =>
      cases f with
      | zero => exact absurd hf (by omega)
      | succ f =>
        unfold entryLoop
        refine Sim.bind_get ?_
        rw [if_pos (by rw [h2]; rfl)]
        exact Sim.pure ⟨rfl, by rw [h1], h3⟩
  | succ n ih =>
    intro post f c s hf hl h1 h2 h3
    obtain ⟨pre', x, rfl⟩ : ∃ pre' x, pre = pre' ++ [x] := by
      refine ⟨pre.dropLast, pre.getLast (by intro h; simp [h] at hn), ?_⟩
      exact (List.dropLast_concat_getLast _).symm
    have hd := fit.depth
    simp only [List.length_append, List.length_singleton] at hn hl h1 h2
    have hn' : pre'.length = n := by omega
    cases f with
    | zero => exact absurd hf (by omega)
    | succ f =>
      unfold entryLoop
      refine Sim.bind_get ?_
      rw [if_neg ?_]
      · rw [h1]
        simp only [List.reverse_append, List.reverse_singleton, List.singleton_append, enter]
        refine Sim.bind_set ?_
        have hx : s.2.sentry pre'.length = some x := h3 _ _ (by simp)
        refine Sim.bind_pure (rdS_eq (by omega) _) ?_
        simp only [hx, ← hn']
        refine Sim.bind hT (Sim.call hc rfl) ?_
        rintro _ _ s2 hv
        refine Sim.bind_get ?_
        simp only [hv]
        refine Sim.bind_pure (rdS_eq (by omega) _) ?_
        simp only [hv, hx]
        refine Sim.bind_set ?_
        have := ih pre' hn' ([x] ++ post) f (isCompletion (p.mach i) x)
          (s2.1, { s.2 with snl := pre'.length, ixn := s.2.ixn - 1 }) (by omega) (by simp; omega) hn' (by
            simp only [h2]
            rw [← hn']
            exact ofNat8_pred (by omega)) (by simpa [Stored] using h3)
        simpa using this
      · intro h
        rw [h2] at h
        have := (ofNat8_zero_iff (n := n + 1) (by omega)).1 h
        omega

theorem entries_sim (hT : Keeps i T D) (hc : CallOK p d i T D) (fit : Fits (p.mach i)) {ent : List Vid} {f : Nat}
    {c : Bool} {s : World × Vars} (h : SE (p.mach i) ent s.2) (hf : 8 < f) :
    Sim i T D (entries p d i f c) (enter (p.mach i) ent.reverse c)
      (fun a b v => a = b ∧ ∀ x l, ent = x :: l → v.stn = some x) s := by
  obtain ⟨h1, h2, h3⟩ := h
  have hd := fit.depth
  have hnn : s.2.nn.toNat = ent.length := by rw [h1]; simp; omega
  unfold entries
  refine Sim.bind_get ?_
  rw [if_neg (by omega)]
  refine Sim.bind_set ?_
  rw [← eng_bind_pure (enter _ _ _)]
  refine Sim.bind hT (entryLoop_sim hT hc fit ent [] f c _ (by omega) (by simpa using h2) hnn h1
    (by simpa [Stored] using h3)) ?_
  rintro a b s' ⟨rfl, g1, g2⟩
  refine Sim.bind_get ?_
  refine Sim.bind_pure (rdS_eq (by omega) _) ?_
  refine Sim.bind_set ?_
  refine Sim.pure ⟨rfl, ?_⟩
  rintro x l rfl
  rw [g1]
  exact g2 0 x (by simp)

theorem takeBranch_sim (hT : Keeps i T D) (hc : CallOK p d i T D) (fit : Fits (p.mach i)) (e : Sig) (tbl : List Tr)
    {al : List Act} {s : World × Vars} (h : AL (p.mach i) al s.2) :
    Sim i T D (takeBranch p d i e tbl) (SM.takeBranch (p.mach i) (p.env i) e tbl al)
      (fun a b v => a.1 = b ∧ AL (p.mach i) a.2 v ∧ FrA s.2 v) s := by
  unfold takeBranch SM.takeBranch
  refine Sim.bind hT (findBranch_sim hT hc e tbl s) ?_
  rintro a b s' ⟨rfl, hv⟩
  cases a with
  | none => exact Sim.stop
  | some t =>
    simp only
    refine Sim.bind hT (addAct_sim hT fit t.action (al := al) (by rw [hv]; exact h)) ?_
    rintro al' _ s2 ⟨g1, g2⟩
    cases t.target with
    | none => exact Sim.ub
    | some w =>
      refine Sim.pure ⟨rfl, g1, ?_⟩
      rw [FrA] at g2 ⊢
      rw [hv] at g2
      exact g2

theorem takeHist_sim (hT : Keeps i T D) (hc : CallOK p d i T D) (fit : Fits (p.mach i)) (e : Sig) (h : Vid) (par : Option Vid)
    (trn : Tr) {al : List Act} {s : World × Vars} (hal : AL (p.mach i) al s.2) :
    Sim i T D (takeHist p d i e h par trn) (SM.takeHist (p.mach i) (p.env i) e h par trn al)
      (fun a b v => a.2.1 = b ∧ v.stn = some a.1 ∧ AL (p.mach i) a.2.2 v ∧ v.nn = s.2.nn) s := by
  unfold takeHist SM.takeHist
  cases par with
  | none => exact Sim.stop
  | some q =>
    simp only
    cases hq : (p.mach i).vert q with
    | none => exact Sim.ub
    | some x =>
      cases x with
      | composite p1 t1 d1 i1 hp =>
        simp only
        by_cases ha : (p.mach i).assertEn = true ∧ hp = none
        · rw [if_pos ha, if_pos ha]; exact Sim.stop
        · rw [if_neg ha, if_neg ha]
          refine Sim.bind_set (Sim.bind_mem ?_)
          simp only
          cases (s.1.mem i).hist h with
          | some w => exact Sim.pure (a := (q, w, al)) ⟨rfl, rfl, hal, rfl⟩
          | none =>
            simp only
            cases trn.target with
            | none => exact Sim.pure (a := (q, q, al)) ⟨rfl, rfl, hal, rfl⟩
            | some w =>
              simp only
              refine Sim.bind hT (evalGuard_sim hT hc e trn.guard _) ?_
              rintro b _ s' ⟨rfl, hv⟩
              cases b with
              | false => exact Sim.stop
              | true =>
                simp only
                refine Sim.bind hT (addAct_sim hT fit trn.action (al := al) (by rw [hv]; exact hal)) ?_
                rintro al' _ s2 ⟨g1, g2⟩
                refine Sim.pure (a := (q, w, al')) ⟨rfl, ?_, g1, ?_⟩
                · rw [g2, hv]
                · rw [g2, hv]
      | _ => exact Sim.ub

theorem precheck_sim (hT : Keeps i T D) {f : Nat} {micro : Bool} {ets stn : Vid} {s : World × Vars}
    (h : s.2.stn = some stn) :
    Sim i T D (precheck p i f micro ets) (SM.precheck (p.mach i) f micro ets stn)
      (fun _ _ v => v.stn = some stn ∧ FrX s.2 v ∧ (micro = false → v.nn = s.2.nn)) s := by
  unfold precheck SM.precheck
  cases micro with
  | false =>
    simp only [Bool.false_eq_true, if_false]
    exact Sim.pure ⟨h, ⟨rfl, rfl, rfl⟩, fun _ => rfl⟩
  | true =>
    simp only [if_true]
    refine Sim.bind_get ?_
    rw [h]
    refine Sim.bind hT (addTarget_sim hT f ets (some stn) s) ?_
    rintro a b s' ⟨_, _, _, g⟩
    refine Sim.set ⟨?_, ?_, by simp⟩
    · change s'.2.stn = _
      rw [g]; exact h
    · change s'.2.al = _ ∧ s'.2.pal = _ ∧ s'.2.nal = _
      rw [g]; exact ⟨rfl, rfl, rfl⟩

theorem resolve_sim (hT : Keeps i T D) (hc : CallOK p d i T D) (fit : Fits (p.mach i)) (e : Sig) (micro : Bool) :
    ∀ (f : Nat) (stn ets : Vid) (al : List Act) (s : World × Vars), s.2.stn = some stn → AL (p.mach i) al s.2 →
    Sim i T D (resolve p d i e micro f ets) (SM.resolve (p.mach i) (p.env i) e micro f stn ets al)
      (fun a b v => a.2.1 = b ∧ v.stn = some a.1 ∧ AL (p.mach i) a.2.2 v ∧ (micro = false → v.nn = s.2.nn)) s := by
  intro f
  induction f with
  | zero => intro stn ets al s _ _; exact Sim.stop
  | succ f ih =>
    intro stn ets al s h1 h2
    unfold resolve SM.resolve
    have hret : Sim i T D (Pure.pure ets) (Pure.pure (stn, ets, al))
      (fun a b v => a.2.1 = b ∧ v.stn = some a.1 ∧ AL (p.mach i) a.2.2 v ∧ (micro = false → v.nn = s.2.nn)) s :=
      Sim.pure ⟨rfl, h1, h2, fun _ => rfl⟩
    have htail : ∀ (r : Vid × List Act) (ets' : Vid) (s' : World × Vars) (stn' : Vid), r.1 = ets' → s'.2.stn = some stn' →
        AL (p.mach i) r.2 s'.2 → s'.2.nn = s.2.nn →
        Sim i T D (precheck p i f micro ets' >>= fun _ => resolve p d i e micro f ets')
          (SM.precheck (p.mach i) f micro r.1 stn' >>= fun _ => SM.resolve (p.mach i) (p.env i) e micro f stn' r.1 r.2)
          (fun a b v => a.2.1 = b ∧ v.stn = some a.1 ∧ AL (p.mach i) a.2.2 v ∧ (micro = false → v.nn = s.2.nn)) s' := by
      rintro ⟨r1, r2⟩ ets' s' stn' rfl hs hal hnn
      refine Sim.bind hT (precheck_sim hT hs) ?_
      rintro _ _ s2 ⟨g1, g2, g3⟩
      refine (ih stn' r1 r2 s2 g1 (hal.of_frX g2)).weaken ?_
      rintro a b v ⟨k1, k2, k3, k4⟩
      exact ⟨k1, k2, k3, fun hm => (k4 hm).trans ((g3 hm).trans hnn)⟩
    cases hv : (p.mach i).vert ets with
    | none => exact Sim.ub
    | some x =>
      cases x with
      | basic _ _ => exact hret
      | composite _ _ _ _ _ => exact hret
      | final _ => exact hret
      | unknown => exact Sim.error
      | choice tbl =>
        simp only
        refine Sim.bind hT (exec_sim hT hc fit e h2 (by omega)) ?_
        rintro _ _ s' hv
        refine Sim.bind hT (takeBranch_sim hT hc fit e tbl (al := []) ?_) ?_
        · rw [hv]; exact ⟨rfl, rfl, by simp, by simp⟩
        · rintro r ets' s2 ⟨g1, g2, g3⟩
          refine htail r ets' s2 stn g1 ?_ g2 ?_
          · rw [g3, hv]; exact h1
          · rw [g3, hv]
      | cond tbl =>
        simp only
        refine Sim.bind hT (takeBranch_sim hT hc fit e tbl h2) ?_
        rintro r ets' s2 ⟨g1, g2, g3⟩
        refine htail r ets' s2 stn g1 ?_ g2 ?_
        · rw [g3]; exact h1
        · rw [g3]
      | hist dp par trn =>
        simp only
        refine Sim.bind hT (takeHist_sim hT hc fit e ets par trn h2) ?_
        rintro ⟨r0, r⟩ ets' s2 ⟨g1, g2, g3, g4⟩
        exact htail r ets' s2 r0 g1 g2 g3 g4

theorem segLoop_sim (hT : Keeps i T D) (hc : CallOK p d i T D) (fit : Fits (p.mach i)) (e : Sig) (creation : Bool) (cs : Vid)
    (hcs : ∃ l, Spec.Path (p.mach i) cs l ∧ l.length ≤ 255) :
    ∀ (f : Nat) (micro : Bool) (stn ets : Vid) (ta : Option Act) (c : Bool) (s : World × Vars), s.2.stn = some stn →
    s.2.trnAct = ta → (creation = true → micro = false → s.2.nn = 0) →
    Sim i T D (segLoop p d i e creation cs f micro ets c) (SM.segLoop (p.mach i) (p.env i) e creation cs f micro stn ets ta c)
      (fun a b v => a.2 = b ∧ v.stn = some a.1) s := by
  intro f
  induction f with
  | zero => intro micro stn ets ta c s _ _ _; exact Sim.stop
  | succ f ih =>
    intro micro stn ets ta c s h1 h2 h3
    unfold segLoop SM.segLoop
    rw [← h2]
    refine Sim.bind hT (startSeg_sim hT fit) ?_
    rintro al _ s1 ⟨a1, a2, a3⟩
    refine Sim.bind hT (resolve_sim hT hc fit e micro f stn ets al s1 (a2.trans h1) a1) ?_
    rintro ⟨r1, r2, r3⟩ ts s2 ⟨b1, b2, b3, b4⟩
    simp only at b1 b2 b3 b4
    subst b1
    refine Sim.bind hT (stage4_sim hT hc fit b2 b3 (fun hcr hm => (b4 hm).trans (a3.trans (h3 hcr hm))) hcs) ?_
    rintro ent _ s3 ⟨c1, c2⟩
    refine Sim.bind hT (exec_sim hT hc fit e c2 (by omega)) ?_
    rintro _ _ s4 hv4
    refine Sim.bind hT (entries_sim hT hc fit (ent := ent) (c := c) (by rw [hv4]; exact c1) (by omega)) ?_
    rintro cc _ s5 ⟨rfl, d2⟩
    refine Sim.bind_set ?_
    simp only
    cases hcomp : (p.mach i).comp r2 with
    | some x =>
      obtain ⟨dc, ia⟩ := x
      simp only
      refine Sim.bind_set ?_
      exact ih true r2 dc ia cc _ rfl rfl (by simp)
    | none =>
      simp only
      cases ent with
      | nil => exact Sim.ub
      | cons x l => exact Sim.pure (a := (x, cc)) ⟨rfl, d2 x l rfl⟩

theorem finish_sim (hT : Keeps i T D) {f : Nat} {stn : Vid} {s : World × Vars} (h : s.2.stn = some stn) :
    Sim i T D (finish p i f) (SM.finish (p.mach i) f stn) (fun _ _ _ => True) s := by
  unfold finish SM.finish
  refine Sim.bind_get ?_
  rw [h]
  simp only
  cases (p.mach i).parent stn with
  | none => exact Sim.ub
  | some q =>
    simp only [lift_bind]
    cases deepTargets (p.mach i) f q [] with
    | stop c => exact Sim.stop
    | ok ks => exact Sim.upd hT trivial ⟨[.stable stn], by simp [quiet]⟩

theorem compound_sim (hT : Keeps i T D) (hc : CallOK p d i T D) (fit : Fits (p.mach i)) (hi : Spec.IsState (p.mach i) (p.mach i).istate)
    (f : Nat) (e : Sig) (creation : Bool) (s : World × Vars)
    (hs : creation = false → ∀ cs, (s.1.mem i).state = some cs → Spec.IsState (p.mach i) cs) :
    Sim i T D (compound p d i f e creation) (SM.compound (p.mach i) (p.env i) f e creation) (fun a b _ => a = b) s := by
  unfold compound SM.compound
  cases creation with
  | true =>
    simp only
    refine Sim.bind_set ?_
    refine Sim.bind hT (segLoop_sim hT hc fit e true _ (fit.path _ hi) f false (p.mach i).istate (p.mach i).istate
      (p.mach i).iaction false _ rfl rfl (fun _ _ => rfl)) ?_
    rintro ⟨a1, a2⟩ b s' ⟨rfl, h2⟩
    refine Sim.bind hT (finish_sim hT h2) ?_
    rintro _ _ s2 _
    exact Sim.pure rfl
  | false =>
    simp only
    refine Sim.bind_mem ?_
    cases hst : (s.1.mem i).state with
    | none => exact Sim.ub
    | some cs =>
      simp only
      refine Sim.bind_set ?_
      refine Sim.bind hT (searchUp_sim hT hc e f _ cs rfl) ?_
      rintro a b s' ⟨rfl, h2⟩
      cases a with
      | none => exact Sim.stop
      | some x =>
        obtain ⟨sx, t⟩ := x
        simp only [Option.map_some]
        refine Sim.bind_set ?_
        have h3 := h2 _ rfl
        simp only at h3
        cases htg : t.target with
        | none =>
          simp only
          refine Sim.bind hT (startSeg_sim hT fit (s := (s'.1, { s'.2 with trnAct := t.action, nEntry := 0 }))) ?_
          rintro al _ s2 ⟨a1, _, _⟩
          refine Sim.bind hT (exec_sim hT hc fit e a1 (by omega)) ?_
          rintro _ _ s3 _
          exact Sim.pure rfl
        | some ets =>
          simp only
          refine Sim.bind hT (segLoop_sim hT hc fit e false cs (fit.path _ (hs rfl cs hst)) f false sx ets t.action false _
            h3 rfl (by simp)) ?_
          rintro ⟨a1, a2⟩ b s2 ⟨rfl, h4⟩
          refine Sim.bind hT (finish_sim hT h4) ?_
          rintro _ _ s3 _
          exact Sim.pure rfl

end

end Verif.Nest
