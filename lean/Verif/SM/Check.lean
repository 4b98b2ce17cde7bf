import Verif.SM.PropsRun
/-
A decision procedure for well-formedness and limits of finite state machines, used to show that concrete machines meet
the hypotheses of the theorems.
-/
namespace Verif.SM
open Eng Spec

/-- The state and its ancestors, by following parents. -/
def pathOf (m : Machine) : Nat → Vid → Option (List Vid)
  | 0, _ => none
  | f + 1, v =>
    match m.parent v with
    | none => none
    | some none => some [v]
    | some (some p) => (pathOf m f p).map (v :: ·)

theorem pathOf_sound {m : Machine} : ∀ {f : Nat} {v : Vid} {l : List Vid}, pathOf m f v = some l → Path m v l := by
  intro f
  induction f with
  | zero => intro v l h; simp [pathOf] at h
  | succ f ih =>
    intro v l h
    unfold pathOf at h
    cases hp : m.parent v with
    | none => simp [hp] at h
    | some p =>
      cases p with
      | none => simp only [hp, Option.some.injEq] at h; rw [← h]; exact .root hp
      | some p =>
        simp only [hp, Option.map_eq_some_iff] at h
        obtain ⟨l', h', rfl⟩ := h
        exact .child hp (ih h')

theorem path_below {m : Machine} : ∀ {v : Vid} {l : List Vid} {c : Vid}, Path m v l → c ∈ l.tail → Below m c v := by
  intro v l c h
  induction h with
  | root => intro h; simp at h
  | @child s p l hp h2 ih =>
    intro hc
    simp only [List.tail_cons] at hc
    obtain ⟨r, rfl⟩ := h2.cons
    rcases List.mem_cons.1 hc with rfl | hc
    · exact .child hp
    · exact .trans hp (ih (by simpa using hc))

/-- Next vertices of a pseudostate. -/
def nexts (m : Machine) (v : Vid) : List Vid :=
  match m.vert v with
  | some (.cond tbl) => (branches tbl).filterMap Tr.target
  | some (.choice tbl) => (branches tbl).filterMap Tr.target
  | some (.hist _ _ trn) => trn.target.toList
  | _ => []

/-- Everything that can be reached, up to `f` rounds. -/
def closure (m : Machine) : Nat → List Vid → List Vid
  | 0, l => l
  | f + 1, l => closure m f (l ++ ((l.flatMap (nexts m)).filter fun x => x ∉ l).eraseDups)

theorem reach_closed {m : Machine} {S : List Vid} (hS : ∀ x ∈ S, ∀ y ∈ nexts m x, y ∈ S) {v w : Vid}
    (h : Reach m v w) : v ∈ S → w ∈ S := by
  induction h with
  | refl => exact id
  | cond hv hb ht _ ih =>
    intro h
    refine ih (hS _ h _ ?_)
    simp only [nexts, hv, List.mem_filterMap]
    exact ⟨_, hb, ht⟩
  | choice hv hb ht _ ih =>
    intro h
    refine ih (hS _ h _ ?_)
    simp only [nexts, hv, List.mem_filterMap]
    exact ⟨_, hb, ht⟩
  | default hv ht _ ih =>
    intro h
    refine ih (hS _ h _ ?_)
    simp [nexts, hv, ht]

/-- May be the target of a transition. -/
def isTarget (m : Machine) (v : Vid) : Bool :=
  match m.vert v with
  | none => false
  | some .unknown => false
  | some _ => true

theorem isTarget_sound {m : Machine} {v : Vid} (h : isTarget m v = true) : IsTarget m v := by
  unfold isTarget at h
  cases hv : m.vert v with
  | none => simp [hv] at h
  | some x => refine ⟨x, hv, ?_⟩; rintro rfl; simp [hv] at h

/-- A state has an ancestor chain whose members are composite states, within the configured depth. -/
def okState (m : Machine) (n : Nat) (v : Vid) : Bool :=
  match pathOf m (n + 1) v with
  | none => false
  | some l => l.length ≤ m.maxDepth && l.tail.all fun p => (m.comp p).isSome

/-- The default transition of a composite state stays inside. -/
def okDefault (m : Machine) (n : Nat) (c d : Vid) : Bool :=
  isTarget m d &&
  (closure m n [d]).all fun x =>
    (nexts m x).all (fun y => (closure m n [d]).contains y) &&
    match m.vert x with
    | some (.hist _ q _) => q == some c
    | some (.cond _) => true
    | some (.choice _) => true
    | some .unknown => true
    | _ => match pathOf m (n + 1) x with
      | none => false
      | some l => l.tail.contains c

/-- Well-formedness of one vertex. -/
def okVertex (m : Machine) (n : Nat) (v : Vid) : Bool :=
  match m.vert v with
  | none => true
  | some (.basic _ tbl) => okState m n v && (rows tbl).all fun t => t.target.all (isTarget m)
  | some (.composite _ tbl d _ h) => okState m n v && ((rows tbl).all fun t => t.target.all (isTarget m)) &&
      okDefault m n v d && h.all fun k => match m.vert k with
        | some .unknown => true
        | some (.hist _ q _) => q == some v
        | _ => false
  | some (.final _) => okState m n v
  | some (.cond tbl) => (branches tbl).all fun t => t.target.any (isTarget m)
  | some (.choice tbl) => (branches tbl).all fun t => t.target.any (isTarget m)
  | some (.hist _ p trn) => trn.target.all (isTarget m) && match p with
      | none => false
      | some c => match m.vert c with
        | some (.composite _ _ _ _ (some k)) => k == v
        | _ => false
  | some .unknown => true

/-- Well-formedness and limits of a machine with vertices `0 … n - 1`. -/
def okMachine (m : Machine) (n : Nat) : Bool :=
  (List.range n).all (okVertex m n) && (m.parent m.istate).isSome && decide (0 < m.maxSegs)

theorem okState_sound {m : Machine} {n : Nat} {v : Vid} (h : okState m n v = true) :
    ∃ l, Path m v l ∧ l.length ≤ m.maxDepth ∧ ∀ p ∈ l.tail, IsComposite m p := by
  unfold okState at h
  cases hp : pathOf m (n + 1) v with
  | none => simp [hp] at h
  | some l =>
    simp only [hp, Bool.and_eq_true, decide_eq_true_eq, List.all_eq_true] at h
    refine ⟨l, pathOf_sound hp, h.1, fun p hpl => ?_⟩
    have := h.2 p hpl
    unfold Machine.comp at this
    cases hv : m.vert p with
    | none => simp [hv] at this
    | some x => cases x <;> simp [hv] at this; exact ⟨_, _, _, _, _, hv⟩

theorem okMachine_sound {m : Machine} {n : Nat} (hn : ∀ v, n ≤ v → m.vert v = none) (h : okMachine m n = true) :
    WellFormed m ∧ Limits m := by
  unfold okMachine at h
  simp only [Bool.and_eq_true, List.all_eq_true, List.mem_range, decide_eq_true_eq] at h
  obtain ⟨⟨hv, hi⟩, hs⟩ := h
  have ok : ∀ v x, m.vert v = some x → okVertex m n v = true := by
    intro v x hx
    refine hv v ?_
    rcases Nat.lt_or_ge v n with h | h
    · exact h
    · rw [hn v h] at hx; simp at hx
  have st : ∀ v, IsState m v → okState m n v = true := by
    rintro v ⟨p, hp⟩
    unfold Machine.parent at hp
    cases hx : m.vert v with
    | none => simp [hx] at hp
    | some x =>
      have := ok v x hx
      cases x <;> simp [hx] at hp <;> simp only [okVertex, hx, Bool.and_eq_true] at this
      · exact this.1
      · exact this.1.1.1
      · exact this
  refine ⟨⟨?_, ?_, ?_, ?_, ?_, ?_, ?_, ?_, ?_⟩, ⟨?_, hs⟩⟩
  · intro v hv
    obtain ⟨l, hl, _⟩ := okState_sound (st v hv)
    exact ⟨l, hl⟩
  · intro v p hp
    obtain ⟨l, hl, _, hc⟩ := okState_sound (st v ⟨_, hp⟩)
    refine hc p ?_
    cases hl with
    | root h => rw [hp] at h; simp at h
    | child h h2 =>
      rw [hp] at h
      simp only [Option.some.injEq] at h
      subst h
      obtain ⟨r, rfl⟩ := h2.cons
      simp
  · intro v tbl t w htbl ht hw
    unfold Machine.trtbl at htbl
    cases hx : m.vert v with
    | none => simp [hx] at htbl
    | some x =>
      have := ok v x hx
      cases x <;> simp only [hx, Option.some.injEq, reduceCtorEq] at htbl <;> simp only [okVertex, hx, Bool.and_eq_true, List.all_eq_true] at this
      · subst htbl
        have := this.2 t ht
        rw [hw] at this
        exact isTarget_sound (by simpa using this)
      · subst htbl
        have := this.1.1.2 t ht
        rw [hw] at this
        exact isTarget_sound (by simpa using this)
      · subst htbl
        simp [rows] at ht
  · intro v tbl t hx ht
    have := ok v _ hx
    simp only [okVertex, hx, List.all_eq_true] at this
    have := this t ht
    cases hw : t.target with
    | none => simp [hw] at this
    | some w => exact ⟨w, rfl, isTarget_sound (by simpa [hw] using this)⟩
  · intro v tbl t hx ht
    have := ok v _ hx
    simp only [okVertex, hx, List.all_eq_true] at this
    have := this t ht
    cases hw : t.target with
    | none => simp [hw] at this
    | some w => exact ⟨w, rfl, isTarget_sound (by simpa [hw] using this)⟩
  · intro h d p trn hx
    have := ok h _ hx
    simp only [okVertex, hx, Bool.and_eq_true] at this
    cases p with
    | none => simp at this
    | some c =>
      refine ⟨c, rfl, ?_, ?_⟩
      · have h2 := this.2
        cases hc : m.vert c with
        | none => simp [hc] at h2
        | some x =>
          cases x <;> simp only [hc, Bool.false_eq_true] at h2
          rename_i k
          cases k with
          | none => simp at h2
          | some k => simp at h2; subst h2; exact ⟨_, _, _, _, rfl⟩
      · intro w hw
        exact isTarget_sound (by have := this.1; rw [hw] at this; simpa using this)
  · intro c p t d i h hx
    have := ok c _ hx
    simp only [okVertex, hx, Bool.and_eq_true] at this
    have h2 := this.2
    simp only [Option.all_some] at h2
    cases hk : m.vert h with
    | none => simp [hk] at h2
    | some x =>
      cases x <;> simp only [hk, Bool.false_eq_true] at h2
      · right
        simp only [beq_iff_eq] at h2
        subst h2
        exact ⟨_, _, rfl⟩
      · exact .inl rfl
  · intro c p t d i h hx
    have := ok c _ hx
    simp only [okVertex, hx, Bool.and_eq_true] at this
    have h2 := this.1.2
    simp only [okDefault, Bool.and_eq_true, List.all_eq_true] at h2
    refine ⟨isTarget_sound h2.1, fun x hr => ?_⟩
    have hclosed : ∀ x ∈ closure m n [d], ∀ y ∈ nexts m x, y ∈ closure m n [d] := by
      intro x hx y hy
      have := (h2.2 x hx).1 y hy
      simpa using this
    have hmem : d ∈ closure m n [d] := by
      have : ∀ (f : Nat) (l : List Vid), d ∈ l → d ∈ closure m f l := by
        intro f
        induction f with
        | zero => intro l h; exact h
        | succ f ih => intro l h; exact ih _ (by simp [h])
      exact this n [d] (by simp)
    have h3 := (h2.2 x (reach_closed hclosed hr hmem)).2
    refine ⟨?_, ?_⟩
    · rintro ⟨q, hq⟩
      unfold Machine.parent at hq
      have key : (match pathOf m (n + 1) x with
          | none => false
          | some l => l.tail.contains c) = true → Below m c x := by
        intro hk
        cases hp : pathOf m (n + 1) x with
        | none => simp [hp] at hk
        | some l => exact path_below (pathOf_sound hp) (by simpa [hp] using hk)
      cases hv : m.vert x with
      | none => simp [hv] at hq
      | some y => cases y <;> simp only [hv, reduceCtorEq] at hq h3 <;> exact key h3
    · intro k q trn hv
      simp only [hv, beq_iff_eq] at h3
      exact h3
  · cases hp : m.parent m.istate with
    | none => simp [hp] at hi
    | some p => exact ⟨p, hp⟩
  · intro v l hl
    obtain ⟨l', hl', h1, _⟩ := okState_sound (st v hl.isState)
    rw [hl.unique hl']
    exact h1

/-- A machine given by the list of its vertices. -/
def ofList (vs : List Vertex) (istate : Vid) (iaction : Option Act) (maxDepth maxSegs : Nat) (assertEn : Bool) :
    Machine :=
  { vert := fun v => vs[v]?, istate := istate, iaction := iaction, maxDepth := maxDepth, maxSegs := maxSegs,
    assertEn := assertEn }

theorem ofList_sound {vs : List Vertex} {istate : Vid} {iaction : Option Act} {maxDepth maxSegs : Nat} {assertEn : Bool}
    (h : okMachine (ofList vs istate iaction maxDepth maxSegs assertEn) vs.length = true) :
    WellFormed (ofList vs istate iaction maxDepth maxSegs assertEn) ∧
    Limits (ofList vs istate iaction maxDepth maxSegs assertEn) :=
  okMachine_sound (fun v hv => List.getElem?_eq_none hv) h

end Verif.SM
