import Verif.Subm.DemoProps
/-
Several state machine objects of the same type whose machine has submachines. The variable `*dyp` of a submachine, in which the engine
keeps the submachine state through which it was entered, belongs to the submachine, not to the object (rkhsm.h:654-662).
-/
namespace Verif.Subm.Objects
open Spec
open SM (Vid Sig Act Guard Tr Obs Env RC Stop Ans sigAny sigCompletion sigCreation)

/-- What each object has of its own: the current state, and what happened to it. -/
structure Obj where
  state : Option Vid
  log : List Obs

/-- The objects (numbered), and the variables `rdyp_…` of the submachines (`RKH_CREATE_REF_SUBMACHINE`, rkhsm.h:654-662). -/
structure Objs where
  obj : Nat → Obj
  dyp : Vid → Option Vid

/-- The objects before they are initialised (see `mem0`). -/
def objs0 (m : Machine) : Objs := ⟨fun _ => ⟨some m.istate, []⟩, fun _ => none⟩

/-- Object `i` as `rkh_sm_dispatch` sees it. -/
def Objs.mem (x : Objs) (i : Nat) : Mem := ⟨(x.obj i).state, x.dyp, (x.obj i).log⟩

/-- A call of `rkh_sm_dispatch` for object `i`. The guards look at the variables of this object. -/
def step (m : Machine) (env : Nat → Env) (i : Nat) (e : Sig) (f : Nat) (x : Objs) : Objs × Ans Unit :=
  let r := dispatch m (env i) f e (x.mem i)
  (⟨fun j => if j = i then ⟨r.1.state, r.1.log⟩ else x.obj j, r.1.dyp⟩, r.2)

/-- A call that returns. -/
def returns : Ans Unit → Bool
  | .ok _ => true
  | .stop (.rc _) => true
  | .stop _ => false

/-- Calls for the objects in any order; `none` if one of them does not return. -/
def runAll (m : Machine) (env : Nat → Env) : List (Nat × Sig × Nat) → Objs → Option (Objs × List (Nat × Ans Unit))
  | [], x => some (x, [])
  | (i, e, f) :: os, x =>
    let r := step m env i e f x
    if returns r.2 then (runAll m env os r.1).map fun q => (q.1, (i, r.2) :: q.2) else none

namespace Spec

/-- The calls for object `i`. -/
def callsOf (i : Nat) (os : List (Nat × Sig × Nat)) : List (Sig × Nat) := os.filterMap fun x => if x.1 = i then some x.2 else none
/-- The results of the calls for object `i`. -/
def resultsOf (i : Nat) (rs : List (Nat × Ans Unit)) : List (Ans Unit) := rs.filterMap fun x => if x.1 = i then some x.2 else none

end Spec
open Objects.Spec

/-! ## The variables -/

/-- A variable is left alone or set to a submachine state of its submachine. -/
def Set (m : Machine) (D D' : Vid → Option Vid) : Prop := ∀ M, D' M = D M ∨ ∃ v, D' M = some v ∧ sbm m v = some M

theorem Set.refl {m : Machine} (D : Vid → Option Vid) : Set m D D := fun _ => .inl rfl
theorem Set.trans {m : Machine} {D D' D'' : Vid → Option Vid} (h : Set m D D') (h' : Set m D' D'') : Set m D D'' := fun M => by
  rcases h' M with h1 | h1
  · rw [h1]; exact h M
  · exact .inr h1

def Lawful (m : Machine) {α : Type} (x : Eng α) : Prop := ∀ s, Set m s.dyp (x s).1.dyp

section
variable {m : Machine} {env : Env}

theorem Lawful.bind {α β : Type} {x : Eng α} {f : α → Eng β} (h : Lawful m x) (hf : ∀ a, Lawful m (f a)) : Lawful m (x >>= f) := by
  intro s
  show Set m s.dyp (Eng.bind x f s).1.dyp
  unfold Eng.bind
  have h1 := h s
  cases hx : x s with
  | mk s1 r =>
    rw [hx] at h1
    cases r with
    | ok a => exact h1.trans (hf a s1)
    | stop c => exact h1

theorem Lawful.same {α : Type} {x : Eng α} (h : ∀ s, (x s).1.dyp = s.dyp) : Lawful m x := fun s => by rw [h s]; exact .refl _
theorem Lawful.pure {α : Type} (a : α) : Lawful m (pure a : Eng α) := .same fun _ => rfl
theorem Lawful.stop {α : Type} (c : Stop) : Lawful m (Eng.stop c : Eng α) := .same fun _ => rfl
theorem Lawful.lift {α : Type} (a : Ans α) : Lawful m (Eng.lift a) := .same fun _ => rfl
theorem Lawful.get : Lawful m Eng.get := .same fun _ => rfl
theorem Lawful.emit (o : Obs) : Lawful m (Eng.emit o) := .same fun _ => rfl
theorem Lawful.setDyp {k x : Vid} (h : sbm m x = some k) : Lawful m (Eng.modify fun mem => { mem with dyp := setDyp mem.dyp k x }) := fun s M => by
  show (if M = k then some x else s.dyp M) = s.dyp M ∨ ∃ v, (if M = k then some x else s.dyp M) = some v ∧ _
  by_cases e : M = k
  · exact .inr ⟨x, if_pos e, e ▸ h⟩
  · exact .inl (if_neg e)

theorem Lawful.guard (e : Sig) : ∀ g, Lawful m (evalGuard env e g)
  | none => Lawful.pure _
  | some .els => Lawful.pure _
  | some (.fn _) => .same fun _ => rfl

theorem Lawful.findTrn (e : Sig) : ∀ l, Lawful m (findTrn env e l)
  | [] => Lawful.pure _
  | t :: ts => by
    unfold Subm.findTrn
    split
    · exact Lawful.pure _
    · split
      · refine (Lawful.guard e _).bind fun b => ?_
        cases b
        · exact Lawful.findTrn e ts
        · exact Lawful.pure _
      · exact Lawful.findTrn e ts

theorem Lawful.findBranch (e : Sig) : ∀ l, Lawful m (findBranch env e l)
  | [] => Lawful.pure _
  | t :: ts => by
    unfold Subm.findBranch
    split
    · exact Lawful.pure _
    · split
      · exact Lawful.findBranch e ts
      · refine (Lawful.guard e _).bind fun b => ?_
        cases b
        · exact Lawful.findBranch e ts
        · exact Lawful.pure _

theorem Lawful.exec (e : Sig) : ∀ l, Lawful m (exec e l)
  | [] => Lawful.pure _
  | _ :: l => (Lawful.emit _).bind fun _ => Lawful.exec e l

theorem Lawful.enter : ∀ l c, Lawful m (enter m l c)
  | [], _ => Lawful.pure _
  | _ :: l, _ => (Lawful.emit _).bind fun _ => Lawful.enter l _

theorem Lawful.pushAct (al : List Act) (a : Option Act) : Lawful m (pushAct m al a) := by
  unfold Subm.pushAct
  split
  · exact Lawful.stop _
  · exact Lawful.pure _

theorem Lawful.takeBranch (e : Sig) (tbl : List Tr) (al : List Act) : Lawful m (takeBranch m env e tbl al) := by
  unfold Subm.takeBranch
  refine (Lawful.findBranch e _).bind fun r => ?_
  split
  · exact Lawful.stop _
  · refine (Lawful.pushAct _ _).bind fun al => ?_
    split
    · exact Lawful.stop _
    · exact Lawful.pure _

theorem Lawful.precheck (f : Nat) (micro : Bool) (ets stn : Vid) : Lawful m (precheck m f micro ets stn) := by
  unfold Subm.precheck
  split
  · exact (Lawful.lift _).bind fun _ => Lawful.pure _
  · exact Lawful.pure _

theorem Lawful.resolve (e : Sig) (micro : Bool) (stn : Vid) : ∀ f ets al, Lawful m (resolve m env e micro stn f ets al)
  | 0, _, _ => Lawful.stop _
  | f + 1, ets, al => by
    unfold Subm.resolve
    split
    · exact Lawful.stop _
    · exact Lawful.pure _
    · exact Lawful.pure _
    · exact Lawful.pure _
    · exact Lawful.pure _
    · exact (Lawful.exec _ _).bind fun _ => (Lawful.takeBranch _ _ _).bind fun r => (Lawful.precheck _ _ _ _).bind fun _ => Lawful.resolve e micro stn f _ _
    · exact (Lawful.takeBranch _ _ _).bind fun r => (Lawful.precheck _ _ _ _).bind fun _ => Lawful.resolve e micro stn f _ _
    · rename_i hv
      split
      · exact (Lawful.setDyp (by simp [sbm, hv])).bind fun _ => (Lawful.pushAct _ _).bind fun _ => Lawful.resolve e micro stn f _ _
      · exact Lawful.stop _
    · split
      · rename_i hv
        exact (Lawful.setDyp (by simp [sbm, hv])).bind fun _ => (Lawful.pushAct _ _).bind fun _ => Lawful.resolve e micro stn f _ _
      · exact Lawful.stop _
    · refine Lawful.get.bind fun mem => ?_
      split
      · exact Lawful.stop _
      · split
        · split
          · exact Lawful.stop _
          · exact (Lawful.pushAct _ _).bind fun _ => Lawful.resolve e micro stn f _ _
        · exact Lawful.stop _
    · exact Lawful.stop _

theorem Lawful.exits (ts : Vid) : ∀ f ix x ent, Lawful m (exits m ts f ix x ent)
  | 0, _, _, _ => Lawful.stop _
  | _ + 1, _, none, _ => Lawful.pure _
  | f + 1, ix, some x, _ => by
    unfold Subm.exits
    refine Lawful.get.bind fun mem => (Lawful.lift _).bind fun r => ?_
    split
    · split
      · refine (Lawful.emit _).bind fun _ => ?_
        split
        · exact Lawful.pure _
        · exact Lawful.stop _
      · exact Lawful.pure _
    · refine (Lawful.emit _).bind fun _ => ?_
      split
      · exact Lawful.stop _
      · exact Lawful.exits ts f _ _ _

theorem Lawful.searchUp (e : Sig) : ∀ f v, Lawful m (searchUp m env e f v)
  | 0, _ => Lawful.stop _
  | f + 1, v => by
    unfold Subm.searchUp
    split
    · exact Lawful.stop _
    · refine (Lawful.findTrn e _).bind fun r => ?_
      split
      · exact Lawful.pure _
      · refine Lawful.get.bind fun mem => ?_
        split
        · exact Lawful.stop _
        · exact Lawful.pure _
        · exact Lawful.searchUp e f _

theorem Lawful.segLoop (e : Sig) (cr : Bool) (cs : Vid) : ∀ f micro stn ets ta compl, Lawful m (segLoop m env e cr cs f micro stn ets ta compl)
  | 0, _, _, _, _, _ => Lawful.stop _
  | f + 1, micro, stn, ets, ta, compl => by
    unfold Subm.segLoop
    refine (Lawful.pushAct _ _).bind fun al => (Lawful.resolve _ _ _ _ _ _).bind fun r => Lawful.bind ?_ fun ent =>
      (Lawful.exec _ _).bind fun _ => (Lawful.enter _ _).bind fun c => ?_
    · unfold stage4
      split
      · exact Lawful.lift _
      · exact Lawful.lift _
      · exact Lawful.exits _ _ _ _ _
    · split
      · exact Lawful.segLoop e cr cs f _ _ _ _ _
      · split
        · exact Lawful.stop _
        · exact Lawful.pure _

theorem Lawful.finish (v : Vid) : Lawful m (finish v) := .same fun _ => rfl

theorem Lawful.compound (f : Nat) (e : Sig) (cr : Bool) : Lawful m (compound m env f e cr) := by
  unfold Subm.compound
  split
  · exact (Lawful.segLoop _ _ _ _ _ _ _ _ _).bind fun _ => (Lawful.finish _).bind fun _ => Lawful.pure _
  · refine Lawful.get.bind fun mem => ?_
    split
    · exact Lawful.stop _
    · refine (Lawful.searchUp _ _ _).bind fun r => ?_
      split
      · exact Lawful.stop _
      · split
        · exact (Lawful.pushAct _ _).bind fun _ => (Lawful.exec _ _).bind fun _ => Lawful.pure _
        · exact (Lawful.segLoop _ _ _ _ _ _ _ _ _).bind fun _ => (Lawful.finish _).bind fun _ => Lawful.pure _

theorem Lawful.passes : ∀ f e cr, Lawful m (passes m env f e cr)
  | 0, _, _ => Lawful.stop _
  | f + 1, e, cr => by
    unfold Subm.passes
    refine (Lawful.compound _ _ _).bind fun c => ?_
    cases c
    · exact Lawful.pure _
    · exact Lawful.passes f _ _

end

/-! ## The objects -/

variable {m : Machine} {N : Nat} {home : Vid → Option Vid} {rank : Option Vid → Nat}

/-- What another object does to the variables does not matter if every submachine is used once. -/
theorem occ_set {D D' : Vid → Option Vid} {o : Vid} (hs : ∀ v w M, sbm m v = some M → sbm m w = some M → v = w) (h : Occ m N home D o) (hd : Set m D D') :
    Occ m N home D' o := by
  refine ⟨h.1, ctx_keep h.2 ?_⟩
  intro o1 v p t x M h1 h2 h3 h4
  rcases hd M with h5 | ⟨w, h5, h6⟩
  · exact h5
  · rw [h5, Ctx.within h.2 h1 h2 h3 h4, hs w v.2 M h6 (by simp [sbm, h4])]

theorem agree_set {s : Mem} {t : SM.Mem} {D' : Vid → Option Vid} (hs : ∀ v w M, sbm m v = some M → sbm m w = some M → v = w) (h : Agree m N home s t) (hd : Set m s.dyp D') :
    Agree m N home { s with dyp := D' } t := by
  obtain ⟨hl, cs, h1, h2, h3, h4⟩ := h
  exact ⟨hl, cs, h1, h2, occ_set hs h3 hd, h4⟩

theorem goes_of {a : Ans Unit} (h : Returned a) : Goes a := by
  intro q hq
  rcases h with h | ⟨c, h⟩
  · rw [h] at hq; cases hq
  · rw [h] at hq; cases hq; exact ⟨c, rfl⟩

theorem runAll_is (P : Proper m N home rank) (hA : m.assertEn = true) (hs : ∀ v w M, sbm m v = some M → sbm m w = some M → v = w) (env : Nat → Env) :
    ∀ (os : List (Nat × Sig × Nat)) (x : Objs) (T : Nat → SM.Mem), (∀ i, Agree m N home (x.mem i) (T i)) →
    (∀ i, ∀ a ∈ (SM.calls (inserted m N) (seenBy N (env i)) (events (callsOf i os)) (T i)).2, Returned a) →
    ∃ y rs, runAll m env os x = some (y, rs) ∧ ∀ i, resultsOf i rs = (SM.calls (inserted m N) (seenBy N (env i)) (events (callsOf i os)) (T i)).2 ∧
      Agree m N home (y.mem i) (SM.calls (inserted m N) (seenBy N (env i)) (events (callsOf i os)) (T i)).1 := by
  have hone : ∀ l, OneAtATime m N l := fun _ _ _ _ _ _ _ _ M _ _ h1 h2 => hs _ _ M h1 h2
  intro os
  induction os with
  | nil => intro x T h _; exact ⟨x, [], rfl, fun i => ⟨rfl, h i⟩⟩
  | cons q os ih =>
    intro x T h hr
    obtain ⟨k, e, f⟩ := q
    have hk : callsOf k ((k, e, f) :: os) = (e, f) :: callsOf k os := by simp [callsOf]
    have hj : ∀ j, j ≠ k → callsOf j ((k, e, f) :: os) = callsOf j os := fun j hj => by simp [callsOf, Ne.symm hj]
    have hrk := hr k
    rw [hk] at hrk
    simp only [events, List.map_cons] at hrk
    unfold SM.calls at hrk
    simp only [SM.op] at hrk
    cases hd : SM.dispatch (inserted m N) (seenBy N (env k)) f e (T k) with
    | mk t1 r =>
      rw [hd] at hrk
      have hret : Returned r := by
        cases r with
        | ok u => exact .inl rfl
        | stop c =>
          cases c with
          | rc c => exact .inr ⟨c, rfl⟩
          | assert => exact hrk _ (List.mem_singleton.mpr rfl)
          | ub => exact hrk _ (List.mem_singleton.mpr rfl)
          | fuel => exact hrk _ (List.mem_singleton.mpr rfl)
      obtain ⟨s1, h1, h2⟩ := Agree.passes P hA (env k) f e _ (h k) hd (goes_of hret) (hone _)
      have h1' : dispatch m (env k) f e (x.mem k) = (s1, r) := h1
      have hset : Set m x.dyp s1.dyp := by
        have := Lawful.passes (m := m) (env := env k) f e (e == sigCreation) (x.mem k)
        rw [h1] at this
        exact this
      have hstep : step m env k e f x = (⟨fun j => if j = k then ⟨s1.state, s1.log⟩ else x.obj j, s1.dyp⟩, r) := by
        unfold step
        rw [h1']
      have hx' : ∀ i, Agree m N home ((step m env k e f x).1.mem i) (if i = k then t1 else T i) := by
        intro i
        rw [hstep]
        unfold Objs.mem
        by_cases hi : i = k
        · simp only [if_pos hi]; exact h2
        · simp only [if_neg hi]; exact agree_set hs (h i) hset
      have hcalls : SM.calls (inserted m N) (seenBy N (env k)) (events ((e, f) :: callsOf k os)) (T k) =
          ((SM.calls (inserted m N) (seenBy N (env k)) (events (callsOf k os)) t1).1, r :: (SM.calls (inserted m N) (seenBy N (env k)) (events (callsOf k os)) t1).2) := by
        simp only [events, List.map_cons]
        rw [SM.calls]
        simp only [SM.op]
        rw [hd]
        rcases hret with rfl | ⟨c, rfl⟩ <;> rfl
      have hr' : ∀ i, ∀ a ∈ (SM.calls (inserted m N) (seenBy N (env i)) (events (callsOf i os)) (if i = k then t1 else T i)).2, Returned a := by
        intro i a ha
        by_cases hi : i = k
        · subst hi
          rw [if_pos rfl] at ha
          refine hr i a ?_
          rw [hk, hcalls]
          exact List.mem_cons_of_mem _ ha
        · rw [if_neg hi] at ha
          refine hr i a ?_
          rw [hj i hi]
          exact ha
      obtain ⟨y, rs, i1, i2⟩ := ih _ _ hx' hr'
      refine ⟨y, (k, r) :: rs, ?_, ?_⟩
      · unfold runAll
        have hrt : returns (step m env k e f x).2 = true := by
          rw [hstep]
          rcases hret with h | ⟨c, h⟩ <;> simp only [h] <;> rfl
        simp only [hrt, if_true, i1, Option.map_some]
        rw [hstep]
      · intro i
        obtain ⟨j1, j2⟩ := i2 i
        by_cases hi : i = k
        · subst hi
          rw [if_pos rfl] at j1 j2
          rw [hk, hcalls]
          exact ⟨by simp [resultsOf] at j1 ⊢; exact j1, j2⟩
        · rw [if_neg hi] at j1 j2
          rw [hj i hi]
          exact ⟨by simp [resultsOf, Ne.symm hi] at j1 ⊢; exact j1, j2⟩

/-- **C155.** Let no two submachine states refer to the same submachine, and let each object by itself be one whose calls return (in the
machine with the submachines inserted). Then, in whatever order the calls for the objects are made, each object does what it does alone:
its calls have the same results, the same happens and it ends in the same state.

Missing from the full property (`objects_interfere`): submachines to which several submachine states refer. -/
theorem objects_independent_partial (P : Proper m N home rank) (hA : m.assertEn = true) (hs : ∀ v w M, sbm m v = some M → sbm m w = some M → v = w) (env : Nat → Env)
    (os : List (Nat × Sig × Nat)) (hret : ∀ i, ∀ a ∈ (runOf (inserted m N) (seenBy N (env i)) (callsOf i os)).2, Returned a) :
    ∃ y rs, runAll m env os (objs0 m) = some (y, rs) ∧ ∀ i, resultsOf i rs = (run m (env i) (callsOf i os)).2 ∧
      (y.obj i).log = (run m (env i) (callsOf i os)).1.log ∧ (y.obj i).state = (run m (env i) (callsOf i os)).1.state := by
  obtain ⟨y, rs, h1, h2⟩ := runAll_is P hA hs env os (objs0 m) (fun _ => SM.mem0 (inserted m N)) (fun i => Agree.start P) hret
  refine ⟨y, rs, h1, fun i => ?_⟩
  obtain ⟨h3, hl, cs, h4, h5, _⟩ := h2 i
  obtain ⟨a1, a2, a3⟩ := single_use_is_insertion_partial P hA hs (env i) (callsOf i os) (hret i)
  exact ⟨h3.trans a1.symm, hl.trans a2.symm, by rw [a3]; show _ = Option.map _ _; rw [show (runOf (inserted m N) (seenBy N (env i)) (callsOf i os)).1.state = some cs from h4]; exact h5⟩

/-! ## The property fails -/

/-- Two objects of the type of the example demo/80x86/subm. Object 0 enters SB through S12, object 1 through S2, then object 0 receives FIVE. -/
def twoCalls : List (Nat × Sig × Nat) := [(0, sigCreation, 30), (1, sigCreation, 30), (0, 1, 30), (1, 3, 30), (0, 5, 30)]

def two : Option (Objs × List (Nat × Ans Unit)) := runAll Demo.m (fun _ => Demo.env) twoCalls (objs0 Demo.m)
def oneAlone : Mem × List (Ans Unit) := run Demo.m Demo.env (callsOf 0 twoCalls)

/-- What object 0 did, together with the other and alone. -/
theorem two_is : (two.map fun q => ((q.1.obj 0).log.drop 9, (q.1.obj 0).state)) =
      some ([.exit Demo.SB1, .exit Demo.S2, .act 6 5, .act 3 5, .entry Demo.S1, .entry Demo.S11, .stable Demo.S11], some Demo.S11) ∧
    oneAlone.1.log.drop 9 = [.exit Demo.SB1, .exit Demo.S12, .act 6 5, .act 1 5, .entry Demo.S13, .stable Demo.S13] ∧ oneAlone.1.state = some Demo.S13 := by
  decide +kernel

/-- The full property **C155** does not hold of the code: an object leaves its submachine through the submachine state by which another
object of the same type has entered it. -/
theorem objects_interfere : ¬ ∀ (m : Machine) (N : Nat) (home : Vid → Option Vid) (rank : Option Vid → Nat) (env : Nat → Env) (os : List (Nat × Sig × Nat)) (y : Objs)
      (rs : List (Nat × Ans Unit)), Proper m N home rank → m.assertEn = true → runAll m env os (objs0 m) = some (y, rs) → ∀ i, (y.obj i).state = (run m (env i) (callsOf i os)).1.state := by
  intro h
  have h1 := two_is.1
  cases hr : two with
  | none => rw [hr] at h1; cases h1
  | some q =>
    obtain ⟨y, rs⟩ := q
    rw [hr] at h1
    simp only [Option.map_some, Option.some.injEq, Prod.mk.injEq] at h1
    have h2 : (y.obj 0).state = oneAlone.1.state := h Demo.m 13 Demo.home Demo.rank (fun _ => Demo.env) twoCalls y rs Demo.proper rfl hr 0
    rw [h1.2, two_is.2.2] at h2
    exact absurd h2 (by decide)

/-- The conditions of the theorem are met: two objects of a machine with one submachine, in turn. -/
example : ∃ y rs, runAll Bad.first (fun _ => Bad.env) [(0, sigCreation, 20), (1, sigCreation, 20), (1, 2, 20), (0, 2, 20)] (objs0 Bad.first) = some (y, rs) ∧
    ∀ i, resultsOf i rs = (run Bad.first Bad.env (callsOf i [(0, sigCreation, 20), (1, sigCreation, 20), (1, 2, 20), (0, 2, 20)])).2 := by
  have key : ∀ v M, sbm Bad.first v = some M → v = 0 := by
    intro v M hv
    have hlt : v < 4 := by
      rcases Nat.lt_or_ge v 4 with h | h
      · exact h
      · have : Bad.first.vert v = none := List.getElem?_eq_none h
        simp [sbm, this] at hv
    have : ∀ v : Nat, v < 4 → (sbm Bad.first v).isSome = true → v = 0 := by decide +kernel
    exact this v hlt (by rw [hv]; rfl)
  obtain ⟨y, rs, h1, h2⟩ := objects_independent_partial Bad.first_proper rfl (fun v w M h1 h2 => by rw [key v M h1, key w M h2]) (fun _ => Bad.env)
    [(0, sigCreation, 20), (1, sigCreation, 20), (1, 2, 20), (0, 2, 20)] (by
      intro i
      by_cases h0 : i = 0
      · subst h0; intro a ha
        have : ∀ a ∈ (runOf (inserted Bad.first 4) (seenBy 4 Bad.env) [(sigCreation, 20), (2, 20)]).2, a = .ok () := by decide +kernel
        exact .inl (this a ha)
      · by_cases h1 : i = 1
        · subst h1; intro a ha
          have : ∀ a ∈ (runOf (inserted Bad.first 4) (seenBy 4 Bad.env) [(sigCreation, 20), (2, 20)]).2, a = .ok () := by decide +kernel
          exact .inl (this a ha)
        · have : callsOf i [(0, sigCreation, 20), (1, sigCreation, 20), (1, 2, 20), (0, 2, 20)] = [] := by simp [callsOf, Ne.symm h0, Ne.symm h1]
          rw [this]
          intro a ha
          cases ha)
  exact ⟨y, rs, h1, fun i => (h2 i).1⟩

end Verif.Subm.Objects
