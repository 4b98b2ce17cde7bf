import Verif.SM.Model
/-
Model of the state machine engine, source/sm/src/rkhsm.c, in the configuration with hierarchy (`RKH_CFG_SMA_HCAL_EN`), submachines
(`RKH_CFG_SMA_SUBMACHINE_EN`), choice and conditional pseudostates, without histories and event preprocessors.

At this commit the configuration does not compile: `UPDATE_IN_PARENT` (rkhsm.c:174-182) consists of two statements and is used in the
header of a `for` (rkhsm.c:468). It is read here as what it evidently is meant to be: the two statements are executed at the end of each
iteration, as `UPDATE_PARENT` is in the other loops (rkhsm.c:216, 236). Everything else is modelled as it stands.

As in SM/Model.lean, the 8-bit counters are naturals, trace records other than the stable state are left out, and an action does not
call the engine.
-/
namespace Verif.Subm
open SM (Vid Sig Act Guard Tr Obs Env RC Stop Ans sigAny sigCompletion sigCreation)

/-- The vertex objects of rkhsm.h:2064-2549. `subm`: a submachine state (`RKH_SSBM_T`, rkhsm.h:2352-2374) with its table of exit point
connections (action and target); `ref`: a submachine (`RKH_RSM_T`, rkhsm.h:2380-2408), whose variable `*dyp` is in the memory; `enpnt`:
an entry point (`RKH_SENP_T`, rkhsm.h:2421-2439) of the submachine state `parent` with the action and target of the entry point reference
it points to (`RKH_ENPCN_T`); `expnt`: an exit point of the submachine `parent` (`RKH_SEXP_T`, rkhsm.h:2451-2470). -/
inductive Vertex where
  | basic (parent : Option Vid) (trtbl : List Tr)
  | composite (parent : Option Vid) (trtbl : List Tr) (defchild : Vid) (init : Option Act)
  | final (parent : Option Vid)
  | cond (trtbl : List Tr)
  | choice (trtbl : List Tr)
  | subm (parent : Option Vid) (trtbl : List Tr) (exptbl : List (Option Act × Vid)) (sbm : Vid)
  | ref (defchild : Vid) (iaction : Option Act)
  | enpnt (action : Option Act) (target : Vid) (parent : Vid)
  | expnt (ix : Nat) (parent : Vid)
  | unknown
  deriving DecidableEq, Repr

/-- See `SM.Machine`. -/
structure Machine where
  vert : Vid → Option Vertex
  istate : Vid
  iaction : Option Act
  maxDepth : Nat
  maxSegs : Nat
  assertEn : Bool

/-- The data that survives a dispatch: the current state, `*dyp` of every submachine, and everything observed so far. -/
structure Mem where
  state : Option Vid
  dyp : Vid → Option Vid
  log : List Obs

/-- A piece of the engine (see `SM.Eng`). -/
def Eng (α : Type) := Mem → Mem × Ans α

namespace Eng

/-- Sequencing. -/
def bind {α β : Type} (x : Eng α) (f : α → Eng β) : Eng β := fun s =>
  match x s with
  | (s1, .ok a) => f a s1
  | (s1, .stop c) => (s1, .stop c)

instance : Monad Eng where
  pure a := fun s => (s, .ok a)
  bind := Eng.bind

/-- Early end. -/
def stop {α : Type} (c : Stop) : Eng α := fun s => (s, .stop c)
/-- Lift a result that does not depend on the memory. -/
def lift {α : Type} (a : Ans α) : Eng α := fun s => (s, a)
/-- Read the memory. -/
def get : Eng Mem := fun s => (s, .ok s)
/-- Change the memory. -/
def modify (f : Mem → Mem) : Eng Unit := fun s => (f s, .ok ())
/-- Something observable happens. -/
def emit (o : Obs) : Eng Unit := modify fun s => { s with log := s.log ++ [o] }

end Eng
open Eng

/-- `RKH_ERROR(); return code` (rkhassert.h:163-168). -/
def error {α : Type} (m : Machine) (c : RC) : Eng α := stop (if m.assertEn then .assert else .rc c)

/-- `RKH_EXEC_GUARD` (rkhitl.h:2447-2490). -/
def evalGuard (env : Env) (e : Sig) : Option Guard → Eng Bool
  | none => pure true
  | some .els => pure true
  | some (.fn g) => fun s => ({ s with log := s.log ++ [.guard g e (env g e s.log)] }, .ok (env g e s.log))

/-- `FIND_TRN` (rkhsm.c:86-111). -/
def findTrn (env : Env) (e : Sig) : List Tr → Eng (Option Tr)
  | [] => pure none
  | t :: ts =>
    if t.event = sigAny then pure none
    else if t.event = e then do
      let b ← evalGuard env e t.guard
      match b with
      | true => pure (some t)
      | false => findTrn env e ts
    else findTrn env e ts

/-- `FIND_BRANCH` (rkhsm.c:141-147). -/
def findBranch (env : Env) (e : Sig) : List Tr → Eng (Option Tr)
  | [] => pure none
  | t :: ts =>
    if t.event = sigAny then pure none
    else match t.guard with
      | none => findBranch env e ts
      | some g => do
        let b ← evalGuard env e (some g)
        match b with
        | true => pure (some t)
        | false => findBranch env e ts

/-- `RKH_EXEC_TRANSITION` (rkhsm.c:149-154). -/
def exec (e : Sig) : List Act → Eng Unit
  | [] => pure ()
  | a :: as => do emit (.act a e); exec e as

/-- The member `parent` of an `RKH_ST_T`. A submachine (`RKH_RSM_T`) is not an `RKH_ST_T`: it has `dyp` at that place, so that reading
`parent` is undefined; so it is for pseudostates. -/
def Machine.parent (m : Machine) (v : Vid) : Option (Option Vid) :=
  match m.vert v with
  | some (.basic p _) => some p
  | some (.composite p _ _ _) => some p
  | some (.final p) => some p
  | some (.subm p _ _ _) => some p
  | _ => none

/-- `UPDATE_PARENT`, `UPDATE_IN_PARENT` (rkhsm.c:174-182): from a state to its parent, and from a submachine to the submachine state
stored in `*dyp`. -/
def Machine.up (m : Machine) (dyp : Vid → Option Vid) (v : Vid) : Option (Option Vid) :=
  match m.parent v with
  | none => none
  | some none => some none
  | some (some p) =>
    match m.vert p with
    | some (.ref _ _) => some (dyp p)
    | _ => some (some p)

/-- The member `trtbl` of a state. -/
def Machine.trtbl (m : Machine) (v : Vid) : Option (List Tr) :=
  match m.vert v with
  | some (.basic _ t) => some t
  | some (.composite _ t _ _) => some t
  | some (.final _) => some []
  | some (.subm _ t _ _) => some t
  | _ => none

/-- Stage 2 (rkhsm.c:467-476): from the current state outwards, leaving submachines through their dynamic parents. -/
def searchUp (m : Machine) (env : Env) (e : Sig) : Nat → Vid → Eng (Option (Vid × Tr))
  | 0, _ => stop .fuel
  | f + 1, s =>
    match m.trtbl s with
    | none => stop .ub
    | some tbl => do
      let r ← findTrn env e tbl
      match r with
      | some t => pure (some (s, t))
      | none => do
        let mem ← get
        match m.up mem.dyp s with
        | none => stop .ub
        | some none => pure none
        | some (some p) => searchUp m env e f p

/-- `rkh_add_tr_action` (rkhsm.c:305-320). -/
def addAct (m : Machine) (al : List Act) (a : Option Act) : Option (List Act) :=
  if al.length ≥ m.maxSegs then none
  else some (match a with
    | some x => al ++ [x]
    | none => al)

/-- `if (rkh_add_tr_action(...)) { RKH_ERROR(); return RKH_EX_TSEG; }` (rkhsm.c:520-525). -/
def pushAct (m : Machine) (al : List Act) (a : Option Act) : Eng (List Act) :=
  match addAct m al a with
  | none => error m .exTseg
  | some al => pure al

/-- The loop of `addTargetSt` (rkhsm.c:361-369). It follows `parent`, not `UPDATE_PARENT`: it does not leave a submachine through its
dynamic parent. -/
def addTargetLoop (m : Machine) (cmp : Option Vid) : Nat → Option Vid → List Vid → Ans (List Vid)
  | 0, _, _ => .stop .fuel
  | f + 1, st, acc =>
    if st = cmp then .ok acc
    else match st with
      | none => .stop .ub
      | some s =>
        if acc.length < m.maxDepth then
          match m.parent s with
          | none => .stop .ub
          | some p => addTargetLoop m cmp f p (acc ++ [s])
        else .stop .ub

/-- `addTargetSt` (rkhsm.c:350-372). -/
def addTarget (m : Machine) (f : Nat) (target : Vid) (cmp : Option Vid) : Ans (List Vid) :=
  match m.vert target with
  | none => .stop .ub
  | some (.composite _ _ _ _) => addTargetLoop m cmp f (some target) []
  | some (.basic _ _) => addTargetLoop m cmp f (some target) []
  | some (.final _) => addTargetLoop m cmp f (some target) []
  | some _ => .ok []

/-- The inner loop of `RKH_EXEC_EXIT_ACTION` (rkhsm.c:195-217). -/
def findLca (m : Machine) (dyp : Vid → Option Vid) (stx : Vid) : Nat → Option Vid → List Vid → Ans (Bool × List Vid)
  | 0, _, _ => .stop .fuel
  | _ + 1, none, ent => .ok (false, ent)
  | f + 1, some n, ent =>
    if n = stx then .ok (true, ent)
    else if ent.length < m.maxDepth then
      match m.up dyp n with
      | none => .stop .ub
      | some p => findLca m dyp stx f p (ent ++ [n])
    else .stop (if m.assertEn then .assert else .rc .exHlevel)

/-- `RKH_EXEC_EXIT_ACTION` (rkhsm.c:190-238). -/
def exits (m : Machine) (ts : Vid) : Nat → Nat → Option Vid → List Vid → Eng (List Vid)
  | 0, _, _, _ => stop .fuel
  | _ + 1, _, none, ent => pure ent
  | f + 1, ix, some x, _ => do
    let mem ← get
    let r ← lift (findLca m mem.dyp x f (some ts) [])
    match r with
    | (true, ent) =>
      match ix with
      | 0 => do
        emit (.exit x)
        if ent.length < m.maxDepth then pure (ent ++ [x]) else stop .ub
      | _ + 1 => pure ent
    | (false, ent) => do
      emit (.exit x)
      match m.up mem.dyp x with
      | none => stop .ub
      | some p => exits m ts f (ix + 1) p ent

/-- `findCompletionTrn` (rkhsm.c:276-291). -/
def findCompletion : List Tr → Bool
  | [] => false
  | t :: ts => if t.event = sigAny then false else if t.event = sigCompletion then true else findCompletion ts

/-- `isCompletionTrn` (rkhsm.c:293-303). -/
def isCompletion (m : Machine) (v : Vid) : Bool :=
  match m.vert v with
  | some (.basic _ t) => findCompletion t
  | some (.final (some _)) => true
  | _ => false

/-- `RKH_EXEC_ENTRY_ACTION` (rkhsm.c:245-253) over the states to enter, outermost first. -/
def enter (m : Machine) : List Vid → Bool → Eng Bool
  | [], c => pure c
  | s :: ss, _ => do emit (.entry s); enter m ss (isCompletion m s)

/-- The common end of a `CHOICE`/`CONDITIONAL` case (rkhsm.c:553-576). -/
def takeBranch (m : Machine) (env : Env) (e : Sig) (tbl : List Tr) (al : List Act) : Eng (Vid × List Act) := do
  let r ← findBranch env e tbl
  match r with
  | none => stop (.rc .cndNFound)
  | some t => do
    let al ← pushAct m al t.action
    match t.target with
    | none => stop .ub
    | some v => pure (v, al)

/-- `if (isMicroStep) nn = addTargetSt(CST(ets), sentry, stn)` (rkhsm.c:572-575). -/
def precheck (m : Machine) (f : Nat) (micro : Bool) (ets stn : Vid) : Eng Unit :=
  if micro then (do let _ ← lift (addTarget m f ets (some stn)); pure ()) else pure ()

/-- Write a variable `*dyp`. -/
def setDyp (d : Vid → Option Vid) (k : Vid) (x : Vid) : Vid → Option Vid := fun i => if i = k then some x else d i

/-- Stage 3 (rkhsm.c:535-674), with the cases `RKH_SUBMACHINE`, `RKH_ENPOINT` and `RKH_EXPOINT` (rkhsm.c:625-664). A submachine is a
regular vertex other than a submachine state, so that it ends the loop. -/
def resolve (m : Machine) (env : Env) (e : Sig) (micro : Bool) (stn : Vid) : Nat → Vid → List Act → Eng (Vid × List Act)
  | 0, _, _ => stop .fuel
  | f + 1, ets, al =>
    match m.vert ets with
    | none => stop .ub
    | some (.basic _ _) => pure (ets, al)
    | some (.composite _ _ _ _) => pure (ets, al)
    | some (.final _) => pure (ets, al)
    | some (.ref _ _) => pure (ets, al)
    | some (.choice tbl) => do
      exec e al
      let r ← takeBranch m env e tbl []
      precheck m f micro r.1 stn
      resolve m env e micro stn f r.1 r.2
    | some (.cond tbl) => do
      let r ← takeBranch m env e tbl al
      precheck m f micro r.1 stn
      resolve m env e micro stn f r.1 r.2
    | some (.subm _ _ _ sbm) =>
      match m.vert sbm with
      | some (.ref d ia) => do
        modify fun mem => { mem with dyp := setDyp mem.dyp sbm ets }
        let al ← pushAct m al ia
        resolve m env e micro stn f d al
      | _ => stop .ub
    | some (.enpnt a t par) =>
      match m.vert par with
      | some (.subm _ _ _ sbm) => do
        modify fun mem => { mem with dyp := setDyp mem.dyp sbm par }
        let al ← pushAct m al a
        resolve m env e micro stn f t al
      | _ => stop .ub
    | some (.expnt ix par) => do
      let mem ← get
      match mem.dyp par with
      | none => stop .ub
      | some dp =>
        match m.vert dp with
        | some (.subm _ _ exptbl _) =>
          match exptbl[ix]? with
          | none => stop .ub
          | some (a, t) => do
            let al ← pushAct m al a
            resolve m env e micro stn f t al
        | _ => stop .ub
    | some .unknown => error m .unknState

/-- The members `defchild` and `initialAction` if the vertex is a composite state. -/
def Machine.comp (m : Machine) (v : Vid) : Option (Vid × Option Act) :=
  match m.vert v with
  | some (.composite _ _ d ia) => some (d, ia)
  | _ => none

/-- Stage 4 (rkhsm.c:677-706). -/
def stage4 (m : Machine) (f : Nat) (creation micro : Bool) (cs stn ts : Vid) : Eng (List Vid) :=
  match micro, creation with
  | true, _ => lift (addTarget m f ts (some stn))
  | false, true => lift (addTarget m f ts none)
  | false, false => exits m ts f 0 (some cs) []

/-- The loop over a transition and the default transitions that follow it (rkhsm.c:516-738). Without histories `stn` is not changed by
stage 3. -/
def segLoop (m : Machine) (env : Env) (e : Sig) (creation : Bool) (cs : Vid) :
    Nat → Bool → Vid → Vid → Option Act → Bool → Eng (Vid × Bool)
  | 0, _, _, _, _, _ => stop .fuel
  | f + 1, micro, stn, ets, ta, compl => do
    let al ← pushAct m [] ta
    let r ← resolve m env e micro stn f ets al
    let ent ← stage4 m f creation micro cs stn r.1
    exec e r.2
    let c ← enter m ent.reverse compl
    match m.comp r.1 with
    | some (d, ia) => segLoop m env e creation cs f true r.1 d ia c
    | none =>
      match ent with
      | [] => stop .ub
      | s :: _ => pure (s, c)

/-- Stage 8 (rkhsm.c:748-751). -/
def finish (stn : Vid) : Eng Unit := do
  modify fun mem => { mem with state := some stn }
  emit (.stable stn)

/-- One pass through the outer loop of `rkh_sm_dispatch` (rkhsm.c:439-755). -/
def compound (m : Machine) (env : Env) (f : Nat) (e : Sig) (creation : Bool) : Eng Bool :=
  match creation with
  | true => do
    let r ← segLoop m env e true m.istate f false m.istate m.istate m.iaction false
    finish r.1
    pure r.2
  | false => do
    let mem ← get
    match mem.state with
    | none => stop .ub
    | some cs => do
      let r ← searchUp m env e f cs
      match r with
      | none => stop (.rc .evtNFound)
      | some (s, t) =>
        match t.target with
        | none => do
          let al ← pushAct m [] t.action
          exec e al
          pure false
        | some v => do
          let r ← segLoop m env e false cs f false s v t.action false
          finish r.1
          pure r.2

/-- The outer loop of `rkh_sm_dispatch` (rkhsm.c:439-756). -/
def passes (m : Machine) (env : Env) : Nat → Sig → Bool → Eng Unit
  | 0, _, _ => stop .fuel
  | f + 1, e, creation => do
    let c ← compound m env f e creation
    match c with
    | false => pure ()
    | true => passes m env f sigCompletion false

/-- `rkh_sm_dispatch` (rkhsm.c:389-760). -/
def dispatch (m : Machine) (env : Env) (f : Nat) (e : Sig) : Eng Unit := passes m env f e (e == sigCreation)

/-- State machine object before `rkh_sm_init`; the variables `*dyp` are zero-initialised statics (rkhsm.h:654-666). -/
def mem0 (m : Machine) : Mem := { state := some m.istate, dyp := fun _ => none, log := [] }

/-- A sequence of calls of `rkh_sm_dispatch`, each with its own step budget (see `SM.calls`). -/
def calls (m : Machine) (env : Env) : List (Sig × Nat) → Mem → Mem × List (Ans Unit)
  | [], s => (s, [])
  | (e, f) :: os, s =>
    match dispatch m env f e s with
    | (s1, .ok ()) => let r := calls m env os s1; (r.1, .ok () :: r.2)
    | (s1, .stop (.rc c)) => let r := calls m env os s1; (r.1, .stop (.rc c) :: r.2)
    | (s1, .stop c) => (s1, [.stop c])

end Verif.Subm
