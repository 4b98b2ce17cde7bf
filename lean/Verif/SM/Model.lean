/-
Model of the state machine engine, source/sm/src/rkhsm.c and source/sm/inc/rkhsm.h, in the configuration with
hierarchy (`RKH_CFG_SMA_HCAL_EN`), shallow and deep history, choice and conditional pseudostates enabled, and
submachines and event preprocessors disabled (as in source/sm/test/support/rkhcfg.h).

The 8-bit counters `ix_x`, `ix_n` and `nn` are naturals here (no more than 255 nested states or segments; of 8 bits in Nest/Model.lean).

Not modelled here: trace records other than the one that reports the stable state (see Trace.lean), the `hinfo` counters, the dispatch hook,
the configuration without hierarchy (see Flat.lean), and an action that calls `rkh_sm_dispatch` itself (the engine's working variables
are `static` unless configured otherwise; see Nest/Model.lean, which has them as they are). Two configurations do not compile at this
commit: submachines together with hierarchy (`UPDATE_IN_PARENT` expands to two statements inside the header of a `for`,
rkhsm.c:174-182, 468; modelled as they are meant in Subm/Model.lean) and preprocessors, which are not modelled (`RKH_PROCESS_INPUT` reads `prepro` from an `RKH_ST_T`, which has no such
member, rkhsm.c:132-136, 470, rkhsm.h:2064-2091).
-/
namespace Verif.SM

/-- Reference to a vertex (a pointer to one of the `RKHROM` objects). `NULL` is represented by `Option`. -/
abbrev Vid := Nat
/-- Event signal. -/
abbrev Sig := Nat
/-- Transition action (effect). -/
abbrev Act := Nat

/-- `RKH_ANY`, `RKH_COMPLETION_EVENT`, `RKH_SM_CREATION_EVENT` (rkhitl.h) with `RKH_SIG_T` of 16 bits. -/
def sigAny : Sig := 65535
@[inherit_doc sigAny] def sigCompletion : Sig := 65534
@[inherit_doc sigAny] def sigCreation : Sig := 65533

/-- Guard function; `els` is `rkh_sm_else` (rkhsm.c:770-801). -/
inductive Guard where
  | els
  | fn (g : Nat)
  deriving DecidableEq, Repr

/-- `RKH_TR_T` (rkhsm.h:2032-2057). A `NULL` target is an internal transition. -/
structure Tr where
  event : Sig
  guard : Option Guard
  action : Option Act
  target : Option Vid
  deriving DecidableEq, Repr

/-- The vertex objects of rkhsm.h:2064-2549 and their type codes rkhitl.h:1628-1646. Tables are listed without their
terminating `RKH_ANY` row. The entry and exit actions of a state are identified with the state. A final state has an
empty transition table (rkhsm.h:212-220). `unknown` is a vertex of any other type, e.g. the history object of a
composite state created with `RKH_NO_HISTORY`. -/
inductive Vertex where
  | basic (parent : Option Vid) (trtbl : List Tr)
  | composite (parent : Option Vid) (trtbl : List Tr) (defchild : Vid) (init : Option Act) (history : Option Vid)
  | final (parent : Option Vid)
  | cond (trtbl : List Tr)
  | choice (trtbl : List Tr)
  | hist (deep : Bool) (parent : Option Vid) (trn : Tr)
  | unknown
  deriving DecidableEq, Repr

/-- A state machine: its vertices, initial state and initial action (`RKH_ROM_T`), and the configuration
`RKH_CFG_SMA_MAX_HCAL_DEPTH`, `RKH_CFG_SMA_MAX_TRC_SEGS` and whether assertions are compiled in. -/
structure Machine where
  vert : Vid → Option Vertex
  istate : Vid
  iaction : Option Act
  maxDepth : Nat
  maxSegs : Nat
  assertEn : Bool

/-- What the application and the trace see. `entry`/`exit`: the state's entry/exit action, if any, is called and the
state is reported as entered/exited; `act`: a transition action is called with an event; `guard`: a guard function is
called and returns a value; `stable`: the new current state is reported (`RKH_TR_SM_STATE`, rkhsm.c:750); `clear`: the
application cleared a history. -/
inductive Obs where
  | entry (v : Vid)
  | exit (v : Vid)
  | act (a : Act) (e : Sig)
  | guard (g : Nat) (e : Sig) (b : Bool)
  | stable (v : Vid)
  | clear (h : Vid)
  deriving DecidableEq, Repr

/-- The data that survives a dispatch: current state, `*h->target` of every history, and everything observed so far. -/
structure Mem where
  state : Option Vid
  hist : Vid → Option Vid
  log : List Obs

/-- The guard functions: the value returned may depend on everything observed so far, hence on any variable the
application's actions have assigned. -/
abbrev Env := Nat → Sig → List Obs → Bool

/-- `RKH_RCODE_T` (rkhsm.h:1557-1597), except `RKH_EVT_PROC` which is the regular end of a dispatch. -/
inductive RC where
  | evtNFound | cndNFound | grdFalse | unknState | exHlevel | exTseg
  deriving DecidableEq, Repr

/-- Ways a dispatch ends before it is complete: an error code, an assertion, undefined behaviour, or the step budget of
the model is exhausted. -/
inductive Stop where
  | rc (c : RC) | assert | ub | fuel
  deriving DecidableEq, Repr

/-- Result of a piece of the engine. -/
inductive Ans (α : Type) where
  | ok (a : α)
  | stop (s : Stop)
  deriving DecidableEq, Repr

/-- A piece of the engine. What happened before an early end is kept. -/
def Eng (α : Type) := Mem → Mem × Ans α

namespace Eng

/-- Sequencing. -/
def bind {α β : Type} (x : Eng α) (f : α → Eng β) : Eng β := fun s =>
  match x s with
  | (s1, .ok a) => f a s1
  | (s1, .stop c) => (s1, .stop c)

instance : Monad Eng where
  pure a := fun s => (s, .ok a)
  bind := Eng.bind

/-- Early end. -/
def stop {α : Type} (c : Stop) : Eng α := fun s => (s, .stop c)
/-- Lift a result that does not depend on the memory. -/
def lift {α : Type} (a : Ans α) : Eng α := fun s => (s, a)
/-- Read the memory. -/
def get : Eng Mem := fun s => (s, .ok s)
/-- Change the memory. -/
def modify (f : Mem → Mem) : Eng Unit := fun s => (f s, .ok ())
/-- Something observable happens. -/
def emit (o : Obs) : Eng Unit := modify fun s => { s with log := s.log ++ [o] }

end Eng
open Eng

/-- `RKH_ERROR(); return code` : with assertions compiled in `rkh_assert()` does not return (rkhassert.h:163-168). -/
def error {α : Type} (m : Machine) (c : RC) : Eng α := stop (if m.assertEn then .assert else .rc c)

/-- `RKH_EXEC_GUARD` (rkhitl.h:2447-2490); a transition without guard counts as guarded by true (rkhsm.c:103-108). -/
def evalGuard (env : Env) (e : Sig) : Option Guard → Eng Bool
  | none => pure true
  | some .els => pure true
  | some (.fn g) => fun s => ({ s with log := s.log ++ [.guard g e (env g e s.log)] }, .ok (env g e s.log))

/-- `FIND_TRN` (rkhsm.c:86-111): first row with the trigger whose guard is absent or true; a row with `RKH_ANY`
terminates the table. -/
def findTrn (env : Env) (e : Sig) : List Tr → Eng (Option Tr)
  | [] => pure none
  | t :: ts =>
    if t.event = sigAny then pure none
    else if t.event = e then do
      let b ← evalGuard env e t.guard
      match b with
      | true => pure (some t)
      | false => findTrn env e ts
    else findTrn env e ts

/-- `FIND_BRANCH` (rkhsm.c:141-147): first row with a guard that is true; rows without guard are skipped. -/
def findBranch (env : Env) (e : Sig) : List Tr → Eng (Option Tr)
  | [] => pure none
  | t :: ts =>
    if t.event = sigAny then pure none
    else match t.guard with
      | none => findBranch env e ts
      | some g => do
        let b ← evalGuard env e (some g)
        match b with
        | true => pure (some t)
        | false => findBranch env e ts

/-- `RKH_EXEC_TRANSITION` (rkhsm.c:149-154): the stored actions in order. -/
def exec (e : Sig) : List Act → Eng Unit
  | [] => pure ()
  | a :: as => do emit (.act a e); exec e as

/-- The member `parent` of a regular state. Reading it from any other vertex is undefined: pseudostates have
other members at that place (rkhsm.h:2064-2091). `some none` is a `NULL` parent. -/
def Machine.parent (m : Machine) (v : Vid) : Option (Option Vid) :=
  match m.vert v with
  | some (.basic p _) => some p
  | some (.composite p _ _ _ _) => some p
  | some (.final p) => some p
  | _ => none

/-- The member `trtbl` of a regular state (rkhsm.h:2097-2374). -/
def Machine.trtbl (m : Machine) (v : Vid) : Option (List Tr) :=
  match m.vert v with
  | some (.basic _ t) => some t
  | some (.composite _ t _ _ _) => some t
  | some (.final _) => some []
  | _ => none

/-- Stage 2, the search for an enabled transition (rkhsm.c:467-476): from the current state outwards. -/
def searchUp (m : Machine) (env : Env) (e : Sig) : Nat → Vid → Eng (Option (Vid × Tr))
  | 0, _ => stop .fuel
  | f + 1, s =>
    match m.trtbl s with
    | none => stop .ub
    | some tbl => do
      let r ← findTrn env e tbl
      match r with
      | some t => pure (some (s, t))
      | none =>
        match m.parent s with
        | none => stop .ub
        | some none => pure none
        | some (some p) => searchUp m env e f p

/-- `rkh_add_tr_action` (rkhsm.c:305-320): `none` means the list is full. -/
def addAct (m : Machine) (al : List Act) (a : Option Act) : Option (List Act) :=
  if al.length ≥ m.maxSegs then none
  else some (match a with
    | some x => al ++ [x]
    | none => al)

/-- `if (rkh_add_tr_action(...)) { RKH_ERROR(); return RKH_EX_TSEG; }` (rkhsm.c:520-525). -/
def pushAct (m : Machine) (al : List Act) (a : Option Act) : Eng (List Act) :=
  match addAct m al a with
  | none => error m .exTseg
  | some al => pure al

/-- The loop of `addTargetSt` (rkhsm.c:361-369): collects the states from `st` up to, not including, `cmp`. Running past
a root state or past the end of `sentry` is undefined. -/
def addTargetLoop (m : Machine) (cmp : Option Vid) : Nat → Option Vid → List Vid → Ans (List Vid)
  | 0, _, _ => .stop .fuel
  | f + 1, st, acc =>
    if st = cmp then .ok acc
    else match st with
      | none => .stop .ub
      | some s =>
        if acc.length < m.maxDepth then
          match m.parent s with
          | none => .stop .ub
          | some p => addTargetLoop m cmp f p (acc ++ [s])
        else .stop .ub

/-- `addTargetSt` (rkhsm.c:350-372). -/
def addTarget (m : Machine) (f : Nat) (target : Vid) (cmp : Option Vid) : Ans (List Vid) :=
  match m.vert target with
  | none => .stop .ub
  | some (.composite _ _ _ _ _) => addTargetLoop m cmp f (some target) []
  | some (.basic _ _) => addTargetLoop m cmp f (some target) []
  | some (.final _) => addTargetLoop m cmp f (some target) []
  | some _ => .ok []

/-- The inner loop of `RKH_EXEC_EXIT_ACTION` (rkhsm.c:195-216): walks from the target outwards until `stx` is found,
collecting the states to enter. Returns whether `stx` was found. -/
def findLca (m : Machine) (stx : Vid) : Nat → Option Vid → List Vid →
    Ans (Bool × List Vid)
  | 0, _, _ => .stop .fuel
  | _ + 1, none, ent => .ok (false, ent)
  | f + 1, some n, ent =>
    if n = stx then .ok (true, ent)
    else if ent.length < m.maxDepth then
      match m.parent n with
      | none => .stop .ub
      | some p => findLca m stx f p (ent ++ [n])
    else .stop (if m.assertEn then .assert else .rc .exHlevel)

/-- `RKH_UPDATE_SHALLOW_HIST` (rkhsm.c:121-127): the history to update, if any. The parent is read as a composite state
whatever it is. -/
def shallowTarget (m : Machine) (s : Vid) : Ans (Option Vid) :=
  match m.parent s with
  | none => .stop .ub
  | some none => .ok none
  | some (some p) =>
    match m.vert p with
    | some (.composite _ _ _ _ none) => .ok none
    | some (.composite _ _ _ _ (some h)) =>
      match m.vert h with
      | none => .stop .ub
      | some (.hist false _ _) => .ok (some h)
      | some _ => .ok none
    | _ => .stop .ub

/-- Write a history variable. -/
def setHist (h : Vid → Option Vid) (k : Vid) (x : Option Vid) : Vid → Option Vid := fun i => if i = k then x else h i

@[inherit_doc shallowTarget] def updShallow (m : Machine) (s : Vid) : Eng Unit := do
  let r ← lift (shallowTarget m s)
  match r with
  | none => pure ()
  | some h => modify fun mem => { mem with hist := setHist mem.hist h (some s) }

/-- `RKH_EXEC_EXIT_ACTION` (rkhsm.c:190-238): leaves the states from `stx` outwards until a state that is an ancestor of
the target (the least common ancestor) is found; the first state is left in any case. Returns the states to enter,
innermost first. -/
def exits (m : Machine) (ts : Vid) : Nat → Nat → Option Vid → List Vid → Eng (List Vid)
  | 0, _, _, _ => stop .fuel
  | _ + 1, _, none, ent => pure ent
  | f + 1, ix, some x, _ => do
    let r ← lift (findLca m x f (some ts) [])
    match r with
    | (true, ent) =>
      match ix with
      | 0 => do
        emit (.exit x)
        updShallow m x
        if ent.length < m.maxDepth then pure (ent ++ [x]) else stop .ub
      | _ + 1 => pure ent
    | (false, ent) => do
      emit (.exit x)
      updShallow m x
      match m.parent x with
      | none => stop .ub
      | some p => exits m ts f (ix + 1) p ent

/-- `findCompletionTrn` (rkhsm.c:276-291). -/
def findCompletion : List Tr → Bool
  | [] => false
  | t :: ts => if t.event = sigAny then false else if t.event = sigCompletion then true else findCompletion ts

/-- `isCompletionTrn` (rkhsm.c:293-303). -/
def isCompletion (m : Machine) (v : Vid) : Bool :=
  match m.vert v with
  | some (.basic _ t) => findCompletion t
  | some (.final (some _)) => true
  | _ => false

/-- `RKH_EXEC_ENTRY_ACTION` (rkhsm.c:245-253) over the states to enter, outermost first. -/
def enter (m : Machine) : List Vid → Bool → Eng Bool
  | [], c => pure c
  | s :: ss, _ => do emit (.entry s); enter m ss (isCompletion m s)

/-- The common end of a `CHOICE`/`CONDITIONAL` case (rkhsm.c:553-576) up to the new segment target. -/
def takeBranch (m : Machine) (env : Env) (e : Sig) (tbl : List Tr) (al : List Act) : Eng (Vid × List Act) := do
  let r ← findBranch env e tbl
  match r with
  | none => stop (.rc .cndNFound)
  | some t => do
    let al ← pushAct m al t.action
    match t.target with
    | none => stop .ub
    | some v => pure (v, al)

/-- The `SHISTORY`/`DHISTORY` case (rkhsm.c:579-623): parent of the history, new segment target, actions. A history
without parent, or whose parent is not a composite state, fails the assertion; with assertions compiled out it is
treated as undefined. -/
def takeHist (m : Machine) (env : Env) (e : Sig) (h : Vid) (par : Option Vid) (trn : Tr) (al : List Act) :
    Eng (Vid × Vid × List Act) :=
  match par with
  | none => stop (if m.assertEn then .assert else .ub)
  | some p =>
    match m.vert p with
    | some (.composite _ _ _ _ hp) =>
      if m.assertEn = true ∧ hp = none then stop .assert
      else do
        let mem ← get
        match mem.hist h with
        | some v => pure (p, v, al)
        | none =>
          match trn.target with
          | none => pure (p, p, al)
          | some v => do
            let b ← evalGuard env e trn.guard
            match b with
            | false => stop (.rc .grdFalse)
            | true => do
              let al ← pushAct m al trn.action
              pure (p, v, al)
    | _ => stop .ub

/-- `if (isMicroStep) nn = addTargetSt(CST(ets), sentry, stn)` inside the loop of stage 3 (rkhsm.c:572-575, 619-622). The
value is overwritten by the same call in stage 4, so only its failure matters. -/
def precheck (m : Machine) (f : Nat) (micro : Bool) (ets stn : Vid) : Eng Unit :=
  if micro then (do let _ ← lift (addTarget m f ets (some stn)); pure ()) else pure ()

/-- Stage 3 (rkhsm.c:535-674): follow the transition segments until a state is reached. Returns `stn`, the main target
and the actions not yet executed. -/
def resolve (m : Machine) (env : Env) (e : Sig) (micro : Bool) : Nat → Vid → Vid → List Act →
    Eng (Vid × Vid × List Act)
  | 0, _, _, _ => stop .fuel
  | f + 1, stn, ets, al =>
    match m.vert ets with
    | none => stop .ub
    | some (.basic _ _) => pure (stn, ets, al)
    | some (.composite _ _ _ _ _) => pure (stn, ets, al)
    | some (.final _) => pure (stn, ets, al)
    | some (.choice tbl) => do
      exec e al
      let r ← takeBranch m env e tbl []
      precheck m f micro r.1 stn
      resolve m env e micro f stn r.1 r.2
    | some (.cond tbl) => do
      let r ← takeBranch m env e tbl al
      precheck m f micro r.1 stn
      resolve m env e micro f stn r.1 r.2
    | some (.hist _ par trn) => do
      let r ← takeHist m env e ets par trn al
      precheck m f micro r.2.1 r.1
      resolve m env e micro f r.1 r.2.1 r.2.2
    | some .unknown => error m .unknState

/-- The members `defchild` and `initialAction` if the vertex is a composite state. -/
def Machine.comp (m : Machine) (v : Vid) : Option (Vid × Option Act) :=
  match m.vert v with
  | some (.composite _ _ d ia _) => some (d, ia)
  | _ => none

/-- Stage 4 (rkhsm.c:677-706): leave states and compute the states to enter. -/
def stage4 (m : Machine) (f : Nat) (creation micro : Bool) (cs stn ts : Vid) : Eng (List Vid) :=
  match micro, creation with
  | true, _ => lift (addTarget m f ts (some stn))
  | false, true => lift (addTarget m f ts none)
  | false, false => exits m ts f 0 (some cs) []

/-- The loop over a transition and the default transitions that follow it (rkhsm.c:516-738), for a transition that is
not internal. Returns the last state entered and whether a completion event is due. Reading `*snl` when no state was
entered yields a value left over from before; this can only happen for an ill-formed machine and counts as undefined. -/
def segLoop (m : Machine) (env : Env) (e : Sig) (creation : Bool) (cs : Vid) :
    Nat → Bool → Vid → Vid → Option Act → Bool → Eng (Vid × Bool)
  | 0, _, _, _, _, _ => stop .fuel
  | f + 1, micro, stn, ets, ta, compl => do
    let al ← pushAct m [] ta
    let r ← resolve m env e micro f stn ets al
    let ent ← stage4 m f creation micro cs r.1 r.2.1
    exec e r.2.2
    let c ← enter m ent.reverse compl
    match m.comp r.2.1 with
    | some (d, ia) => segLoop m env e creation cs f true r.2.1 d ia c
    | none =>
      match ent with
      | [] => stop .ub
      | s :: _ => pure (s, c)

/-- `rkh_update_deep_hist` (rkhsm.c:322-348): the histories to update. -/
def deepTargets (m : Machine) : Nat → Option Vid → List Vid → Ans (List Vid)
  | 0, _, _ => .stop .fuel
  | _ + 1, none, acc => .ok acc
  | f + 1, some s, acc =>
    match m.vert s with
    | some (.composite p _ _ _ h) =>
      match h with
      | none => deepTargets m f p acc
      | some k =>
        match m.vert k with
        | some (.hist true _ _) => deepTargets m f p (acc ++ [k])
        | none => .stop .ub
        | some _ => deepTargets m f p acc
    | _ => .stop .ub

/-- Stages 7 and 8 (rkhsm.c:740-753): update deep histories and the current state. -/
def finish (m : Machine) (f : Nat) (stn : Vid) : Eng Unit :=
  match m.parent stn with
  | none => stop .ub
  | some p => do
    let ks ← lift (deepTargets m f p [])
    modify fun mem => { mem with hist := ks.foldl (fun h k => setHist h k (some stn)) mem.hist, state := some stn }
    emit (.stable stn)

/-- One pass through the outer loop of `rkh_sm_dispatch` (rkhsm.c:439-755): one compound transition. Returns whether a
completion event is due. -/
def compound (m : Machine) (env : Env) (f : Nat) (e : Sig) (creation : Bool) : Eng Bool :=
  match creation with
  | true => do
    let r ← segLoop m env e true m.istate f false m.istate m.istate m.iaction false
    finish m f r.1
    pure r.2
  | false => do
    let mem ← get
    match mem.state with
    | none => stop .ub
    | some cs => do
      let r ← searchUp m env e f cs
      match r with
      | none => stop (.rc .evtNFound)
      | some (s, t) =>
        match t.target with
        | none => do
          let al ← pushAct m [] t.action
          exec e al
          pure false
        | some v => do
          let r ← segLoop m env e false cs f false s v t.action false
          finish m f r.1
          pure r.2

/-- The outer loop of `rkh_sm_dispatch` (rkhsm.c:439-756): a pending completion event is dispatched at once. -/
def passes (m : Machine) (env : Env) : Nat → Sig → Bool → Eng Unit
  | 0, _, _ => stop .fuel
  | f + 1, e, creation => do
    let c ← compound m env f e creation
    match c with
    | false => pure ()
    | true => passes m env f sigCompletion false

/-- `rkh_sm_dispatch` (rkhsm.c:389-760). `f` bounds the number of loop iterations of the model; `ok ()` stands for
`RKH_EVT_PROC`. -/
def dispatch (m : Machine) (env : Env) (f : Nat) (e : Sig) : Eng Unit := passes m env f e (e == sigCreation)

/-- `rkh_sm_init` (rkhsm.c:375-379). -/
def init (m : Machine) (env : Env) (f : Nat) : Eng Unit := dispatch m env f sigCreation

/-- `rkh_sm_clear_history` (rkhsm.c:381-387). -/
def clearHistory (h : Vid) : Eng Unit := do
  modify fun mem => { mem with hist := setHist mem.hist h none }
  emit (.clear h)

/-- State machine object before `rkh_sm_init`: `MKSM` stores the initial state (rkhitl.h:1716-1764), the history
variables are zero-initialised statics. -/
def mem0 (m : Machine) : Mem := { state := some m.istate, hist := fun _ => none, log := [] }

/-- Calls of the application. -/
inductive Op where
  | dispatch (e : Sig)
  | clearHistory (h : Vid)
  deriving DecidableEq, Repr

/-- One call. -/
def op (m : Machine) (env : Env) (f : Nat) : Op → Eng Unit
  | .dispatch e => dispatch m env f e
  | .clearHistory h => clearHistory h

/-- A sequence of calls, each with its own step budget. A call that returns an error code does not end the sequence;
an assertion, undefined behaviour or an exhausted budget does. Returns the results of the calls made. -/
def calls (m : Machine) (env : Env) : List (Op × Nat) → Mem → Mem × List (Ans Unit)
  | [], s => (s, [])
  | (o, f) :: os, s =>
    match op m env f o s with
    | (s1, .ok ()) => let r := calls m env os s1; (r.1, .ok () :: r.2)
    | (s1, .stop (.rc c)) => let r := calls m env os s1; (r.1, .stop (.rc c) :: r.2)
    | (s1, .stop c) => (s1, [.stop c])

/-- The life of a state machine object: `rkh_sm_init` followed by calls. -/
def life (m : Machine) (env : Env) (f0 : Nat) (os : List (Op × Nat)) : Mem × List (Ans Unit) :=
  calls m env ((.dispatch sigCreation, f0) :: os) (mem0 m)

end Verif.SM
