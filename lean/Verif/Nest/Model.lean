import Verif.SM.Model
/-
Model of `rkh_sm_dispatch` (source/sm/src/rkhsm.c:389-760) over its working variables, for several state machines in one
thread whose actions may themselves dispatch events to other state machines.

Unlike SM/Model.lean, the variables declared `RKH_RAM` (rkhsm.c:404-424) are kept as they are: the arrays `sentry` and
`al` with the pointers `snl` and `pal` into them, and the counters of 8 bits. They are `static`, hence shared by all
calls, unless `RKH_CFGPORT_REENTRANT_EN` is enabled (rkhsm.c:76-84). The remaining variables of the function (`cs`, `ts`,
`ets`, `tr`, `in`, `h` and the flags) are automatic in every configuration; here they are parameters.

Configuration as in SM/Model.lean. Not modelled: trace records other than the stable state, the `hinfo` counters and the
dispatch hook.
-/
namespace Verif.Nest
open Verif.SM

/-- The variables declared `RKH_RAM` (rkhsm.c:404-424). `snl` and `pal` are indices into `sentry` and `al`; an element
of `al` is `none` if it is not a function. The arrays are accessed through bounds checks only, see `rdS`, `wrS`, `rdA`,
`wrA`. -/
structure Vars where
  stn : Option Vid
  stx : Option Vid
  snl : Nat
  islca : Bool
  ixn : BitVec 8
  ixx : BitVec 8
  nn : BitVec 8
  nEntry : BitVec 8
  sentry : Nat → Option Vid
  al : Nat → Option Act
  pal : Nat
  nal : BitVec 8
  trnAct : Option Act

/-- The data of the state machines, and the dispatches that have returned so far: machine, event and result. -/
structure World where
  mem : Nat → Mem
  done : List (Nat × Sig × Ans Unit)

/-- The program: its state machines, their guard functions, and the dispatches an action, entry or exit action or guard
function makes before it returns; these are given by the machine and what has been observed of it, the call itself
being the last observation. `auto` says whether the working variables are automatic, `junk` is what such variables
contain at first. -/
structure Prog where
  mach : Nat → Machine
  env : Nat → Env
  sends : Nat → List Obs → List (Nat × Sig)
  auto : Bool
  junk : Vars

/-- Result of a piece of the engine. `dead`: the program came to an end (assertion, undefined behaviour or exhausted
budget) inside a dispatch made by an action. -/
inductive Out (α : Type) where
  | ok (a : α)
  | stop (s : Stop)
  | dead (s : Stop)
  deriving DecidableEq, Repr

/-- A piece of the engine. -/
def Low (α : Type) := World × Vars → (World × Vars) × Out α

namespace Low

/-- Sequencing. -/
def bind {α β : Type} (x : Low α) (f : α → Low β) : Low β := fun s =>
  match x s with
  | (s1, .ok a) => f a s1
  | (s1, .stop c) => (s1, .stop c)
  | (s1, .dead c) => (s1, .dead c)

instance : Monad Low where
  pure a := fun s => (s, .ok a)
  bind := Low.bind

/-- Early end. -/
def stop {α : Type} (c : Stop) : Low α := fun s => (s, .stop c)
/-- Read the working variables. -/
def get : Low Vars := fun s => (s, .ok s.2)
/-- Change the working variables. -/
def set (f : Vars → Vars) : Low Unit := fun s => ((s.1, f s.2), .ok ())
/-- Read the data of machine `i`. -/
def mem (i : Nat) : Low Mem := fun s => (s, .ok (s.1.mem i))

end Low
open Low

/-- Change the data of machine `i`. -/
def World.upd (w : World) (i : Nat) (f : Mem → Mem) : World :=
  { w with mem := fun j => if j = i then f (w.mem j) else w.mem j }

/-- Change the data of machine `i`. -/
def updMem (i : Nat) (f : Mem → Mem) : Low Unit := fun s => ((s.1.upd i f, s.2), .ok ())

/-- A dispatch as seen by its caller. -/
abbrev Disp := Nat → Sig → Low Unit

/-- The dispatches an action makes, one after the other. The action ignores the result codes. With automatic variables
each call has its own (rkhsm.c:76-84). -/
def nested (p : Prog) (d : Disp) : List (Nat × Sig) → Low Unit
  | [] => pure ()
  | (j, e) :: l => fun s =>
    match d j e (s.1, if p.auto then p.junk else s.2) with
    | (s1, .ok ()) => nested p d l (s1.1, if p.auto then s.2 else s1.2)
    | (s1, .stop (.rc _)) => nested p d l (s1.1, if p.auto then s.2 else s1.2)
    | (s1, .stop c) => (s1, .dead c)
    | (s1, .dead c) => (s1, .dead c)

/-- An action, entry or exit action or guard function of machine `i` is called (`RKH_EXEC_EFF`, `RKH_EXEC_ENTRY`,
`RKH_EXEC_EXIT`, `RKH_EXEC_GUARD`, rkhitl.h:2376-2490). -/
def call (p : Prog) (d : Disp) (i : Nat) (o : Obs) : Low Unit := do
  updMem i fun m => { m with log := m.log ++ [o] }
  let m ← mem i
  nested p d (p.sends i m.log)

/-- `RKH_ERROR(); return code`, as `SM.error`. -/
def error {α : Type} (m : Machine) (c : RC) : Low α := stop (if m.assertEn then .assert else .rc c)

/-- Read an element of `sentry` as a state: undefined outside the array. -/
def rdS (m : Machine) (k : Nat) : Low (Option Vid) := do
  let v ← get
  if k < m.maxDepth then pure (v.sentry k) else stop .ub

/-- Write an element of `sentry`. -/
def wrS (m : Machine) (k : Nat) (x : Option Vid) : Low Unit :=
  if k < m.maxDepth then set fun v => { v with sentry := fun i => if i = k then x else v.sentry i } else stop .ub

/-- Read an element of `al`. -/
def rdA (m : Machine) (k : Nat) : Low (Option Act) := do
  let v ← get
  if k < m.maxSegs then pure (v.al k) else stop .ub

/-- Write an element of `al`. -/
def wrA (m : Machine) (k : Nat) (x : Option Act) : Low Unit :=
  if k < m.maxSegs then set fun v => { v with al := fun i => if i = k then x else v.al i } else stop .ub

section
variable (p : Prog) (d : Disp) (i : Nat)

/-- Guard functions, as `SM.evalGuard`. -/
def evalGuard (e : Sig) : Option Guard → Low Bool
  | none => pure true
  | some .els => pure true
  | some (.fn g) => do
    let m ← mem i
    call p d i (.guard g e (p.env i g e m.log))
    pure (p.env i g e m.log)

/-- `FIND_TRN` (rkhsm.c:86-111); it works on `tr`, which is automatic. -/
def findTrn (e : Sig) : List Tr → Low (Option Tr)
  | [] => pure none
  | t :: ts =>
    if t.event = sigAny then pure none
    else if t.event = e then do
      let b ← evalGuard p d i e t.guard
      match b with
      | true => pure (some t)
      | false => findTrn e ts
    else findTrn e ts

/-- `FIND_BRANCH` (rkhsm.c:141-147). -/
def findBranch (e : Sig) : List Tr → Low (Option Tr)
  | [] => pure none
  | t :: ts =>
    if t.event = sigAny then pure none
    else match t.guard with
      | none => findBranch e ts
      | some g => do
        let b ← evalGuard p d i e (some g)
        match b with
        | true => pure (some t)
        | false => findBranch e ts

/-- The loop of `RKH_EXEC_TRANSITION` (rkhsm.c:150-153). -/
def execLoop (e : Sig) : Nat → Low Unit
  | 0 => stop .fuel
  | f + 1 => do
    let v ← get
    if v.nal = 0 then pure ()
    else do
      let a ← rdA (p.mach i) v.pal
      match a with
      | none => stop .ub
      | some a => do
        call p d i (.act a e)
        set fun v => { v with pal := v.pal + 1, nal := v.nal - 1 }
        execLoop e f

/-- `RKH_EXEC_TRANSITION` (rkhsm.c:149-154). -/
def exec (e : Sig) (f : Nat) : Low Unit := do
  set fun v => { v with pal := 0 }
  execLoop p d i e f
  set fun v => { v with pal := 0 }

/-- Stage 2, the search for an enabled transition (rkhsm.c:467-476); `stn` is the loop variable. -/
def searchUp (e : Sig) : Nat → Low (Option Tr)
  | 0 => stop .fuel
  | f + 1 => do
    let v ← get
    match v.stn with
    | none => pure none
    | some s =>
      match (p.mach i).trtbl s with
      | none => stop .ub
      | some tbl => do
        let r ← findTrn p d i e tbl
        match r with
        | some t => pure (some t)
        | none => do
          let v ← get
          match v.stn with
          | none => stop .ub
          | some s =>
            match (p.mach i).parent s with
            | none => stop .ub
            | some q => do
              set fun v => { v with stn := q }
              match q with
              | none => pure none
              | some _ => searchUp e f

/-- `rkh_add_tr_action` (rkhsm.c:305-320) on `pal` and `nal`, with the error handling of its callers (rkhsm.c:520-525). -/
def addAct (a : Option Act) : Low Unit := do
  let v ← get
  if (p.mach i).maxSegs ≤ v.nal.toNat then error (p.mach i) .exTseg
  else match a with
    | none => pure ()
    | some x => do
      wrA (p.mach i) v.pal (some x)
      set fun v => { v with pal := v.pal + 1, nal := v.nal + 1 }

/-- The loop of `addTargetSt` (rkhsm.c:361-369); `missSt`, `st` and `nEnSt` are automatic. -/
def addTargetLoop (cmp : Option Vid) : Nat → Option Vid → Nat → BitVec 8 → Low (BitVec 8)
  | 0, _, _, _ => stop .fuel
  | f + 1, st, k, n =>
    if st = cmp then pure n
    else match st with
      | none => stop .ub
      | some s => do
        wrS (p.mach i) k (some s)
        match (p.mach i).parent s with
        | none => stop .ub
        | some q => addTargetLoop cmp f q (k + 1) (n + 1)

/-- `addTargetSt` (rkhsm.c:350-372). -/
def addTarget (f : Nat) (target : Vid) (cmp : Option Vid) : Low (BitVec 8) :=
  match (p.mach i).vert target with
  | none => stop .ub
  | some (.composite _ _ _ _ _) => addTargetLoop p i cmp f (some target) 0 0
  | some (.basic _ _) => addTargetLoop p i cmp f (some target) 0 0
  | some (.final _) => addTargetLoop p i cmp f (some target) 0 0
  | some _ => pure 0

/-- The inner loop of `RKH_EXEC_EXIT_ACTION` (rkhsm.c:195-216). -/
def lcaLoop : Nat → Low Unit
  | 0 => stop .fuel
  | f + 1 => do
    let v ← get
    match v.stn with
    | none => pure ()
    | some n =>
      if v.stx = some n then set fun v => { v with islca := true }
      else if v.ixn.toNat < (p.mach i).maxDepth then do
        wrS (p.mach i) v.snl (some n)
        match (p.mach i).parent n with
        | none => stop .ub
        | some q => do
          set fun v => { v with stn := q, snl := v.snl + 1, ixn := v.ixn + 1 }
          lcaLoop f
      else error (p.mach i) .exHlevel

/-- `RKH_UPDATE_SHALLOW_HIST(stx, h)` (rkhsm.c:121-127). -/
def updShallow (x : Option Vid) : Low Unit :=
  match x with
  | none => stop .ub
  | some s =>
    match shallowTarget (p.mach i) s with
    | .stop c => stop c
    | .ok none => pure ()
    | .ok (some h) => updMem i fun m => { m with hist := setHist m.hist h (some s) }

/-- The outer loop of `RKH_EXEC_EXIT_ACTION` (rkhsm.c:192-235). -/
def exitLoop (ts : Vid) : Nat → Low Unit
  | 0 => stop .fuel
  | f + 1 => do
    let v ← get
    match v.stx with
    | none => pure ()
    | some x => do
      set fun v => { v with ixn := 0, snl := 0, stn := some ts }
      lcaLoop p i f
      let v ← get
      if v.islca = false ∨ v.ixx = 0 then do
        call p d i (.exit x)
        let v ← get
        updShallow p i v.stx
        if v.islca = true then do
          wrS (p.mach i) v.snl v.stn
          set fun v => { v with ixn := v.ixn + 1, ixx := v.ixx + 1 }
        else
          match v.stx with
          | none => stop .ub
          | some y =>
            match (p.mach i).parent y with
            | none => stop .ub
            | some q => do
              set fun v => { v with stx := q, ixx := v.ixx + 1 }
              exitLoop ts f
      else pure ()

/-- `RKH_EXEC_EXIT_ACTION(cs, ts, me, nn)` (rkhsm.c:190-238). -/
def exits (f : Nat) (cs ts : Vid) : Low Unit := do
  set fun v => { v with ixn := 0, ixx := 0, islca := false, stx := some cs }
  exitLoop p d i ts f
  set fun v => { v with nn := v.ixn }

/-- The loop of `RKH_EXEC_ENTRY_ACTION` (rkhsm.c:246-252). `isCompletionEvent` is automatic. -/
def entryLoop : Nat → Bool → Low Bool
  | 0, _ => stop .fuel
  | f + 1, c => do
    let v ← get
    if v.ixn = 0 then pure c
    else match v.snl with
      | 0 => stop .ub
      | k + 1 => do
        set fun v => { v with snl := k }
        let s ← rdS (p.mach i) k
        match s with
        | none => stop .ub
        | some s => do
          call p d i (.entry s)
          let v ← get
          let s ← rdS (p.mach i) v.snl
          match s with
          | none => stop .ub
          | some s => do
            set fun v => { v with ixn := v.ixn - 1 }
            entryLoop f (isCompletion (p.mach i) s)

/-- `RKH_EXEC_ENTRY_ACTION(nn, me, stn, snl, ix_n)` (rkhsm.c:245-253). The pointer `&sentry[ix_n]` is undefined beyond
the end of the array. -/
def entries (f : Nat) (c : Bool) : Low Bool := do
  let v ← get
  if (p.mach i).maxDepth < v.nn.toNat then stop .ub
  else do
    set fun v => { v with ixn := v.nn, snl := v.nn.toNat }
    let c ← entryLoop p d i f c
    let v ← get
    let s ← rdS (p.mach i) v.snl
    set fun v => { v with stn := s }
    pure c

/-- `if (isMicroStep) nn = addTargetSt(CST(ets), sentry, stn)` (rkhsm.c:572-575, 619-622). -/
def precheck (f : Nat) (micro : Bool) (ets : Vid) : Low Unit :=
  if micro then do
    let v ← get
    let n ← addTarget p i f ets v.stn
    set fun v => { v with nn := n }
  else pure ()

/-- The common end of a `CHOICE`/`CONDITIONAL` case (rkhsm.c:553-576). -/
def takeBranch (e : Sig) (tbl : List Tr) : Low Vid := do
  let r ← findBranch p d i e tbl
  match r with
  | none => stop (.rc .cndNFound)
  | some t => do
    addAct p i t.action
    match t.target with
    | none => stop .ub
    | some v => pure v

/-- The `SHISTORY`/`DHISTORY` case (rkhsm.c:579-618); assigns `stn`. As `SM.takeHist`. -/
def takeHist (e : Sig) (h : Vid) (par : Option Vid) (trn : Tr) : Low Vid :=
  match par with
  | none => stop (if (p.mach i).assertEn then .assert else .ub)
  | some q =>
    match (p.mach i).vert q with
    | some (.composite _ _ _ _ hp) =>
      if (p.mach i).assertEn = true ∧ hp = none then stop .assert
      else do
        set fun v => { v with stn := some q }
        let m ← mem i
        match m.hist h with
        | some v => pure v
        | none =>
          match trn.target with
          | none => pure q
          | some v => do
            let b ← evalGuard p d i e trn.guard
            match b with
            | false => stop (.rc .grdFalse)
            | true => do
              addAct p i trn.action
              pure v
    | _ => stop .ub

/-- Stage 3 (rkhsm.c:535-674): returns the main target; the number of iterations of the loops that execute actions is
bounded by `f + 16`. -/
def resolve (e : Sig) (micro : Bool) : Nat → Vid → Low Vid
  | 0, _ => stop .fuel
  | f + 1, ets =>
    match (p.mach i).vert ets with
    | none => stop .ub
    | some (.basic _ _) => pure ets
    | some (.composite _ _ _ _ _) => pure ets
    | some (.final _) => pure ets
    | some (.choice tbl) => do
      exec p d i e (f + 16)
      let r ← takeBranch p d i e tbl
      precheck p i f micro r
      resolve e micro f r
    | some (.cond tbl) => do
      let r ← takeBranch p d i e tbl
      precheck p i f micro r
      resolve e micro f r
    | some (.hist _ par trn) => do
      let r ← takeHist p d i e ets par trn
      precheck p i f micro r
      resolve e micro f r
    | some .unknown => error (p.mach i) .unknState

/-- Stage 4 (rkhsm.c:677-706). -/
def stage4 (f : Nat) (creation micro : Bool) (cs ts : Vid) : Low Unit :=
  match micro, creation with
  | true, _ => do
    let v ← get
    let n ← addTarget p i f ts v.stn
    set fun v => { v with nn := n }
  | false, true => do
    let n ← addTarget p i f ts none
    set fun v => { v with nn := v.nn + n }
  | false, false => exits p d i f cs ts

/-- `nal = 0; pal = al; if (rkh_add_tr_action(&pal, trnAct, &nal)) ...` (rkhsm.c:518-525). -/
def startSeg : Low Unit := do
  set fun v => { v with nal := 0, pal := 0 }
  let v ← get
  addAct p i v.trnAct

/-- The loop over a transition and the default transitions that follow it (rkhsm.c:516-738), for a transition that is
not internal. -/
def segLoop (e : Sig) (creation : Bool) (cs : Vid) : Nat → Bool → Vid → Bool → Low Bool
  | 0, _, _, _ => stop .fuel
  | f + 1, micro, ets, c => do
    startSeg p i
    let ts ← resolve p d i e micro f ets
    stage4 p d i f creation micro cs ts
    exec p d i e (f + 16)
    let c ← entries p d i (f + 16) c
    set fun v => { v with nEntry := v.nEntry + v.nn }
    match (p.mach i).comp ts with
    | some (dc, ia) => do
      set fun v => { v with trnAct := ia, stn := some ts }
      segLoop e creation cs f true dc c
    | none => pure c

/-- Stages 7 and 8 (rkhsm.c:740-753). -/
def finish (f : Nat) : Low Unit := do
  let v ← get
  match v.stn with
  | none => stop .ub
  | some stn =>
    match (p.mach i).parent stn with
    | none => stop .ub
    | some q =>
      match deepTargets (p.mach i) f q [] with
      | .stop c => stop c
      | .ok ks => updMem i fun m =>
        { m with hist := ks.foldl (fun h k => setHist h k (some stn)) m.hist, state := some stn,
                 log := m.log ++ [.stable stn] }

/-- One pass through the outer loop (rkhsm.c:439-755). -/
def compound (f : Nat) (e : Sig) (creation : Bool) : Low Bool :=
  match creation with
  | true => do
    set fun v => { v with stn := some (p.mach i).istate, trnAct := (p.mach i).iaction, nn := 0, ixx := 0, nEntry := 0 }
    let c ← segLoop p d i e true (p.mach i).istate f false (p.mach i).istate false
    finish p i f
    pure c
  | false => do
    let m ← mem i
    match m.state with
    | none => stop .ub
    | some cs => do
      set fun v => { v with stn := some cs }
      let r ← searchUp p d i e f
      match r with
      | none => stop (.rc .evtNFound)
      | some t => do
        set fun v => { v with trnAct := t.action, nEntry := 0 }
        match t.target with
        | none => do
          startSeg p i
          exec p d i e (f + 16)
          pure false
        | some ets => do
          let c ← segLoop p d i e false cs f false ets false
          finish p i f
          pure c

/-- The outer loop (rkhsm.c:439-756). -/
def passes : Nat → Sig → Bool → Low Unit
  | 0, _, _ => stop .fuel
  | f + 1, e, creation => do
    let c ← compound p d i f e creation
    match c with
    | false => pure ()
    | true => passes f sigCompletion false

end

/-- The result as seen by the caller of the function. -/
def Out.ans : Out Unit → Option (Ans Unit)
  | .ok _ => some (.ok ())
  | .stop (.rc c) => some (.stop (.rc c))
  | _ => none

/-- `rkh_sm_dispatch` (rkhsm.c:389-760), with at most `n` calls inside each other and step budget `f`. A return is noted
in `done`. -/
def dispatch (p : Prog) (f : Nat) : Nat → Disp
  | 0, _, _ => stop .fuel
  | n + 1, i, e => fun s =>
    match passes p (dispatch p f n) i f e (e == sigCreation) s with
    | (s1, r) =>
      match r.ans with
      | some a => (({ s1.1 with done := s1.1.done ++ [(i, e, a)] }, s1.2), r)
      | none => (s1, r)

/-- The thread: dispatches made one after the other. -/
def runs (p : Prog) (f n : Nat) (l : List (Nat × Sig)) : Low Unit := nested p (dispatch p f n) l

/-- The state machine objects before any of them is initialised (`SM.mem0`). -/
def world0 (p : Prog) : World := { mem := fun i => mem0 (p.mach i), done := [] }

end Verif.Nest
