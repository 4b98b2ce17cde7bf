import Verif.SM.Model
/-
The trace records of the state machine engine: source/sm/src/rkhsm.c with the `RKH_TR_SM_*` calls it contains, and the
macros `RKH_EXEC_ENTRY`, `RKH_EXEC_EXIT`, `RKH_EXEC_EFF` of source/fwk/inc/rkhitl.h:2310-2445, which contain
`RKH_TR_SM_EXE_ACT`. Each definition repeats the one of Model.lean and adds the trace calls; `TraceLemmas.lean` proves
that without the records it is the same.

Only the records of the engine are modelled, with all of them compiled in and enabled; records written by the
application's functions lie between them.
-/
namespace Verif.SM

/-- Kind of behaviour in `RKH_TR_SM_EXE_ACT` (rkhtrc_define.h:1261-1269). -/
inductive Beh where
  | eff | en | ex
  deriving DecidableEq, Repr

/-- The records about one state machine (rkhtrc_record.h:546-929), with vertices and functions in place of their
addresses. -/
inductive TRec where
  | init (s : Vid)
  | dch (e : Sig) (s : Vid)
  | trn (src : Vid) (tgt : Option Vid)
  | tsState (v : Vid)
  | exe (k : Beh) (s : Option Vid) (a : Nat)
  | exState (s : Vid)
  | enState (s : Vid)
  | nenex (nEn nEx : Nat)
  | state (s : Vid)
  | evtProc
  | evtNFound (e : Sig)
  | grdFalse
  | cndNFound
  | unknState
  | exHlevel
  | exTseg
  deriving DecidableEq, Repr

/-- The engine's data and the records written so far. -/
structure TMem where
  mem : Mem
  trc : List TRec

/-- A piece of the engine with trace calls. -/
def TEng (α : Type) := TMem → TMem × Ans α

namespace TEng

/-- Sequencing. -/
def bind {α β : Type} (x : TEng α) (f : α → TEng β) : TEng β := fun s =>
  match x s with
  | (s1, .ok a) => f a s1
  | (s1, .stop c) => (s1, .stop c)

instance : Monad TEng where
  pure a := fun s => (s, .ok a)
  bind := TEng.bind

/-- A piece without trace calls. -/
def quiet {α : Type} (x : Eng α) : TEng α := fun s => ({ s with mem := (x s.mem).1 }, (x s.mem).2)
/-- A trace call. -/
def say (r : TRec) : TEng Unit := fun s => ({ s with trc := s.trc ++ [r] }, .ok ())

end TEng
open Eng TEng

/-- The entry and exit actions of the states (members `enter` and `exit`, rkhsm.h:2064-2091): the address of the
function, if any. -/
structure Fns where
  en : Vid → Option Nat
  ex : Vid → Option Nat

/-- `FIND_TRN` (rkhsm.c:86-111): a guard that is false is reported. -/
def tFindTrn (env : Env) (e : Sig) : List Tr → TEng (Option Tr)
  | [] => pure none
  | t :: ts =>
    if t.event = sigAny then pure none
    else if t.event = e then do
      let b ← quiet (evalGuard env e t.guard)
      match b with
      | true => pure (some t)
      | false => do say .grdFalse; tFindTrn env e ts
    else tFindTrn env e ts

/-- `RKH_EXEC_TRANSITION` (rkhsm.c:149-154) with `RKH_EXEC_EFF` (rkhitl.h:2417-2445): the record names the member `state`,
which is the current state until stage 8. -/
def tExec (e : Sig) : List Act → TEng Unit
  | [] => pure ()
  | a :: as => do
    quiet (emit (.act a e))
    let m ← quiet get
    say (.exe .eff m.state a)
    tExec e as

/-- The search for an enabled transition (rkhsm.c:467-476). -/
def tSearchUp (m : Machine) (env : Env) (e : Sig) : Nat → Vid → TEng (Option (Vid × Tr))
  | 0, _ => quiet (stop .fuel)
  | f + 1, s =>
    match m.trtbl s with
    | none => quiet (stop .ub)
    | some tbl => do
      let r ← tFindTrn env e tbl
      match r with
      | some t => pure (some (s, t))
      | none =>
        match m.parent s with
        | none => quiet (stop .ub)
        | some none => pure none
        | some (some p) => tSearchUp m env e f p

/-- `if (rkh_add_tr_action(...)) { RKH_TR_SM_EX_TSEG(me); RKH_ERROR(); return RKH_EX_TSEG; }` (rkhsm.c:520-525, 563-568,
598-607). -/
def tPushAct (m : Machine) (al : List Act) (a : Option Act) : TEng (List Act) :=
  match addAct m al a with
  | none => do say .exTseg; quiet (error m .exTseg)
  | some al => pure al

/-- The inner loop of `RKH_EXEC_EXIT_ACTION` (rkhsm.c:195-216): the only early end with a return code or an assertion is
the one that reports the depth. -/
def tFindLca (m : Machine) (stx : Vid) (f : Nat) (n : Option Vid) : TEng (Bool × List Vid) :=
  match findLca m stx f n [] with
  | .stop .assert => do say .exHlevel; quiet (stop .assert)
  | .stop (.rc c) => do say .exHlevel; quiet (stop (.rc c))
  | r => quiet (lift r)

/-- `RKH_EXEC_EXIT` (rkhitl.h:2355-2400), update of the history and `RKH_TR_SM_EXSTATE` (rkhsm.c:220-224). -/
def tExit (m : Machine) (fn : Fns) (x : Vid) : TEng Unit := do
  quiet (emit (.exit x))
  match fn.ex x with
  | some a => say (.exe .ex (some x) a)
  | none => pure ()
  quiet (updShallow m x)
  say (.exState x)

/-- `RKH_EXEC_EXIT_ACTION` (rkhsm.c:190-238): returns the states to enter and `ix_x`. -/
def tExits (m : Machine) (fn : Fns) (ts : Vid) : Nat → Nat → Option Vid → List Vid → TEng (List Vid × Nat)
  | 0, _, _, _ => quiet (stop .fuel)
  | _ + 1, ix, none, ent => pure (ent, ix)
  | f + 1, ix, some x, _ => do
    let r ← tFindLca m x f (some ts)
    match r with
    | (true, ent) =>
      match ix with
      | 0 => do
        tExit m fn x
        if ent.length < m.maxDepth then pure (ent ++ [x], 1) else quiet (stop .ub)
      | ix + 1 => pure (ent, ix + 1)
    | (false, ent) => do
      tExit m fn x
      match m.parent x with
      | none => quiet (stop .ub)
      | some p => tExits m fn ts f (ix + 1) p ent

/-- `RKH_EXEC_ENTRY` (rkhitl.h:2310-2353) and `RKH_TR_SM_ENSTATE` (rkhsm.c:249-252). -/
def tEntry (fn : Fns) (s : Vid) : TEng Unit := do
  quiet (emit (.entry s))
  match fn.en s with
  | some a => say (.exe .en (some s) a)
  | none => pure ()
  say (.enState s)

/-- `RKH_EXEC_ENTRY_ACTION` (rkhsm.c:245-254). -/
def tEnter (m : Machine) (fn : Fns) : List Vid → Bool → TEng Bool
  | [], c => pure c
  | s :: ss, _ => do tEntry fn s; tEnter m fn ss (isCompletion m s)

/-- A `CHOICE`/`CONDITIONAL` case (rkhsm.c:553-571). -/
def tTakeBranch (m : Machine) (env : Env) (e : Sig) (tbl : List Tr) (al : List Act) : TEng (Vid × List Act) := do
  let r ← quiet (findBranch env e tbl)
  match r with
  | none => do say .cndNFound; quiet (stop (.rc .cndNFound))
  | some t => do
    let al ← tPushAct m al t.action
    match t.target with
    | none => quiet (stop .ub)
    | some v => pure (v, al)

/-- The `SHISTORY`/`DHISTORY` case (rkhsm.c:579-623). -/
def tTakeHist (m : Machine) (env : Env) (e : Sig) (h : Vid) (par : Option Vid) (trn : Tr) (al : List Act) :
    TEng (Vid × Vid × List Act) :=
  match par with
  | none => quiet (stop (if m.assertEn then .assert else .ub))
  | some p =>
    match m.vert p with
    | some (.composite _ _ _ _ hp) =>
      if m.assertEn = true ∧ hp = none then quiet (stop .assert)
      else do
        let mem ← quiet get
        match mem.hist h with
        | some v => pure (p, v, al)
        | none =>
          match trn.target with
          | none => pure (p, p, al)
          | some v => do
            let b ← quiet (evalGuard env e trn.guard)
            match b with
            | false => do say .grdFalse; quiet (stop (.rc .grdFalse))
            | true => do
              let al ← tPushAct m al trn.action
              pure (p, v, al)
    | _ => quiet (stop .ub)

/-- Stage 3 (rkhsm.c:535-674): every segment reports its target. -/
def tResolve (m : Machine) (env : Env) (e : Sig) (micro : Bool) : Nat → Vid → Vid → List Act →
    TEng (Vid × Vid × List Act)
  | 0, _, _, _ => quiet (stop .fuel)
  | f + 1, stn, ets, al =>
    match m.vert ets with
    | none => quiet (stop .ub)
    | some (.basic _ _) => pure (stn, ets, al)
    | some (.composite _ _ _ _ _) => pure (stn, ets, al)
    | some (.final _) => pure (stn, ets, al)
    | some (.choice tbl) => do
      tExec e al
      let r ← tTakeBranch m env e tbl []
      quiet (precheck m f micro r.1 stn)
      say (.tsState r.1)
      tResolve m env e micro f stn r.1 r.2
    | some (.cond tbl) => do
      let r ← tTakeBranch m env e tbl al
      quiet (precheck m f micro r.1 stn)
      say (.tsState r.1)
      tResolve m env e micro f stn r.1 r.2
    | some (.hist _ par trn) => do
      let r ← tTakeHist m env e ets par trn al
      quiet (precheck m f micro r.2.1 r.1)
      say (.tsState r.2.1)
      tResolve m env e micro f r.1 r.2.1 r.2.2
    | some .unknown => do say .unknState; quiet (error m .unknState)

/-- Stage 4 (rkhsm.c:677-706): the states to enter, and `ix_x`, which only `RKH_EXEC_EXIT_ACTION` assigns. -/
def tStage4 (m : Machine) (fn : Fns) (f : Nat) (creation micro : Bool) (cs stn ts : Vid) (nEx : Nat) :
    TEng (List Vid × Nat) :=
  match micro, creation with
  | true, _ => do let l ← quiet (lift (addTarget m f ts (some stn))); pure (l, nEx)
  | false, true => do let l ← quiet (lift (addTarget m f ts none)); pure (l, nEx)
  | false, false => tExits m fn ts f 0 (some cs) []

/-- The loop over a transition and the default transitions that follow it (rkhsm.c:516-738), for a transition that is
not internal. Returns also `nEntrySt` and `ix_x`, as unbounded numbers. -/
def tSegLoop (m : Machine) (fn : Fns) (env : Env) (e : Sig) (creation : Bool) (cs : Vid) :
    Nat → Bool → Vid → Vid → Option Act → Bool → Nat → Nat → TEng ((Vid × Bool) × Nat × Nat)
  | 0, _, _, _, _, _, _, _ => quiet (stop .fuel)
  | f + 1, micro, stn, ets, ta, compl, nEn, nEx => do
    let al ← tPushAct m [] ta
    say (.tsState ets)
    let r ← tResolve m env e micro f stn ets al
    let x ← tStage4 m fn f creation micro cs r.1 r.2.1 nEx
    tExec e r.2.2
    let c ← tEnter m fn x.1.reverse compl
    match m.comp r.2.1 with
    | some (d, ia) => tSegLoop m fn env e creation cs f true r.2.1 d ia c (nEn + x.1.length) x.2
    | none =>
      match x.1 with
      | [] => quiet (stop .ub)
      | s :: _ => pure ((s, c), nEn + x.1.length, x.2)

/-- Stages 7 and 8 with their records (rkhsm.c:740-755); the numbers have type `rui8_t`. -/
def tFinish (m : Machine) (f : Nat) (r : (Vid × Bool) × Nat × Nat) : TEng Bool := do
  say (.nenex (r.2.1 % 256) (r.2.2 % 256))
  quiet (finish m f r.1.1)
  say (.state r.1.1)
  say .evtProc
  pure r.1.2

/-- What follows the search for a transition and its dispatch record (rkhsm.c:480-755). -/
def tTake (m : Machine) (fn : Fns) (env : Env) (f : Nat) (e : Sig) (cs : Vid) : Option (Vid × Tr) → TEng Bool
  | none => do say (.evtNFound e); quiet (stop (.rc .evtNFound))
  | some (s, t) => do
    say (.trn s t.target)
    match t.target with
    | none => do
      let al ← tPushAct m [] t.action
      tExec e al
      say .evtProc
      pure false
    | some v => do
      let r ← tSegLoop m fn env e false cs f false s v t.action false 0 0
      tFinish m f r

/-- One pass through the outer loop of `rkh_sm_dispatch` (rkhsm.c:439-755). -/
def tCompound (m : Machine) (fn : Fns) (env : Env) (f : Nat) (e : Sig) (creation : Bool) : TEng Bool :=
  match creation with
  | true => do
    say (.trn m.istate (some m.istate))
    let r ← tSegLoop m fn env e true m.istate f false m.istate m.istate m.iaction false 0 0
    tFinish m f r
  | false => do
    let mem ← quiet get
    match mem.state with
    | none => quiet (stop .ub)
    | some cs => do
      let r ← tSearchUp m env e f cs
      say (.dch e cs)
      tTake m fn env f e cs r

/-- The outer loop (rkhsm.c:439-756). -/
def tPasses (m : Machine) (fn : Fns) (env : Env) : Nat → Sig → Bool → TEng Unit
  | 0, _, _ => quiet (stop .fuel)
  | f + 1, e, creation => do
    let c ← tCompound m fn env f e creation
    match c with
    | false => pure ()
    | true => tPasses m fn env f sigCompletion false

/-- `rkh_sm_dispatch` (rkhsm.c:389-760). -/
def tDispatch (m : Machine) (fn : Fns) (env : Env) (f : Nat) (e : Sig) : TEng Unit := do
  match e == sigCreation with
  | true => say (.init m.istate)
  | false => pure ()
  tPasses m fn env f e (e == sigCreation)

/-- One call; `rkh_sm_clear_history` (rkhsm.c:381-387) writes no record. -/
def tOp (m : Machine) (fn : Fns) (env : Env) (f : Nat) : Op → TEng Unit
  | .dispatch e => tDispatch m fn env f e
  | .clearHistory h => quiet (clearHistory h)

/-- A sequence of calls, as `calls`. -/
def tCalls (m : Machine) (fn : Fns) (env : Env) : List (Op × Nat) → TMem → TMem × List (Ans Unit)
  | [], s => (s, [])
  | (o, f) :: os, s =>
    match tOp m fn env f o s with
    | (s1, .ok ()) => let r := tCalls m fn env os s1; (r.1, .ok () :: r.2)
    | (s1, .stop (.rc c)) => let r := tCalls m fn env os s1; (r.1, .stop (.rc c) :: r.2)
    | (s1, .stop c) => (s1, [.stop c])

/-- The life of a state machine object with its trace. -/
def tLife (m : Machine) (fn : Fns) (env : Env) (f0 : Nat) (os : List (Op × Nat)) : TMem × List (Ans Unit) :=
  tCalls m fn env ((.dispatch sigCreation, f0) :: os) ⟨mem0 m, []⟩

end Verif.SM
