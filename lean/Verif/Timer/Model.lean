import Verif.Basic
/-
Model of source/tmr/src/rkhtmr.c (software timers).

Timer structures live in a heap indexed by address (0 = NULL); the list of running timers is threaded through
`tnext`. Every function of the module runs inside one critical section, so calls are atomic.
`ub` is a NULL dereference, or a loop that does not terminate within `fuel` iterations.
Simplifications: RKH_CFG_TMR_HOOK_EN both ways (a disabled or NULL hook makes no calls); calls of the global time-out hook
(RKH_HOOK_TIMEOUT) are those of `hook` as well, since it runs directly before the hook of the timer; calls of the global tick hook
(RKH_HOOK_TIMETICK) are ordinary calls before the tick; hooks start and stop timers but do not initialise them; trace calls omitted; RKH_TINFO_T is never updated by
the code and is omitted; posting to the active object is reported as an output (the queue itself is in Verif.Fwk).
-/
namespace Verif.Timer
open Verif

/-- `RKH_TMR_T` (source/tmr/inc/rkhtmr.h:314-368), without hook pointer and info. -/
structure Tmr where
  evt : Nat
  tnext : Nat
  sma : Nat
  ntick : Nat
  period : Nat
  used : Nat
  deriving DecidableEq, Repr

/-- `thead` (rkhtmr.c:93) and the timer structures. -/
structure St where
  thead : Nat
  heap : Nat → Tmr

/-- Configuration: modulus of `RKH_TNT_T` (2^8, 2^16 or 2^32), assertions compiled in, loop bound. -/
structure Cfg where
  W : Nat
  assertEn : Bool
  fuel : Nat

/-- Store to one timer structure. -/
def St.put (s : St) (t : Nat) (v : Tmr) : St := { s with heap := fun x => if x = t then v else s.heap x }

/-- `rem_from_list` (rkhtmr.c:97-110). -/
def remFromList (s : St) (t tprev : Nat) : Res St :=
  if s.thead = t then
    let s := { s with thead := (s.heap t).tnext }
    .ok (s.put t { s.heap t with used := 0 })
  else if tprev = 0 then .ub
  else
    let s := s.put tprev { s.heap tprev with tnext := (s.heap t).tnext }
    .ok (s.put t { s.heap t with used := 0 })

/-- Loop of `searchAndRemove` (rkhtmr.c:117-119): the final `(tprev, telem)`. -/
def searchLoop (s : St) (t : Nat) : Nat → Nat → Nat → Res (Nat × Nat)
  | 0, _, _ => .ub
  | fuel + 1, tprev, telem =>
    if telem ≠ 0 ∧ telem ≠ t then searchLoop s t fuel telem (s.heap telem).tnext
    else .ok (tprev, telem)

/-- `searchAndRemove` (rkhtmr.c:112-124). -/
def searchAndRemove (c : Cfg) (s : St) (t : Nat) : Res St := do
  let (tprev, telem) ← searchLoop s t c.fuel 0 s.thead
  if telem ≠ 0 then remFromList s telem tprev else pure s

/-- `rkh_tmr_init_` (rkhtmr.c:172-194). -/
def init (c : Cfg) (s : St) (t e : Nat) : Res St := do
  assertIf c.assertEn (decide (t ≠ 0 ∧ e ≠ 0))
  let s ← if (s.heap t).used = 1 then searchAndRemove c s t else pure s
  pure (s.put t { s.heap t with ntick := 0, used := 0, evt := e })

/-- `rkh_tmr_start` (rkhtmr.c:196-219). -/
def start (c : Cfg) (s : St) (t sma itick per : Nat) : Res St := do
  assertIf c.assertEn (decide (t ≠ 0 ∧ sma ≠ 0 ∧ itick ≠ 0))
  let s := s.put t { s.heap t with sma := sma, ntick := itick, period := per }
  if (s.heap t).used = 0 then
    pure { (s.put t { s.heap t with tnext := s.thead, used := 1 }) with thead := t }
  else pure s

/-- `rkh_tmr_stop` (rkhtmr.c:221-242). -/
def stop (c : Cfg) (s : St) (t : Nat) : Res (St × Bool) := do
  assertIf c.assertEn (decide (t ≠ 0))
  if (s.heap t).ntick ≠ 0 then
    let s ← searchAndRemove c (s.put t { s.heap t with ntick := 0 }) t
    pure (s, true)
  else pure (s, false)

/-- A post made by a tick: the timer, the receiving active object, the event. -/
structure Post where
  tmr : Nat
  sma : Nat
  evt : Nat
  deriving DecidableEq, Repr

/-- Timer calls a time-out hook function may make. -/
inductive Call where
  | start (t sma itick per : Nat)
  | stop (t : Nat)
  deriving DecidableEq, Repr

/-- A hook function running its calls. -/
def runCalls (c : Cfg) : St → List Call → Res St
  | s, [] => .ok s
  | s, .start t sma i p :: l => (start c s t sma i p).bind fun s => runCalls c s l
  | s, .stop t :: l => (stop c s t).bind fun r => runCalls c r.1 l

/-- Loop of `rkh_tmr_tick` (rkhtmr.c:139-168). `hook t` are the calls made by the hook of timer `t` when it expires. -/
def tickLoop (c : Cfg) (hook : Nat → List Call) : Nat → St → Nat → Nat → Res (St × List Post)
  | 0, _, _, _ => .ub
  | fuel + 1, s, tprev, t =>
    if t = 0 then .ok (s, [])
    else if (s.heap t).used = 0 then
      (remFromList s t tprev).bind fun s => tickLoop c hook fuel s tprev (s.heap t).tnext
    else
      let s := s.put t { s.heap t with ntick := ((s.heap t).ntick + (c.W - 1)) % c.W }
      if (s.heap t).ntick = 0 then
        (if (s.heap t).period = 0 then (remFromList s t tprev).bind fun s => .ok (s, tprev)
         else .ok (s.put t { s.heap t with ntick := (s.heap t).period }, t)).bind fun (s, tprev) =>
        (runCalls c s (hook t)).bind fun s =>
        (tickLoop c hook fuel s tprev (s.heap t).tnext).bind fun (s', posts) =>
          .ok (s', { tmr := t, sma := (s.heap t).sma, evt := (s.heap t).evt } :: posts)
      else tickLoop c hook fuel s t (s.heap t).tnext

/-- `rkh_tmr_tick` (rkhtmr.c:127-170). -/
def tick (c : Cfg) (hook : Nat → List Call) (s : St) : Res (St × List Post) := tickLoop c hook c.fuel s 0 s.thead

/-- `rkh_tmr_init` (rkhtmr.c:244-248): the timer structures have arbitrary contents. -/
def moduleInit (heap : Nat → Tmr) : St := { thead := 0, heap := heap }

/-- Calls on the module. -/
inductive Op where
  | init (t e : Nat)
  | start (t sma itick per : Nat)
  | stop (t : Nat)
  | tick
  deriving DecidableEq, Repr

/-- What a call returns or causes. -/
inductive Out where
  | unit
  | bool (b : Bool)
  | posts (l : List Post)
  deriving DecidableEq, Repr

/-- One call. Hooks make no timer calls (see HooksSpec.lean for hooks that do). -/
def step (c : Cfg) (s : St) : Op → Res (St × Out)
  | .init t e => (init c s t e).map' fun s => (s, .unit)
  | .start t sma i p => (start c s t sma i p).map' fun s => (s, .unit)
  | .stop t => (stop c s t).map' fun r => (r.1, .bool r.2)
  | .tick => (tick c (fun _ => []) s).map' fun r => (r.1, .posts r.2)

end Verif.Timer
