import Verif.Timer.Model
/-
The trace records of the software timers: the calls RKH_TR_TMR_INIT, _START, _STOP, _TOUT, _REM in source/tmr/src/rkhtmr.c with
the fields of source/trc/inc/rkhtrc_record.h:981-1061, on top of the functions of `Timer.Model`. All of them are written inside
the critical sections of the module.

`sig e` is the signal of the event at address `e` (`t->evt->e`). Simplifications: all filters are open; how fields become bytes
and back is module `Trc`.
-/
namespace Verif.Timer
open Verif

/-- A record about a timer. -/
inductive TRec where
  | init (t sig : Nat)
  | start (t sma nticks per : Nat)
  | stop (t nticks per : Nat)
  | tout (t sig sma : Nat)
  | rem (t : Nat)
  deriving DecidableEq, Repr

/-- What a call does that others can see, in order: it writes a record or posts an event. -/
inductive Item where
  | trc (r : TRec)
  | post (p : Post)
  deriving DecidableEq, Repr

/-- `rem_from_list` (rkhtmr.c:97-110): the record comes last. -/
def tRemFromList (s : St) (t tprev : Nat) : Res (St × List Item) :=
  (remFromList s t tprev).map' fun s => (s, [.trc (.rem t)])

/-- `searchAndRemove` (rkhtmr.c:112-124). -/
def tSearchAndRemove (c : Cfg) (s : St) (t : Nat) : Res (St × List Item) :=
  (searchLoop s t c.fuel 0 s.thead).bind fun x =>
    if x.2 ≠ 0 then tRemFromList s x.2 x.1 else .ok (s, [])

/-- `rkh_tmr_init_` (rkhtmr.c:172-194). -/
def tInit (c : Cfg) (sig : Nat → Nat) (s : St) (t e : Nat) : Res (St × List Item) :=
  (assertIf c.assertEn (decide (t ≠ 0 ∧ e ≠ 0))).bind fun _ =>
  (if (s.heap t).used = 1 then tSearchAndRemove c s t else .ok (s, [])).bind fun r =>
  let s := r.1.put t { r.1.heap t with ntick := 0, used := 0, evt := e }
  .ok (s, r.2 ++ [.trc (.init t (sig (s.heap t).evt))])

/-- `rkh_tmr_start` (rkhtmr.c:196-219). -/
def tStart (c : Cfg) (s : St) (t sma itick per : Nat) : Res (St × List Item) :=
  (start c s t sma itick per).map' fun s => (s, [.trc (.start t sma itick (s.heap t).period)])

/-- `rkh_tmr_stop` (rkhtmr.c:221-242): the record shows the timer as it was before. -/
def tStop (c : Cfg) (s : St) (t : Nat) : Res ((St × Bool) × List Item) :=
  (assertIf c.assertEn (decide (t ≠ 0))).bind fun _ =>
  let r0 : Item := .trc (.stop t (s.heap t).ntick (s.heap t).period)
  if (s.heap t).ntick ≠ 0 then
    (tSearchAndRemove c (s.put t { s.heap t with ntick := 0 }) t).bind fun r => .ok ((r.1, true), r0 :: r.2)
  else .ok ((s, false), [r0])

/-- A hook function running its calls. -/
def tRunCalls (c : Cfg) : St → List Call → Res (St × List Item)
  | s, [] => .ok (s, [])
  | s, .start t sma i p :: l =>
    (tStart c s t sma i p).bind fun r => (tRunCalls c r.1 l).bind fun q => .ok (q.1, r.2 ++ q.2)
  | s, .stop t :: l => (tStop c s t).bind fun r => (tRunCalls c r.1.1 l).bind fun q => .ok (q.1, r.2 ++ q.2)

/-- Loop of `rkh_tmr_tick` (rkhtmr.c:139-168). -/
def tTickLoop (c : Cfg) (sig : Nat → Nat) (hook : Nat → List Call) : Nat → St → Nat → Nat → Res (St × List Item)
  | 0, _, _, _ => .ub
  | fuel + 1, s, tprev, t =>
    if t = 0 then .ok (s, [])
    else if (s.heap t).used = 0 then
      (tRemFromList s t tprev).bind fun r =>
      (tTickLoop c sig hook fuel r.1 tprev (r.1.heap t).tnext).bind fun q => .ok (q.1, r.2 ++ q.2)
    else
      let s := s.put t { s.heap t with ntick := ((s.heap t).ntick + (c.W - 1)) % c.W }
      if (s.heap t).ntick = 0 then
        let r0 : Item := .trc (.tout t (sig (s.heap t).evt) (s.heap t).sma)
        (if (s.heap t).period = 0 then (tRemFromList s t tprev).bind fun r => .ok (r.1, tprev, r.2)
         else .ok (s.put t { s.heap t with ntick := (s.heap t).period }, t, [])).bind fun r =>
        (tRunCalls c r.1 (hook t)).bind fun k =>
        (tTickLoop c sig hook fuel k.1 r.2.1 (k.1.heap t).tnext).bind fun q =>
          .ok (q.1, r0 :: r.2.2 ++ k.2 ++ .post ⟨t, (k.1.heap t).sma, (k.1.heap t).evt⟩ :: q.2)
      else tTickLoop c sig hook fuel s t (s.heap t).tnext

/-- `rkh_tmr_tick` (rkhtmr.c:127-170). -/
def tTick (c : Cfg) (sig : Nat → Nat) (hook : Nat → List Call) (s : St) : Res (St × List Item) :=
  tTickLoop c sig hook c.fuel s 0 s.thead

/-- The posts among what a call shows. -/
def itemPosts (l : List Item) : List Post := l.filterMap fun i => match i with | .post p => some p | .trc _ => none

/-- The records among what a call shows. -/
def recsOf (l : List Item) : List TRec := l.filterMap fun i => match i with | .trc r => some r | .post _ => none

/-- One call, hooks making no timer calls. -/
def tstep (c : Cfg) (sig : Nat → Nat) (s : St) : Op → Res (St × Out × List Item)
  | .init t e => (tInit c sig s t e).map' fun r => (r.1, .unit, r.2)
  | .start t sma i p => (tStart c s t sma i p).map' fun r => (r.1, .unit, r.2)
  | .stop t => (tStop c s t).map' fun r => (r.1.1, .bool r.1.2, r.2)
  | .tick => (tTick c sig (fun _ => []) s).map' fun r => (r.1, .posts (itemPosts r.2), r.2)

/-! ### The host program -/

/-- What the host believes about a running timer: receiver and period. -/
abbrev Host := Nat → Option (Nat × Nat)

/-- Change of one timer. -/
def Host.set (h : Host) (t : Nat) (v : Option (Nat × Nat)) : Host := fun x => if x = t then v else h x

/-- Read one record. `none`: the record contradicts what the host believes. A timer that is stopped has ticks left exactly if
it is running; only running timers expire or are removed. -/
def Host.read (h : Host) : TRec → Option Host
  | .init t _ => if h t = none then some h else none
  | .start t sma _ per => some (h.set t (some (sma, per)))
  | .stop t n per => match h t with
    | some x => if n ≠ 0 ∧ per = x.2 then some h else none
    | none => if n = 0 then some h else none
  | .tout t _ sma => match h t with
    | some x => if sma = x.1 then some h else none
    | none => none
  | .rem t => match h t with
    | some _ => some (h.set t none)
    | none => none

/-- Read a trace. -/
def Host.readAll (h : Host) : List TRec → Option Host
  | [] => some h
  | r :: rs => (h.read r).bind fun h' => h'.readAll rs

end Verif.Timer
