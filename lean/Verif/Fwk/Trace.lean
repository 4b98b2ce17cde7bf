import Verif.Fwk.Model
/-
The trace records of the framework layer, and the host program that reads them.

Modelled: the calls RKH_TR_SMA_REG, _UNREG, _ACT, _TERM, _FIFO, _LIFO, _GET, _DEFER, _RCALL (rkhsma.c) and RKH_TR_FWK_EPREG, _AE,
_GC, _GCR (rkhfwk_dynevt.c) with the fields of rkhtrc_record.h:300-500, 1120-1206, on top of the operations of `Fwk.Model`.

A record written inside a critical section appears together with the operation's effect. A record written after the critical
section (GET: rkhsma.c:220-224, with the comment "could be a race condition"; AE: rkhfwk_dynevt.c:151-152; EPREG, ACT, TERM)
is left pending, and `TOp.emit` writes it later with the field values of *that* moment, so that any interrupt may come
in between.

Simplifications: all trace filters are open; the sender and the low watermark of pools are left out; RCALL's object is left
out; `nUsed` is kept in 8 bits (RKH_CFG_MP_SIZEOF_NBLOCK = 8). How fields become bytes and back is module `Trc`.
-/
namespace Verif.Fwk.Trace
open Verif Verif.Fwk

/-- A decoded record. -/
inductive Rec where
  | reg (ao prio : Nat)
  | unreg (ao prio : Nat)
  | act (ao prio size : Nat)
  | term (ao prio : Nat)
  | fifo (ao sig pool nref ne nmin : Nat)
  | lifo (ao sig pool nref ne nmin : Nat)
  | get (ao sig pool nref ne nmin : Nat)
  | defer (q sig : Nat)
  | rcall (sig : Nat)
  | epreg (n size esize nblk : Nat)
  | ae (esize sig pool nref used : Nat)
  | gc (sig pool nref : Nat)
  | gcr (sig pool nref used : Nat)
  deriving DecidableEq, Repr

/-- A record that its function has not written yet. -/
inductive PRec where
  | act (ao prio size : Nat)
  | term (ao prio : Nat)
  | epreg (n size esize : Nat)
  | ae (esize e i : Nat)
  | get (ao e : Nat)
  deriving DecidableEq, Repr

/-- RKH_TR_SMA_FIFO / RKH_TR_SMA_LIFO at the end of the posting critical sections (rkhsma.c:181-182, 205-206;
rkhtrc_record.h:382-426). -/
def postRec (front : Bool) (w : World) (ao e : Nat) : List Rec :=
  match w.aos[ao]? with
  | none => []
  | some x =>
    if front then [.lifo ao (w.hdr e).sig (w.hdr e).pool (w.hdr e).nref x.q.qty x.q.nmin]
    else [.fifo ao (w.hdr e).sig (w.hdr e).pool (w.hdr e).nref x.q.qty x.q.nmin]

/-- Blocks in use in the `i`-th registered pool, as `rkh_evtPool_getNumUsed` reports it (rkhfwk_evtpool.c:138-143). -/
def usedIn (w : World) (i : Nat) : Nat :=
  match w.regs[i]? with
  | none => 0
  | some s => match w.slots[s]? with
    | none => 0
    | some p => numUsed p

/-- RKH_TR_FWK_GC and RKH_TR_FWK_GCR in the critical section of `rkh_fwk_gc` (rkhfwk_dynevt.c:96-108). `w` is the state
before the section, `w'` after. -/
def gcRec (w w' : World) (e : Nat) : List Rec :=
  if (w.hdr e).nref > 1 then [.gc (w'.hdr e).sig (w'.hdr e).pool (w'.hdr e).nref]
  else [.gcr (w.hdr e).sig (((w.hdr e).pool + 255) % 256) (w.hdr e).nref
    ((usedIn w (((w.hdr e).pool + 255) % 256) + 255) % 256)]

/-- The callback `publish` (rkhfwk_pubsub.c:163-175) with the records of the posts. -/
def tPublishCb (c : Cfg) (e : Nat) (sender : Option Nat) (s : World × List Rec) (prio : Nat) : Res (World × List Rec) :=
  match s.1.sptbl[prio]? with
  | none => .ub
  | some r =>
    (assertIf c.assertEn r.isSome).bind fun _ =>
    match r with
    | none => .ub
    | some ao =>
      if some ao ≠ sender then (postFifo c s.1 ao e).map' fun w => (w, s.2 ++ postRec false w ao e) else .ok s

/-- Critical section of `rkh_pubsub_publish` (rkhfwk_pubsub.c:177-194) with records. -/
def tPublish (c : Cfg) (w : World) (ch e : Nat) (sender : Option Nat) : Res ((World × List Rec) × Nat) :=
  match w.chans[ch]? with
  | none => .ub
  | some g => RdyGrp.traverse g (tPublishCb c e sender) ({ incRef w e with conts := .gc1 e :: w.conts }, [])

/-- Records written inside the critical section of an operation other than publish, from `w` to `w'`. -/
def recsOf (w w' : World) (o : Out) : Op → List Rec
  | .activate p _ _ => match o with
    | .num ao => [.reg ao p]
    | _ => []
  | .terminate ao => match w.aos[ao]? with
    | some x => [.unreg ao x.prio]
    | none => []
  | .postFifo ao e => postRec false w' ao e
  | .postLifo ao e => postRec true w' ao e
  | .defer i e => [.defer i (w'.hdr e).sig]
  | .resume k => match w.conts[k]? with
    | some (.rc2 ao e) => postRec true w' ao e
    | some (.rc3 _ e) => [.rcall (w.hdr e).sig]
    | some (.gc2 e) => gcRec w w' e
    | _ => []
  | _ => []

/-- Records an operation leaves to be written after its critical section. -/
def pendOf (w w' : World) (o : Out) : Op → List PRec
  | .activate p _ n => match o with
    | .num ao => [.act ao p n]
    | _ => []
  | .terminate ao => match w.aos[ao]? with
    | some x => [.term ao x.prio]
    | none => []
  | .regPool _ _ n es => [.epreg w'.regs.length n es]
  | .alloc n _ => match o with
    | .evt e => [.ae n e ((w'.hdr e).pool - 1)]
    | _ => []
  | .fetch => match o with
    | .dispatch ao e => [.get ao e]
    | _ => []
  | .take _ => match o with
    | .dispatch ao e => [.get ao e]
    | _ => []
  | _ => []

/-- Writing a pending record: its fields are read now. -/
def emitRec (w : World) : PRec → List Rec
  | .act ao p n => [.act ao p n]
  | .term ao p => [.term ao p]
  | .epreg n sz es => [.epreg n sz es (match w.regs[n - 1]? with
    | none => 0
    | some s => match w.slots[s]? with
      | none => 0
      | some p => p.nblocks)]
  | .ae n e i => [.ae n (w.hdr e).sig (((w.hdr e).pool + 255) % 256) (w.hdr e).nref (usedIn w i)]
  | .get ao e => match w.aos[ao]? with
    | none => []
    | some x => [.get ao (w.hdr e).sig (w.hdr e).pool (w.hdr e).nref x.q.qty x.q.nmin]

/-- A world with the records that are still to be written. -/
structure TWorld where
  w : World
  pend : List PRec

/-- An operation, or the writing of the `k`-th pending record. -/
inductive TOp where
  | act (op : Op)
  | emit (k : Nat)

/-- Is this the record of `rkh_sma_get`? -/
def PRec.isGet : PRec → Bool
  | .get _ _ => true
  | _ => false

/-- Is this the record of a `rkh_sma_get` of `ao`? -/
def PRec.isGetOf (ao : Nat) : PRec → Bool
  | .get x _ => x == ao
  | _ => false

/-- Is this the record of the allocation of `e`? -/
def PRec.isAe (e : Nat) : PRec → Bool
  | .ae _ x _ => x == e
  | _ => false

/-- Operations that do not occur while the function they depend on has not returned: the dispatch ends only after
`rkh_sma_get` has written its record (rkhfwk_sched.c:124-129; in the thread of an active object likewise, and the thread takes
no other event before), and nobody has a new event before `rkh_fwk_ae` has written its record (rkhfwk_dynevt.c:151-153). The
scheduler of rkhfwk_sched.c and threads do not occur together. -/
def early (w : World) (pend : List PRec) : Op → Bool
  | .fetch => pend.any PRec.isGet
  | .done => pend.any PRec.isGet
  | .take ao => pend.any (PRec.isGetOf ao)
  | .resume k => match w.conts[k]? with
    | some (.thr ao _) => pend.any (PRec.isGetOf ao)
    | _ => false
  | .postFifo _ e => pend.any (PRec.isAe e)
  | .postLifo _ e => pend.any (PRec.isAe e)
  | .defer _ e => pend.any (PRec.isAe e)
  | .reserve e => pend.any (PRec.isAe e)
  | .gc e => pend.any (PRec.isAe e)
  | .publish _ e _ => pend.any (PRec.isAe e)
  | _ => false

/-- An operation with its records. -/
def tact (c : Cfg) (w : World) : Op → Res (World × Out × List Rec)
  | .publish ch e s => (tPublish c w ch e s).map' fun r => (r.1.1, .num r.2, r.1.2)
  | op => (step c w op).map' fun r => (r.1, r.2, recsOf w r.1 r.2 op)

/-- One step of the traced framework. What does not occur in the code (`early`) is `ub`. -/
def tstep (c : Cfg) (t : TWorld) : TOp → Res (TWorld × Out × List Rec)
  | .act op =>
    if early t.w t.pend op then .ub
    else (tact c t.w op).map' fun r => (⟨r.1, pendOf t.w r.1 r.2.1 op ++ t.pend⟩, r.2.1, r.2.2)
  | .emit k =>
    match t.pend[k]? with
    | none => .ub
    | some p => .ok (⟨t.w, t.pend.eraseIdx k⟩, .unit, emitRec t.w p)

/-- The framework operations of a traced history. -/
def opsOf : List TOp → List Op
  | [] => []
  | .act op :: ts => op :: opsOf ts
  | .emit _ :: ts => opsOf ts

/-! ### The host program -/

/-- What the host believes: who is registered at each priority, the signals waiting for each active object (next one
first), for each object the signal of an event that has left the queue although its GET record has not arrived, and the
number of events in use per pool. -/
structure Host where
  reg : Nat → Option Nat
  q : Nat → List Nat
  taken : Nat → Option Nat
  used : Nat → Int

/-- Before the first record. -/
def Host.init : Host := ⟨fun _ => none, fun _ => [], fun _ => none, fun _ => 0⟩

/-- Change of a table at one place. -/
def upd {α : Type} (f : Nat → α) (i : Nat) (v : α) : Nat → α := fun x => if x = i then v else f x

/-- A post record that reports `ne` waiting events: if that is one more than the host knows of, nothing was taken meanwhile; if
it is the same number, the front event has been taken and its GET record is still to come. -/
def Host.post (h : Host) (front : Bool) (ao sig ne : Nat) : Option Host :=
  let put (l : List Nat) : List Nat := if front then sig :: l else l ++ [sig]
  if ne = (h.q ao).length + 1 then some { h with q := upd h.q ao (put (h.q ao)) }
  else if ne = (h.q ao).length ∧ h.taken ao = none then
    match h.q ao with
    | [] => none
    | x :: rest => some { h with q := upd h.q ao (put rest), taken := upd h.taken ao (some x) }
  else none

/-- Read one record. `none`: the record contradicts what the host believes. -/
def Host.read (h : Host) : Rec → Option Host
  | .reg ao p => if h.reg p = none then some { h with reg := upd h.reg p (some ao), q := upd h.q ao [], taken := upd h.taken ao none } else none
  | .unreg ao p => if h.reg p = some ao then some { h with reg := upd h.reg p none } else none
  | .fifo ao sig _ _ ne _ => h.post false ao sig ne
  | .lifo ao sig _ _ ne _ => h.post true ao sig ne
  | .get ao sig _ _ ne _ =>
    match h.taken ao with
    | some x => if x = sig ∧ ne = (h.q ao).length then some { h with taken := upd h.taken ao none } else none
    | none =>
      match h.q ao with
      | [] => none
      | x :: rest => if x = sig ∧ ne = rest.length then some { h with q := upd h.q ao rest } else none
  | .ae _ _ i _ _ => some { h with used := upd h.used i (h.used i + 1) }
  | .gcr _ i _ _ => some { h with used := upd h.used i (h.used i - 1) }
  | _ => some h

/-- Read a trace. -/
def Host.readAll (h : Host) : List Rec → Option Host
  | [] => some h
  | r :: rs => (h.read r).bind fun h' => h'.readAll rs

end Verif.Fwk.Trace
