import Verif.Trc.PointsSpec
import Verif.Timer.Trace
import Verif.Queue.Trace
import Verif.MemPool.Trace
import Verif.Fwk.Trace
import Verif.SM.Trace
/-
From the bytes on the trace channel to the records of the modules. `Trc` shows how a trace point with its arguments becomes bytes
and how a host decodes them again to named numbers; `Timer.Trace`, `Queue.Trace`, `MemPool.Trace`, `Fwk.Trace` and `SM.Trace`
show which records the modules write and what a host concludes from them. Here the two meet.

Addresses: timers, queues and pools are named by their addresses; active objects, deferral queues, vertices and functions of
the models are numbers, and a dictionary (the linker's map, which a host has) leads from addresses to them.
-/
namespace Verif.Link
open Verif Verif.Trc Verif.Trc.Spec

/-- What addresses stand for. -/
structure Dict where
  ao : Nat → Option Nat
  dq : Nat → Option Nat
  vtx : Nat → Option SM.Vid
  fn : Nat → Option Nat

/-- A vertex or NULL. -/
def Dict.vtx0 (D : Dict) (a : Nat) : Option (Option SM.Vid) := if a = 0 then some none else (D.vtx a).map some

/-- `RKH_SUBTE_SM_EXE_ACT` (rkhtrc_define.h:1261-1269); the others belong to configurations that are not modelled. -/
def beh : Nat → Option SM.Beh
  | 0 => some .eff
  | 1 => some .en
  | 2 => some .ex
  | _ => none

/-! ## Which record of a module a trace point writes -/

/-- Timers: the arguments of the calls in rkhtmr.c:109, 146, 192, 218, 232. -/
def tmrOf : Pt → Option Timer.TRec
  | .tmrInit t s => some (.init t s)
  | .tmrStart t ao n p => some (.start t ao.addr n p)
  | .tmrStop t n p => some (.stop t n p)
  | .tmrTout t s ao => some (.tout t s ao.addr)
  | .tmrRem t => some (.rem t)
  | _ => none

/-- Queues: the arguments of the calls in rkhqueue.c:118, 206, 211, 229, 254, 270, 299, 317. -/
def queOf : Pt → Option Queue.QRec
  | .queInit q ao n => some (.init q n (ao != 0))
  | .queGet q n => some (.get q n)
  | .queFifo q n m => some (.fifo q n m)
  | .queLifo q n m => some (.lifo q n m)
  | .queFull q => some (.full q)
  | .queDpt q => some (.dpt q)
  | .queGetLast q => some (.getLast q)
  | _ => none

/-- Memory pools: the arguments of the calls in rkhmempool.c:138, 168, 199. -/
def mpOf : Pt → Option MemPool.MRec
  | .mpInit p n b => some (.init p n b)
  | .mpGet p n m => some (.get p n m)
  | .mpPut p n => some (.put p n)
  | _ => none

/-- Framework: the arguments of the calls in rkhsma.c and rkhfwk_dynevt.c. The number of a pool is written in 8 bits, the number of
used blocks in as many as blocks are counted with (rkhfwk_dynevt.c:107-108, 151-152). -/
def fwkOf (k : PCfg) (D : Dict) : Pt → Option Fwk.Trace.Rec
  | .smaAct ao p n => (D.ao ao.addr).map fun a => .act a p n
  | .smaTerm ao p => (D.ao ao.addr).map fun a => .term a p
  | .smaGet ao e p r n m => (D.ao ao.addr).map fun a => .get a e.sig p r n m
  | .smaFifo ao e _ p r n m => (D.ao ao.addr).map fun a => .fifo a e.sig p r n m
  | .smaLifo ao e _ p r n m => (D.ao ao.addr).map fun a => .lifo a e.sig p r n m
  | .smaReg ao p => (D.ao ao.addr).map fun a => .reg a p
  | .smaUnreg ao p => (D.ao ao.addr).map fun a => .unreg a p
  | .smaDefer q e => (D.dq q).map fun i => .defer i e.sig
  | .smaRcall _ e => some (.rcall e.sig)
  | .fwkEpreg n ss es nb => some (.epreg n ss es nb)
  | .fwkAe es e u _ _ => some (.ae es e.sig ((e.pool + 255) % 256) e.nref (u % 256 ^ k.nblock.bytes))
  | .fwkGc e p r => some (.gc e.sig (p % 256) r)
  | .fwkGcr e u _ _ => some (.gcr e.sig ((e.pool + 255) % 256) e.nref (u % 256 ^ k.nblock.bytes))
  | _ => none

/-- State machine of the active object at address `a`: the arguments of the calls in rkhsm.c and rkhitl.h:2310-2445. -/
def smOf (D : Dict) (a : Nat) : Pt → Option SM.TRec
  | .smInit ao s => if ao.addr = a then (D.vtx s).map .init else none
  | .smDch ao e s => if ao.addr = a then (D.vtx s).map (.dch e.sig) else none
  | .smTrn ao s t => if ao.addr = a then (D.vtx s).bind fun s => (D.vtx0 t).map (.trn s) else none
  | .smState ao s => if ao.addr = a then (D.vtx s).map .state else none
  | .smEnstate ao s => if ao.addr = a then (D.vtx s).map .enState else none
  | .smExstate ao s => if ao.addr = a then (D.vtx s).map .exState else none
  | .smNenex ao n x => if ao.addr = a then some (.nenex n x) else none
  | .smTsState ao s => if ao.addr = a then (D.vtx s).map .tsState else none
  | .smEvtProc ao => if ao.addr = a then some .evtProc else none
  | .smEvtNfound ao e => if ao.addr = a then some (.evtNFound e.sig) else none
  | .smGrdFalse ao => if ao.addr = a then some .grdFalse else none
  | .smCndNfound ao => if ao.addr = a then some .cndNFound else none
  | .smUnknState ao => if ao.addr = a then some .unknState else none
  | .smExHlevel ao => if ao.addr = a then some .exHlevel else none
  | .smExTseg ao => if ao.addr = a then some .exTseg else none
  | .smExeAct t ao s f =>
    if ao.addr = a then (beh t).bind fun b => (D.vtx0 s).bind fun s => (D.fn f).map (.exe b s) else none
  | _ => none

/-! ## Which record a host takes a decoded message for -/

/-- The number under a name. -/
def num (d : Decoded) (name : String) : Option Nat :=
  match d.args.lookup name with
  | some (.int n) => some n
  | _ => none

/-- Messages about timers. -/
def readTmr (d : Decoded) : Option Timer.TRec :=
  match d.id with
  | 128 => do some (.init (← num d "timer") (← num d "signal"))
  | 129 => do some (.start (← num d "timer") (← num d "actObj") (← num d "nTicks") (← num d "period"))
  | 130 => do some (.stop (← num d "timer") (← num d "nTicks") (← num d "period"))
  | 131 => do some (.tout (← num d "timer") (← num d "signal") (← num d "actObj"))
  | 132 => do some (.rem (← num d "timer"))
  | _ => none

/-- Messages about queues. -/
def readQue (d : Decoded) : Option Queue.QRec :=
  match d.id with
  | 32 => do some (.init (← num d "queue") (← num d "nElem") ((← num d "actObj") != 0))
  | 33 => do some (.get (← num d "queue") (← num d "nElem"))
  | 34 => do some (.fifo (← num d "queue") (← num d "nElem") (← num d "nMin"))
  | 35 => do some (.lifo (← num d "queue") (← num d "nElem") (← num d "nMin"))
  | 36 => do some (.full (← num d "queue"))
  | 37 => do some (.dpt (← num d "queue"))
  | 38 => do some (.getLast (← num d "queue"))
  | _ => none

/-- Messages about memory pools. -/
def readMp (d : Decoded) : Option MemPool.MRec :=
  match d.id with
  | 0 => do some (.init (← num d "memPool") (← num d "nBlocks") (← num d "blockSize"))
  | 1 => do some (.get (← num d "memPool") (← num d "nFree") (← num d "nMin"))
  | 2 => do some (.put (← num d "memPool") (← num d "nFree"))
  | _ => none

/-- Messages about active objects and dynamic events. -/
def readFwk (D : Dict) (d : Decoded) : Option Fwk.Trace.Rec :=
  match d.id with
  | 64 => do some (.act (← D.ao (← num d "actObj")) (← num d "prio") (← num d "queSize"))
  | 65 => do some (.term (← D.ao (← num d "actObj")) (← num d "prio"))
  | 66 => do some (.get (← D.ao (← num d "actObj")) (← num d "evt") (← num d "poolID") (← num d "refCntr") (← num d "nElem") (← num d "nMin"))
  | 67 => do some (.fifo (← D.ao (← num d "actObj")) (← num d "evt") (← num d "poolID") (← num d "refCntr") (← num d "nElem") (← num d "nMin"))
  | 68 => do some (.lifo (← D.ao (← num d "actObj")) (← num d "evt") (← num d "poolID") (← num d "refCntr") (← num d "nElem") (← num d "nMin"))
  | 69 => do some (.reg (← D.ao (← num d "actObj")) (← num d "prio"))
  | 70 => do some (.unreg (← D.ao (← num d "actObj")) (← num d "prio"))
  | 71 => do some (.defer (← D.dq (← num d "queue")) (← num d "evt"))
  | 72 => do some (.rcall (← num d "evt"))
  | 162 => do some (.epreg (← num d "evtPool") (← num d "storageSize") (← num d "evtSize") (← num d "poolSize"))
  | 163 => do some (.ae (← num d "evtSize") (← num d "evt") (← num d "pool") (← num d "nref") (← num d "nUsed"))
  | 164 => do some (.gc (← num d "evt") (← num d "pool") (← num d "refCnt"))
  | 165 => do some (.gcr (← num d "evt") (← num d "pool") (← num d "nref") (← num d "nUsed"))
  | _ => none

/-- The rest of a message about the state machine of the active object at address `a`. -/
def smBody (D : Dict) (d : Decoded) : Option SM.TRec :=
  match d.id with
  | 96 => do some (.init (← D.vtx (← num d "initState")))
  | 98 => do some (.trn (← D.vtx (← num d "sourceState")) (← D.vtx0 (← num d "targetState")))
  | 99 => do some (.state (← D.vtx (← num d "state")))
  | 100 => do some (.enState (← D.vtx (← num d "state")))
  | 101 => do some (.exState (← D.vtx (← num d "state")))
  | 102 => do some (.nenex (← num d "nEnState") (← num d "nExState"))
  | 104 => do some (.tsState (← D.vtx (← num d "state")))
  | 105 => some .evtProc
  | 106 => do some (.evtNFound (← num d "evt"))
  | 107 => some .grdFalse
  | 108 => some .cndNFound
  | 109 => some .unknState
  | 110 => some .exHlevel
  | 111 => some .exTseg
  | 112 => do some (.exe (← beh (← num d "actionType")) (← D.vtx0 (← num d "state")) (← D.fn (← num d "action")))
  | 113 => do some (.dch (← num d "evt") (← D.vtx (← num d "state")))
  | _ => none

/-- Messages about the state machine of the active object at address `a`. -/
def readSm (D : Dict) (a : Nat) (d : Decoded) : Option SM.TRec := if num d "actObj" = some a then smBody D d else none

/-! ## Conditions -/

/-- The arguments are within the configured sizes, except that pool numbers and numbers of used blocks are written modulo the
size, as the code computes them (`e->pool - 1`, `nUsed - 1`). -/
def Fits (k : PCfg) (p : Pt) : Prop :=
  ∀ x ∈ (says p).2, x.1 ≠ "pool" → x.1 ≠ "nUsed" → ∀ n, x.2.2 = .int n → n < 256 ^ size k x.2.1

/-- No trace point of a kind is filtered out or left out of the build, at the moment it is executed. -/
def Unfiltered (f : FCfg) (k : PCfg) (R : Pt → Bool) : On → List Act → Prop
  | _, [] => True
  | on, .pt p _ :: l => (R p = true → leaves f k on p = true) ∧ Unfiltered f k R on l
  | on, .ctl op :: l => Unfiltered f k R (onAfter on op) l

/-- The trace points a program executes. -/
def points : List Act → List Pt
  | [] => []
  | .pt p _ :: l => p :: points l
  | .ctl _ :: l => points l

end Verif.Link
