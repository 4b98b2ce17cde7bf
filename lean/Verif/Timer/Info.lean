import Verif.Timer.Model
/-
Model of the optional performance counters of the timers (RKH_CFG_TMR_GET_INFO_EN enabled): the member `info` of `RKH_TMR_T`
(rkhtmr.h:276-281, 365) and the functions reading and clearing it (rkhtmr.c:250-272). The counters are kept beside the structures of
Model.lean: `rkh_tmr_init_`, `rkh_tmr_start`, `rkh_tmr_stop` and `rkh_tmr_tick` do not mention the member.
Simplification: `t` and `info` are valid pointers (the functions check neither).
-/
namespace Verif.Timer
open Verif

/-- `RKH_TINFO_T` (rkhtmr.h:276-281): three `rui16_t` counters. -/
structure TInfo where
  nexp : Nat
  nstart : Nat
  nstop : Nat
  deriving DecidableEq, Repr

/-- The timers with their counters. -/
structure StI where
  s : St
  info : Nat → TInfo

/-- Calls: the timer functions, and those of the counters. -/
inductive OpI where
  | op (o : Op)
  | getInfo (t : Nat)
  | clearInfo (t : Nat)
  deriving DecidableEq, Repr

/-- What a call returns or causes. -/
inductive OutI where
  | out (o : Out)
  | info (i : TInfo)
  | unit
  deriving DecidableEq, Repr

/-- `rkh_tmr_get_info` (rkhtmr.c:251-259). -/
def getInfo (x : StI) (t : Nat) : TInfo := x.info t

/-- `rkh_tmr_clear_info` (rkhtmr.c:261-272). -/
def clearInfo (x : StI) (t : Nat) : StI := { x with info := fun u => if u = t then ⟨0, 0, 0⟩ else x.info u }

/-- One call. The functions of rkhtmr.c:127-242 leave the counters alone. -/
def stepI (c : Cfg) (x : StI) : OpI → Res (StI × OutI)
  | .op o => (step c x.s o).map' fun r => ({ x with s := r.1 }, .out r.2)
  | .getInfo t => .ok (x, .info (getInfo x t))
  | .clearInfo t => .ok (clearInfo x t, .unit)

/-- A history of calls. -/
def runI (c : Cfg) : StI → List OpI → Res (StI × List OutI)
  | x, [] => .ok (x, [])
  | x, o :: l => (stepI c x o).bind fun r => (runI c r.1 l).bind fun q => .ok (q.1, r.2 :: q.2)

end Verif.Timer
