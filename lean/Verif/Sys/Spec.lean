import Verif.Sys.Model
import Verif.Fwk.Props2
import Verif.SM.Runs
import Verif.Timer.Props
/-
How to read a history of the whole system: the framework calls, the timer calls and the state machine inputs in it.
-/
namespace Verif.Sys.Obs
open Verif Verif.Sys

/-- The framework calls made by one operation. A tick posts the events of the timers that expire. -/
def fwkOps1 : Op → Out → List Fwk.Op
  | .activate p mem n _ _ _, _ => [.activate p mem n]
  | .fetch _, _ => [.fetch]
  | .take ao _, _ => [.take ao]
  | .tick, .posts l => l.map fun p => .postFifo (p.sma - 1) p.evt
  | .call op, _ => [op]
  | _, _ => []

/-- Their results. -/
def fwkOuts1 : Out → List Fwk.Out
  | .activated n => [.num n]
  | .handled ao e _ _ => [.dispatch ao e]
  | .posts l => l.map fun _ => .unit
  | .call o => [o]
  | .tmr _ => []

/-- The framework calls of a history. -/
def fwkOps : List Op → List Out → List Fwk.Op
  | op :: ops, o :: outs => fwkOps1 op o ++ fwkOps ops outs
  | _, _ => []

/-- Their results. -/
def fwkOuts (outs : List Out) : List Fwk.Out := outs.flatMap fwkOuts1

/-- The timer calls of a history. -/
def tmrOps : List Op → List Timer.Op
  | [] => []
  | .tick :: ops => .tick :: tmrOps ops
  | .tmr op :: ops => op :: tmrOps ops
  | _ :: ops => tmrOps ops

/-- Their results. -/
def tmrOuts : List Out → List Timer.Out
  | [] => []
  | .posts l :: outs => .posts l :: tmrOuts outs
  | .tmr o :: outs => o :: tmrOuts outs
  | _ :: outs => tmrOuts outs

/-- The state machines and guards in order of activation. -/
def machines : List Op → List (SM.Machine × SM.Env)
  | [] => []
  | .activate _ _ _ m env _ :: ops => (m, env) :: machines ops
  | _ :: ops => machines ops

/-- The signals of the events dispatched to `ao`, in order. -/
def handled (ao : Nat) : List Out → List Nat
  | [] => []
  | .handled i _ sig _ :: outs => (if i = ao then [sig] else []) ++ handled ao outs
  | _ :: outs => handled ao outs

/-- The signals of the events sent to `ao` by FIFO posts and publications, in order, each read at the moment of sending.
`prio`, `reg`, `sub`, `sig` describe the situation at the beginning of the history. -/
def sentSigs (ao : Nat) : Fwk.Obs.Hist → List Nat → (Nat → Option Nat) → (Nat → Nat → Bool) → (Nat → Nat) → List Nat
  | [], _, _, _, _ => []
  | (op, o) :: h, prio, reg, sub, sig =>
    (Fwk.Obs.sentTo ao [op] prio reg sub).map sig ++
    sentSigs ao h (prio ++ Fwk.Obs.activations [op]) (Fwk.Obs.registry [op] prio reg)
      (fun ch p => Fwk.Obs.subscribed ch p [op] prio (sub ch p)) (Fwk.Obs.signal [(op, o)] sig)

end Verif.Sys.Obs

namespace Verif.Sys.Spec
open Verif Verif.Sys

/-- A state machine alone, without framework, dispatches a sequence of signals. -/
inductive Dispatches (m : SM.Machine) (env : SM.Env) : SM.Mem → List Nat → SM.Mem → Prop where
  | nil {s : SM.Mem} : Dispatches m env s [] s
  | cons {f e : Nat} {s s1 s2 : SM.Mem} {r : SM.Ans Unit} {es : List Nat} :
      SM.dispatch m env f e s = (s1, r) → SM.Spec.Returns r → Dispatches m env s1 es s2 → Dispatches m env s (e :: es) s2

/-- The whole life of a state machine alone: initialisation and a sequence of signals. -/
def Life (m : SM.Machine) (env : SM.Env) (sigs : List Nat) (s : SM.Mem) : Prop :=
  ∃ f s0 r, SM.init m env f (SM.mem0 m) = (s0, r) ∧ SM.Spec.Returns r ∧ Dispatches m env s0 sigs s

end Verif.Sys.Spec

namespace Verif.Sys
open Verif

/-- A history of the system in which every framework call (including the posts of the timers) and every timer call
respects its contract, with its results and the final state. -/
structure Run (c : Cfg) (slots : List MemPool.Pool) (hdr : Nat → Fwk.Evt) (heap : Nat → Timer.Tmr) (ops : List Op)
    (outs : List Out) (s : Sys) : Prop where
  env : Fwk.Env c.fw slots hdr
  legalF : Fwk.Spec.LegalRun c.fw (Fwk.Spec.init fun e => (hdr e).sig) (Obs.fwkOps ops outs)
  legalT : Timer.Spec.Legal c.tm.W Timer.Spec.start0 (Obs.tmrOps ops)
  fuel : (Obs.tmrOps ops).length < c.tm.fuel
  run : runOps (step c) (init c slots hdr heap) ops = (outs, .ok s)

end Verif.Sys
