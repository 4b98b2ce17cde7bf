import Verif.SM.Trace
/-
A reader of the trace of one state machine: what it can tell from the records about the events, actions and states, and
which contradictions it would notice.
-/
namespace Verif.SM.Spec
open Verif.SM

/-- What the reader knows: the event being processed, the current state, the last segment target, how many states were
entered and left since the last transition, and an entry or exit action that was reported last. -/
structure Reader where
  evt : Sig
  cur : Option Vid
  seg : Option Vid
  nEn : Nat
  nEx : Nat
  pend : Option (Beh × Vid × Nat)
  deriving DecidableEq, Repr

/-- Before the first record. -/
def Reader.start : Reader := ⟨sigCreation, none, none, 0, 0, none⟩

/-- The machine has a transition from `s` to `t` for the event; the creation leads to the initial state. -/
def explains (m : Machine) (e : Sig) (s : Vid) (t : Option Vid) : Prop :=
  if e = sigCreation then s = m.istate ∧ t = some m.istate else ∃ tr ∈ (m.trtbl s).getD [], tr.event = e ∧ tr.target = t

instance (m : Machine) (e : Sig) (s : Vid) (t : Option Vid) : Decidable (explains m e s t) := by unfold explains; infer_instance

/-- Reading one record: the new knowledge and what has happened, or `none` if the record contradicts the reader's
knowledge:
* a dispatch names the current state;
* a transition is one the machine has for the event, and an event that is not found is the one dispatched;
* an effect is reported for the current state;
* the report of an entry (exit) action is followed by the report that the state is entered (left), and an entered (left)
  state without such a report has no entry (exit) action;
* the numbers of entered and left states are those counted, modulo 256;
* the state that becomes current is the target of the last transition segment. -/
def Reader.step (m : Machine) (fn : Fns) (r : Reader) : TRec → Option (Reader × List Obs)
  | .init s => if r.pend = none then some ({ r with evt := sigCreation, cur := some (r.cur.getD s) }, []) else none
  | .dch e s => if r.pend = none ∧ r.cur = some s then some ({ r with evt := e }, []) else none
  | .trn s t => if r.pend = none ∧ explains m r.evt s t then some ({ r with nEn := 0, nEx := 0 }, []) else none
  | .tsState v => if r.pend = none then some ({ r with seg := some v }, []) else none
  | .exe .eff s a => if r.pend = none ∧ s = r.cur then some (r, [.act a r.evt]) else none
  | .exe k (some s) a => if r.pend = none then some ({ r with pend := some (k, s, a) }, []) else none
  | .exe _ none _ => none
  | .exState s =>
    if r.pend = (fn.ex s).map (fun a => (.ex, s, a)) then some ({ r with pend := none, nEx := r.nEx + 1 }, [.exit s]) else none
  | .enState s =>
    if r.pend = (fn.en s).map (fun a => (.en, s, a)) then some ({ r with pend := none, nEn := r.nEn + 1 }, [.entry s]) else none
  | .nenex n x => if r.pend = none ∧ n = r.nEn % 256 ∧ x = r.nEx % 256 then some (r, []) else none
  | .state s => if r.pend = none ∧ r.seg = some s then some ({ r with cur := some s }, [.stable s]) else none
  | .evtNFound e => if r.pend = none ∧ r.evt = e then some (r, []) else none
  | _ => if r.pend = none then some (r, []) else none

/-- Reading a whole trace: the final knowledge and everything that has happened. -/
def Reader.read (m : Machine) (fn : Fns) (r : Reader) : List TRec → Option (Reader × List Obs)
  | [] => some (r, [])
  | t :: ts =>
    match r.step m fn t with
    | none => none
    | some (r1, os) => (Reader.read m fn r1 ts).map fun x => (x.1, os ++ x.2)

/-- What a trace can show: everything but calls of guard functions and of `rkh_sm_clear_history`. -/
def visible : Obs → Bool
  | .guard .. => false
  | .clear _ => false
  | _ => true

/-- A guard that was false. -/
def falseGuard : Obs → Bool
  | .guard _ _ b => !b
  | _ => false

/-- The result the last record of a dispatch announces. -/
def announced : TRec → Option (Ans Unit)
  | .evtProc => some (.ok ())
  | .evtNFound _ => some (.stop (.rc .evtNFound))
  | .grdFalse => some (.stop (.rc .grdFalse))
  | .cndNFound => some (.stop (.rc .cndNFound))
  | .unknState => some (.stop (.rc .unknState))
  | .exHlevel => some (.stop (.rc .exHlevel))
  | .exTseg => some (.stop (.rc .exTseg))
  | _ => none

end Verif.SM.Spec
