import Verif.SM.Model
/-
What the properties of the state machine engine talk about: the state hierarchy, which transition an event selects, the
path of a transition through pseudostates, default entry, and what a log says about active states and histories.
Nothing here refers to how the engine works; only the data types of the model are used.
-/
namespace Verif.SM.Spec
open Verif.SM

/-- `l` lists the state `s` and all its ancestors, innermost first. -/
inductive Path (m : Machine) : Vid → List Vid → Prop where
  | root {s : Vid} : m.parent s = some none → Path m s [s]
  | child {s p : Vid} {l : List Vid} : m.parent s = some (some p) → Path m p l → Path m s (s :: l)

/-- `v` is a proper descendant of `c`. -/
inductive Below (m : Machine) (c : Vid) : Vid → Prop where
  | child {v : Vid} : m.parent v = some (some c) → Below m c v
  | trans {v p : Vid} : m.parent v = some (some p) → Below m c p → Below m c v

/-- `v` is a state: basic, composite or final. -/
def IsState (m : Machine) (v : Vid) : Prop := ∃ p, m.parent v = some p

/-- `v` is a basic or final state. -/
def IsLeaf (m : Machine) (v : Vid) : Prop :=
  (∃ p t, m.vert v = some (.basic p t)) ∨ (∃ p, m.vert v = some (.final p))

/-- `v` is a composite state. -/
def IsComposite (m : Machine) (v : Vid) : Prop := ∃ p t d i h, m.vert v = some (.composite p t d i h)

/-- A guard is evaluated and found true; the log grows by the call, if the application is called at all. -/
inductive GuardTrue (env : Env) (e : Sig) : Option Guard → List Obs → List Obs → Prop where
  | none {l : List Obs} : GuardTrue env e none l l
  | els {l : List Obs} : GuardTrue env e (some .els) l l
  | fn {g : Nat} {l : List Obs} : env g e l = true → GuardTrue env e (some (.fn g)) l (l ++ [.guard g e true])

/-- Guards are evaluated one after the other and all are found false. -/
inductive GuardsFalse (env : Env) (e : Sig) : List (Option Guard) → List Obs → List Obs → Prop where
  | nil {l : List Obs} : GuardsFalse env e [] l l
  | cons {g : Nat} {gs : List (Option Guard)} {l l' : List Obs} : env g e l = false →
      GuardsFalse env e gs (l ++ [.guard g e false]) l' → GuardsFalse env e (some (.fn g) :: gs) l l'

/-- The rows of a transition table: everything before the first `RKH_ANY`. -/
def rows (tbl : List Tr) : List Tr := tbl.takeWhile fun t => t.event != sigAny

/-- The transitions triggered by `e` in the states `l`, in the order in which they are to be considered. -/
def candidates (m : Machine) (e : Sig) (l : List Vid) : List (Vid × Tr) :=
  l.flatMap fun v => ((rows ((m.trtbl v).getD [])).filter fun t => t.event == e).map fun t => (v, t)

/-- Of the candidates, `(s, t)` is the first enabled one. -/
def Selected (m : Machine) (env : Env) (e : Sig) (l : List Vid) (log : List Obs) (s : Vid) (t : Tr)
    (log' : List Obs) : Prop :=
  ∃ pre post log1, candidates m e l = pre ++ (s, t) :: post ∧
    GuardsFalse env e (pre.map fun x => x.2.guard) log log1 ∧ GuardTrue env e t.guard log1 log'

/-- No candidate is enabled. -/
def NoneEnabled (m : Machine) (env : Env) (e : Sig) (l : List Vid) (log log' : List Obs) : Prop :=
  GuardsFalse env e ((candidates m e l).map fun x => x.2.guard) log log'

/-- The branches of a choice or conditional that can be taken: those with a guard. -/
def branches (tbl : List Tr) : List Tr := (rows tbl).filter fun t => t.guard.isSome

/-- `t` is the first branch whose guard is true. -/
def Branch (env : Env) (e : Sig) (tbl : List Tr) (log : List Obs) (t : Tr) (log' : List Obs) : Prop :=
  ∃ pre post log1, branches tbl = pre ++ t :: post ∧ GuardsFalse env e (pre.map fun t => t.guard) log log1 ∧
    GuardTrue env e t.guard log1 log'

/-- Execution of effects. -/
def acts (e : Sig) (l : List Act) : List Obs := l.map fun a => .act a e

/-- A compound transition is followed from a vertex to a state. `pend` are the effects met so far and not yet executed.
Effects before a choice are executed when the choice is reached. A segment is taken only if the configured number of
pending effects is not exhausted. -/
inductive Follows (m : Machine) (env : Env) (e : Sig) (hist : Vid → Option Vid) :
    Vid → List Act → List Obs → Vid → List Act → List Obs → Prop where
  | state {v : Vid} {pend : List Act} {log : List Obs} : IsState m v → Follows m env e hist v pend log v pend log
  | cond {v w ts : Vid} {tbl : List Tr} {t : Tr} {pend pend' : List Act} {log log1 log' : List Obs} :
      m.vert v = some (.cond tbl) → Branch env e tbl log t log1 → pend.length < m.maxSegs → t.target = some w →
      Follows m env e hist w (pend ++ t.action.toList) log1 ts pend' log' →
      Follows m env e hist v pend log ts pend' log'
  | choice {v w ts : Vid} {tbl : List Tr} {t : Tr} {pend pend' : List Act} {log log1 log' : List Obs} :
      m.vert v = some (.choice tbl) → Branch env e tbl (log ++ acts e pend) t log1 → t.target = some w →
      Follows m env e hist w t.action.toList log1 ts pend' log' →
      Follows m env e hist v pend log ts pend' log'
  | restore {v w ts : Vid} {d : Bool} {p : Option Vid} {trn : Tr} {pend pend' : List Act} {log log' : List Obs} :
      m.vert v = some (.hist d p trn) → hist v = some w →
      Follows m env e hist w pend log ts pend' log' → Follows m env e hist v pend log ts pend' log'
  | default {v w ts : Vid} {d : Bool} {p : Option Vid} {trn : Tr} {pend pend' : List Act} {log log1 log' : List Obs} :
      m.vert v = some (.hist d p trn) → hist v = none → trn.target = some w → GuardTrue env e trn.guard log log1 →
      pend.length < m.maxSegs →
      Follows m env e hist w (pend ++ trn.action.toList) log1 ts pend' log' →
      Follows m env e hist v pend log ts pend' log'
  | owner {v p ts : Vid} {d : Bool} {trn : Tr} {pend pend' : List Act} {log log' : List Obs} :
      m.vert v = some (.hist d (some p) trn) → hist v = none → trn.target = none →
      Follows m env e hist p pend log ts pend' log' → Follows m env e hist v pend log ts pend' log'

/-- Default entry of `c`: nothing for a leaf; for a composite the default transition is followed to a state below it,
the states in between are entered outermost first, and so on from there. -/
inductive DefaultEntry (m : Machine) (env : Env) (e : Sig) (hist : Vid → Option Vid) :
    Vid → List Obs → Vid → List Obs → Prop where
  | leaf {c : Vid} {log : List Obs} : IsLeaf m c → DefaultEntry m env e hist c log c log
  | composite {c ts s d : Vid} {p : Option Vid} {tbl : List Tr} {ia : Option Act} {h : Option Vid} {b l : List Vid}
      {pend : List Act} {log log1 log' : List Obs} :
      m.vert c = some (.composite p tbl d ia h) → Follows m env e hist d ia.toList log ts pend log1 →
      Path m c l → Path m ts (b ++ l) →
      DefaultEntry m env e hist ts (log1 ++ acts e pend ++ b.reverse.map .entry) s log' →
      DefaultEntry m env e hist c log s log'

/-- What a log says about active states: `replay log st` is the stack of active states, innermost first, after the
events in `log` if `st` was the stack before; `none` if a state is entered when its parent is not the innermost active
state or left when it is not itself the innermost active state. -/
def replay (m : Machine) : List Obs → List Vid → Option (List Vid)
  | [], st => some st
  | .entry v :: os, st => if m.parent v = some st.head? then replay m os (v :: st) else none
  | .exit v :: os, st =>
    match st with
    | [] => none
    | x :: r => if x = v then replay m os r else none
  | _ :: os, st => replay m os st

/-- What a log says about a shallow history of the composite state `c`: the direct child of `c` that was left last, if
any was left since the history was last cleared. -/
def lastChild (m : Machine) (h c : Vid) : List Obs → Option Vid → Option Vid
  | [], r => r
  | .exit v :: os, r => lastChild m h c os (if m.parent v = some (some c) then some v else r)
  | .clear k :: os, r => lastChild m h c os (if k = h then none else r)
  | _ :: os, r => lastChild m h c os r

open Classical in
/-- What a log says about a deep history of the composite state `c`: the last stable state inside `c`, if there was one
since the history was last cleared. -/
noncomputable def lastLeaf (m : Machine) (h c : Vid) : List Obs → Option Vid → Option Vid
  | [], r => r
  | .stable v :: os, r => lastLeaf m h c os (if Below m c v then some v else r)
  | .clear k :: os, r => lastLeaf m h c os (if k = h then none else r)
  | _ :: os, r => lastLeaf m h c os r

/-- `w` can be reached from `v` by transition segments that start in pseudostates. -/
inductive Reach (m : Machine) : Vid → Vid → Prop where
  | refl {v : Vid} : Reach m v v
  | cond {v w x : Vid} {tbl : List Tr} {t : Tr} : m.vert v = some (.cond tbl) → t ∈ branches tbl →
      t.target = some x → Reach m x w → Reach m v w
  | choice {v w x : Vid} {tbl : List Tr} {t : Tr} : m.vert v = some (.choice tbl) → t ∈ branches tbl →
      t.target = some x → Reach m x w → Reach m v w
  | default {v w x : Vid} {d : Bool} {p : Option Vid} {trn : Tr} : m.vert v = some (.hist d p trn) →
      trn.target = some x → Reach m x w → Reach m v w

/-- `v` may be the target of a transition: a state, choice, conditional or history. -/
def IsTarget (m : Machine) (v : Vid) : Prop := ∃ x, m.vert v = some x ∧ x ≠ .unknown

/-- Well-formed state machines (UML). Parents are composite states and the hierarchy has finite depth; transitions,
branches and default transitions lead to vertices of the machine; every history belongs to exactly one composite state;
the default transition of a composite state leads, through pseudostates and the composite's own history only, to a
state inside it. -/
structure WellFormed (m : Machine) : Prop where
  /-- every state has a finite path to the root -/
  path : ∀ v, IsState m v → ∃ l, Path m v l
  parent : ∀ v p, m.parent v = some (some p) → IsComposite m p
  target : ∀ v tbl t w, m.trtbl v = some tbl → t ∈ rows tbl → t.target = some w → IsTarget m w
  cond : ∀ v tbl t, m.vert v = some (.cond tbl) → t ∈ branches tbl → ∃ w, t.target = some w ∧ IsTarget m w
  choice : ∀ v tbl t, m.vert v = some (.choice tbl) → t ∈ branches tbl → ∃ w, t.target = some w ∧ IsTarget m w
  hist : ∀ h d p trn, m.vert h = some (.hist d p trn) → ∃ c, p = some c ∧
    (∃ q t d i, m.vert c = some (.composite q t d i (some h))) ∧ ∀ w, trn.target = some w → IsTarget m w
  owned : ∀ c p t d i h, m.vert c = some (.composite p t d i (some h)) →
    m.vert h = some .unknown ∨ ∃ k trn, m.vert h = some (.hist k (some c) trn)
  default : ∀ c p t d i h, m.vert c = some (.composite p t d i h) → IsTarget m d ∧
    ∀ x, Reach m d x → (IsState m x → Below m c x) ∧
      ∀ k q trn, m.vert x = some (.hist k q trn) → q = some c
  initial : IsState m m.istate

/-- The limits of the engine's fixed arrays are respected: no state is nested deeper than the configured depth. The
number of actions per transition is not limited here, but the configuration must admit one (rkhitl.h:584-591). -/
structure Limits (m : Machine) : Prop where
  depth : ∀ v l, Path m v l → l.length ≤ m.maxDepth
  segs : 0 < m.maxSegs

/-! ### Reference semantics

A state machine is a current state and a log; everything else, in particular what a history refers to, is read off the
log. -/

open Classical in
/-- What the history `h` refers to after `log`. -/
noncomputable def histOf (m : Machine) (log : List Obs) (h : Vid) : Option Vid :=
  match m.vert h with
  | some (.hist true (some c) _) => lastLeaf m h c log none
  | some (.hist false (some c) _) => lastChild m h c log none
  | _ => none

/-- How an error shows: an error code, or for exceeded limits and unknown vertices the failing assertion if assertions
are compiled in. -/
def shown (m : Machine) : RC → Stop
  | .exHlevel => if m.assertEn then .assert else .rc .exHlevel
  | .exTseg => if m.assertEn then .assert else .rc .exTseg
  | .unknState => if m.assertEn then .assert else .rc .unknState
  | c => .rc c

/-- A compound transition cannot be followed to a state. -/
inductive Stuck (m : Machine) (env : Env) (e : Sig) (hist : Vid → Option Vid) :
    Vid → List Act → List Obs → RC → List Obs → Prop where
  /-- no branch is enabled -/
  | noCond {v : Vid} {tbl : List Tr} {pend : List Act} {log log' : List Obs} : m.vert v = some (.cond tbl) →
      GuardsFalse env e ((branches tbl).map Tr.guard) log log' → Stuck m env e hist v pend log .cndNFound log'
  | noChoice {v : Vid} {tbl : List Tr} {pend : List Act} {log log' : List Obs} : m.vert v = some (.choice tbl) →
      GuardsFalse env e ((branches tbl).map Tr.guard) (log ++ acts e pend) log' →
      Stuck m env e hist v pend log .cndNFound log'
  /-- the default transition of an empty history is not enabled -/
  | noDefault {v w : Vid} {d : Bool} {p : Option Vid} {trn : Tr} {pend : List Act} {log log' : List Obs} :
      m.vert v = some (.hist d p trn) → hist v = none → trn.target = some w → GuardsFalse env e [trn.guard] log log' →
      Stuck m env e hist v pend log .grdFalse log'
  /-- too many effects are pending when a further segment is taken -/
  | fullCond {v : Vid} {tbl : List Tr} {t : Tr} {pend : List Act} {log log' : List Obs} : m.vert v = some (.cond tbl) →
      Branch env e tbl log t log' → m.maxSegs ≤ pend.length → Stuck m env e hist v pend log .exTseg log'
  | fullDefault {v w : Vid} {d : Bool} {p : Option Vid} {trn : Tr} {pend : List Act} {log log' : List Obs} :
      m.vert v = some (.hist d p trn) → hist v = none → trn.target = some w → GuardTrue env e trn.guard log log' →
      m.maxSegs ≤ pend.length → Stuck m env e hist v pend log .exTseg log'
  /-- a later segment cannot be followed -/
  | cond {v w : Vid} {tbl : List Tr} {t : Tr} {pend : List Act} {log log1 log' : List Obs} {c : RC} :
      m.vert v = some (.cond tbl) → Branch env e tbl log t log1 → pend.length < m.maxSegs → t.target = some w →
      Stuck m env e hist w (pend ++ t.action.toList) log1 c log' → Stuck m env e hist v pend log c log'
  | choice {v w : Vid} {tbl : List Tr} {t : Tr} {pend : List Act} {log log1 log' : List Obs} {c : RC} :
      m.vert v = some (.choice tbl) → Branch env e tbl (log ++ acts e pend) t log1 → t.target = some w →
      Stuck m env e hist w t.action.toList log1 c log' → Stuck m env e hist v pend log c log'
  | default {v w : Vid} {d : Bool} {p : Option Vid} {trn : Tr} {pend : List Act} {log log1 log' : List Obs} {c : RC} :
      m.vert v = some (.hist d p trn) → hist v = none → trn.target = some w → GuardTrue env e trn.guard log log1 →
      pend.length < m.maxSegs →
      Stuck m env e hist w (pend ++ trn.action.toList) log1 c log' → Stuck m env e hist v pend log c log'

/-- Default entry of `c` cannot be completed. -/
inductive DefaultStuck (m : Machine) (env : Env) (e : Sig) (hist : Vid → Option Vid) :
    Vid → List Obs → RC → List Obs → Prop where
  | path {c d : Vid} {p : Option Vid} {tbl : List Tr} {ia : Option Act} {h : Option Vid} {log log' : List Obs}
      {r : RC} : m.vert c = some (.composite p tbl d ia h) → Stuck m env e hist d ia.toList log r log' →
      DefaultStuck m env e hist c log r log'
  | later {c ts d : Vid} {p : Option Vid} {tbl : List Tr} {ia : Option Act} {h : Option Vid} {b l : List Vid}
      {pend : List Act} {log log1 log' : List Obs} {r : RC} :
      m.vert c = some (.composite p tbl d ia h) → Follows m env e hist d ia.toList log ts pend log1 →
      Path m c l → Path m ts (b ++ l) →
      DefaultStuck m env e hist ts (log1 ++ acts e pend ++ b.reverse.map .entry) r log' →
      DefaultStuck m env e hist c log r log'

/-- States left by a transition: the active states, innermost first, that are not ancestors of the target; a state that
is its own target is left too. -/
def exited (active target : List Vid) : List Vid :=
  if active = target then active.take 1 else active.filter fun v => v ∉ target

/-- States entered by a transition, innermost first. -/
def entered (active target : List Vid) : List Vid :=
  if active = target then target.take 1 else target.filter fun v => v ∉ active

/-- A completion event is due when `v` has been entered: `v` is a nested final state, or a basic state with a
completion transition. -/
def CompletionDue (m : Machine) (v : Vid) : Prop :=
  (∃ p, m.vert v = some (.final (some p))) ∨
  (∃ p tbl, m.vert v = some (.basic p tbl) ∧ ∃ t ∈ rows tbl, t.event = sigCompletion)

/-- Outcome of one compound transition: `ok s` leads to the stable state `s`, `failed c` ends with error `c`. -/
inductive Outcome where
  | internal
  | ok (s : Vid)
  | failed (c : RC)

/-- Default entry of `ts`, and the stable state is reported. -/
inductive Completes (m : Machine) (env : Env) (e : Sig) (hist : Vid → Option Vid) (ts : Vid) (log : List Obs) :
    Outcome → List Obs → Prop where
  | ok {s : Vid} {log' : List Obs} : DefaultEntry m env e hist ts log s log' →
      Completes m env e hist ts log (.ok s) (log' ++ [.stable s])
  | failed {c : RC} {log' : List Obs} : DefaultStuck m env e hist ts log c log' →
      Completes m env e hist ts log (.failed c) log'

/-- Transition from the current state `cs` to the state `ts`: states are left, effects are executed, states are entered,
then the target is entered by default. Histories met in the default entry count the states just left. -/
def Goes (m : Machine) (env : Env) (e : Sig) (cs ts : Vid) (pend : List Act) (log : List Obs) (o : Outcome)
    (log' : List Obs) : Prop :=
  ∃ l lt, Path m cs l ∧ Path m ts lt ∧
    Completes m env e (histOf m (log ++ (exited l lt).map .exit)) ts
      (log ++ (exited l lt).map .exit ++ acts e pend ++ (entered l lt).reverse.map .entry) o log'

/-- A compound transition out of the current state `cs` has reached the vertex `v`, with pending effects `pend`: it is
followed to a state and that state is entered, or it is stuck. -/
inductive Continues (m : Machine) (env : Env) (e : Sig) (cs v : Vid) (pend : List Act) (log : List Obs) :
    Outcome → List Obs → Prop where
  | moves {ts : Vid} {pend' : List Act} {log1 log' : List Obs} {o : Outcome} :
      Follows m env e (histOf m log) v pend log ts pend' log1 → Goes m env e cs ts pend' log1 o log' →
      Continues m env e cs v pend log o log'
  | stuck {log' : List Obs} {c : RC} : Stuck m env e (histOf m log) v pend log c log' →
      Continues m env e cs v pend log (.failed c) log'

/-- The transition `t` is taken in the current state `cs`. -/
inductive Takes (m : Machine) (env : Env) (e : Sig) (cs : Vid) (t : Tr) (log : List Obs) : Outcome → List Obs → Prop where
  | internal : t.target = none → Takes m env e cs t log .internal (log ++ acts e t.action.toList)
  | external {w : Vid} {log' : List Obs} {o : Outcome} : t.target = some w →
      Continues m env e cs w t.action.toList log o log' → Takes m env e cs t log o log'

/-- One compound transition from the current state `cs`: what `e` leads to and the new log. -/
inductive Turn (m : Machine) (env : Env) (e : Sig) (cs : Vid) (log : List Obs) : Outcome → List Obs → Prop where
  | none {l : List Vid} {log' : List Obs} : Path m cs l → NoneEnabled m env e l log log' →
      Turn m env e cs log (.failed .evtNFound) log'
  | taken {l : List Vid} {v : Vid} {t : Tr} {log1 log' : List Obs} {o : Outcome} : Path m cs l →
      Selected m env e l log v t log1 → Takes m env e cs t log1 o log' → Turn m env e cs log o log'

/-- Creation: the initial action, entry of the initial state and its ancestors, default entry. -/
def Creates (m : Machine) (env : Env) (log : List Obs) (o : Outcome) (log' : List Obs) : Prop :=
  ∃ l, Path m m.istate l ∧ Completes m env sigCreation (histOf m log) m.istate
    (log ++ acts sigCreation m.iaction.toList ++ l.reverse.map .entry) o log'

/-- A dispatch: a compound transition, and another one for the completion event whenever that is due. -/
inductive Dispatches (m : Machine) (env : Env) : Sig → Vid → List Obs → Vid → List Obs → Ans Unit → Prop where
  | internal {e : Sig} {cs : Vid} {log log' : List Obs} : Turn m env e cs log .internal log' →
      Dispatches m env e cs log cs log' (.ok ())
  | ok {e : Sig} {cs s : Vid} {log log' : List Obs} : Turn m env e cs log (.ok s) log' → ¬ CompletionDue m s →
      Dispatches m env e cs log s log' (.ok ())
  | failed {e : Sig} {cs : Vid} {log log' : List Obs} {c : RC} : Turn m env e cs log (.failed c) log' →
      Dispatches m env e cs log cs log' (.stop (shown m c))
  | completion {e : Sig} {cs s s' : Vid} {log log1 log' : List Obs} {r : Ans Unit} :
      Turn m env e cs log (.ok s) log1 → CompletionDue m s → Dispatches m env sigCompletion s log1 s' log' r →
      Dispatches m env e cs log s' log' r

/-- What follows a compound transition with outcome `o` within the same dispatch. -/
def Then (m : Machine) (env : Env) (cs : Vid) (o : Outcome) (log : List Obs) (cs' : Vid) (log' : List Obs)
    (r : Ans Unit) : Prop :=
  match o with
  | .internal => cs' = cs ∧ log' = log ∧ r = .ok ()
  | .failed c => cs' = cs ∧ log' = log ∧ r = .stop (shown m c)
  | .ok w => (¬ CompletionDue m w ∧ cs' = w ∧ log' = log ∧ r = .ok ()) ∨
      (CompletionDue m w ∧ Dispatches m env sigCompletion w log cs' log' r)

/-- Creation followed by completion events. -/
inductive Inits (m : Machine) (env : Env) (log : List Obs) : Vid → List Obs → Ans Unit → Prop where
  | ok {s : Vid} {log' : List Obs} : Creates m env log (.ok s) log' → ¬ CompletionDue m s →
      Inits m env log s log' (.ok ())
  | failed {log' : List Obs} {c : RC} : Creates m env log (.failed c) log' →
      Inits m env log m.istate log' (.stop (shown m c))
  | completion {s s' : Vid} {log1 log' : List Obs} {r : Ans Unit} : Creates m env log (.ok s) log1 →
      CompletionDue m s → Dispatches m env sigCompletion s log1 s' log' r → Inits m env log s' log' r

end Verif.SM.Spec
