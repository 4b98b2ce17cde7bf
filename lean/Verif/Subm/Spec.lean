import Verif.Subm.Model
/-
What a machine with submachines stands for (rkhsm.h:2301-2303: "A submachine state is logically equivalent to the insertion of the
referenced state machine as a composite state in the place of the submachine state"): a machine without submachines, in which every
submachine state contains its own copy of the vertices of the submachine.

Vertex numbers of the machine with submachines are below `N`. A copy of a vertex is numbered by the vertex and the context: context 0 is
the machine itself, context `o + 1` the inside of the submachine state whose copy has the number `o`.
-/
namespace Verif.Subm.Spec
open SM (Vid Sig Act Guard Tr Obs Env)

/-- The copy of vertex `v` in context `c`. -/
def occ (N c : Nat) (v : Vid) : Vid := v + 2 * N * c
/-- The border of the copy of the submachine state `v` in context `c`: where transitions end that lead to the submachine state. -/
def border (N c : Nat) (v : Vid) : Vid := N + v + 2 * N * c
/-- The vertex of which `o` is a copy. -/
def vtx (N : Nat) (o : Vid) : Vid := o % (2 * N)
/-- The context of the copy `o`. -/
def ctx (N : Nat) (o : Vid) : Nat := o / (2 * N)

/-- The target `t` of a transition in context `c`. -/
def target (m : Machine) (N c : Nat) (t : Vid) : Vid :=
  match m.vert t with
  | some (.subm _ _ _ _) => border N c t
  | _ => occ N c t

/-- The parent in context `c`: the states on top of a submachine are inside the submachine state. -/
def parent (m : Machine) (N c : Nat) : Option Vid → Option Vid
  | none => none
  | some p =>
    match m.vert p with
    | some (.ref _ _) => if c = 0 then none else some (c - 1)
    | _ => some (occ N c p)

/-- A transition table in context `c`. -/
def trs (m : Machine) (N c : Nat) (l : List Tr) : List Tr := l.map fun t => { t with target := t.target.map (target m N c) }

/-- A connection point: one segment is continued by another. -/
def junction (a : Option Act) (t : Vid) : SM.Vertex := .cond [⟨0, some .els, a, some t⟩]

/-- The copy of vertex `v` in context `c`. A submachine state becomes a composite state; entry and exit points become connection points
that lead inside the submachine state and out of it. -/
def copy (m : Machine) (N c : Nat) (v : Vid) : Option SM.Vertex :=
  match m.vert v with
  | some (.basic p t) => some (.basic (parent m N c p) (trs m N c t))
  | some (.composite p t d a) => some (.composite (parent m N c p) (trs m N c t) (target m N c d) a none)
  | some (.final p) => some (.final (parent m N c p))
  | some (.cond t) => some (.cond (trs m N c t))
  | some (.choice t) => some (.choice (trs m N c t))
  | some (.subm p t _ sbm) =>
    match m.vert sbm with
    | some (.ref d a) => some (.composite (parent m N c p) (trs m N c t) (target m N (occ N c v + 1) d) a none)
    | _ => none
  | some (.enpnt a t par) => some (junction a (target m N (occ N c par + 1) t))
  | some (.expnt ix _) =>
    if c = 0 then none
    else match m.vert (vtx N (c - 1)) with
      | some (.subm _ _ exptbl _) =>
        match exptbl[ix]? with
        | some (a, t) => some (junction a (target m N (ctx N (c - 1)) t))
        | none => none
      | _ => none
  | some .unknown => some .unknown
  | some (.ref _ _) => none
  | none => none

/-- The border of the submachine state `v` in context `c` leads to the default state of the submachine, with its initial action. -/
def atBorder (m : Machine) (N c : Nat) (v : Vid) : Option SM.Vertex :=
  match m.vert v with
  | some (.subm _ _ _ sbm) =>
    match m.vert sbm with
    | some (.ref d a) => some (junction a (target m N (occ N c v + 1) d))
    | _ => none
  | _ => none

/-- The machine with all submachines inserted. -/
def inserted (m : Machine) (N : Nat) : SM.Machine where
  vert o := if vtx N o < N then copy m N (ctx N o) (vtx N o) else atBorder m N (ctx N o) (vtx N o - N)
  istate := m.istate
  iaction := m.iaction
  maxDepth := m.maxDepth
  maxSegs := m.maxSegs
  assertEn := m.assertEn

/-- The state at whose border a transition ends. -/
def toState (N : Nat) (o : Vid) : Vid := if vtx N o < N then o else o - N

@[inherit_doc toState] def toStates (N : Nat) (l : List Tr) : List Tr := l.map fun t => { t with target := t.target.map (toState N) }

/-- The machine with all submachines inserted as composite states, taken literally: a transition to a submachine state ends on the
composite state, whose initial transition follows. -/
def composed (m : Machine) (N : Nat) : SM.Machine :=
  { inserted m N with
    vert := fun o => if vtx N o < N then
        ((inserted m N).vert o).map fun
          | .basic p t => .basic p (toStates N t)
          | .composite p t d a h => .composite p (toStates N t) (toState N d) a h
          | .cond t => .cond (toStates N t)
          | .choice t => .choice (toStates N t)
          | x => x
      else none }

/-- What is seen of the machine with submachines: copies of a state look alike. -/
def seen (N : Nat) : Obs → Obs
  | .entry o => .entry (vtx N o)
  | .exit o => .exit (vtx N o)
  | .stable o => .stable (vtx N o)
  | .clear h => .clear h
  | .act a e => .act a e
  | .guard g e b => .guard g e b

/-- The guards of the inserted machine are those of the machine with submachines. -/
def seenBy (N : Nat) (env : Env) : Env := fun g e l => env g e (l.map (seen N))

/-! ## Which machines -/

/-- A state other than a submachine state. -/
def isState (m : Machine) (v : Vid) : Bool :=
  match m.vert v with
  | some (.basic _ _) => true
  | some (.composite _ _ _ _) => true
  | some (.final _) => true
  | _ => false

/-- A state or a submachine state. -/
def isEntrance (m : Machine) (v : Vid) : Bool :=
  match m.vert v with
  | some (.subm _ _ _ _) => true
  | _ => isState m v

/-- `home v` is the submachine to which `v` belongs, if any. -/
def okParent (m : Machine) (home : Vid → Option Vid) (v : Vid) : Option Vid → Bool
  | none => home v == none
  | some p =>
    match m.vert p with
    | some (.ref _ _) => home v == some p
    | some (.composite _ _ _ _) => home p == home v
    | _ => false

/-- A transition does not cross the border of a submachine except through entry and exit points. -/
def okTarget (m : Machine) (home : Vid → Option Vid) (v t : Vid) : Bool :=
  home t == home v && (match m.vert t with | none => false | some (.ref _ _) => false | some _ => true)

@[inherit_doc okTarget] def okTrs (m : Machine) (home : Vid → Option Vid) (v : Vid) (l : List Tr) : Bool :=
  l.all fun t => match t.target with | none => true | some w => okTarget m home v w

/-- The rules for a vertex. `rank`: a submachine does not contain itself. -/
def okVertex (m : Machine) (home : Vid → Option Vid) (rank : Option Vid → Nat) (v : Vid) : Vertex → Bool
  | .basic p t => okParent m home v p && okTrs m home v t
  | .composite p t d _ => okParent m home v p && okTrs m home v t && isState m d && m.parent d == some (some v)
  | .final p => okParent m home v p
  | .cond t => okTrs m home v t
  | .choice t => okTrs m home v t
  | .subm p t x M =>
    okParent m home v p && okTrs m home v t && x.all (fun q => okTarget m home v q.2) && decide (rank (home v) < rank (some M)) &&
      (match m.vert M with
       | some (.ref d _) => home d == some M && isEntrance m d
       | _ => false)
  | .ref _ _ => true
  | .enpnt _ t par =>
    home par == home v &&
      (match m.vert par with
       | some (.subm _ _ _ M) => home t == some M && isEntrance m t
       | _ => false)
  | .expnt _ M => home v == some M
  | .unknown => true

/-- A machine with submachines drawn as in the manual: transitions do not cross the border of a submachine other than through its entry
and exit points, a submachine does not contain itself, entrances lead to states, the default state of a composite state is one of its
children and not a submachine state, and the initial state is not a submachine state or inside a submachine. -/
structure Proper (m : Machine) (N : Nat) (home : Vid → Option Vid) (rank : Option Vid → Nat) : Prop where
  small : ∀ v x, m.vert v = some x → v < N
  ok : ∀ v x, m.vert v = some x → okVertex m home rank v x = true
  initial : isState m m.istate = true ∧ home m.istate = none

/-- The copy `o` lies inside the copy `s` of a submachine state. -/
inductive Within (N : Nat) : Vid → Vid → Prop where
  | here {o s : Vid} : ctx N o = s + 1 → Within N o s
  | out {o s s' : Vid} : ctx N o = s' + 1 → Within N s' s → Within N o s

/-- The submachine a submachine state refers to. -/
def sbm (m : Machine) (v : Vid) : Option Vid :=
  match m.vert v with
  | some (.subm _ _ _ M) => some M
  | _ => none

/-- If both states are inside the same submachine, they are so through the same submachine state. -/
def Compatible (m : Machine) (N : Nat) (a b : Vid) : Prop :=
  ∀ s s' M, Within N a s → Within N b s' → sbm m (vtx N s) = some M → sbm m (vtx N s') = some M → vtx N s = vtx N s'

/-- The states the machine came to rest in, in order. -/
def stables (l : List Obs) : List Vid := l.filterMap fun | .stable v => some v | _ => none

/-- Successive states are compatible: the machine never goes from the inside of a submachine state straight to the inside of another
submachine state of the same submachine. -/
def OneAtATime (m : Machine) (N : Nat) (l : List Vid) : Prop := ∀ l1 a b l2, l = l1 ++ a :: b :: l2 → Compatible m N a b

/-- A call that returns. -/
def Returned (a : SM.Ans Unit) : Prop := a = .ok () ∨ ∃ c, a = .stop (.rc c)

end Verif.Subm.Spec
