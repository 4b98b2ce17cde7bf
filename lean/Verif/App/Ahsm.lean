import Verif.SM.Memory
import Verif.SM.DesignDemo
/-
The example application demo/80x86/ahsm: its state machine, as written in my.c, and the chart it draws.
-/
namespace Verif.App.Ahsm
open Verif.SM Verif.SM.Spec

/-! ### The program (demo/80x86/ahsm/my.c) -/

/-- Vertices, my.c:28-32. -/
abbrev S1 : Vid := 0
@[inherit_doc S1] abbrev S11 : Vid := 1
@[inherit_doc S1] abbrev S111 : Vid := 2
@[inherit_doc S1] abbrev S112 : Vid := 3
@[inherit_doc S1] abbrev S12 : Vid := 4
@[inherit_doc S1] abbrev S2 : Vid := 5
@[inherit_doc S1] abbrev S3 : Vid := 6
@[inherit_doc S1] abbrev S31 : Vid := 7
@[inherit_doc S1] abbrev S32 : Vid := 8
@[inherit_doc S1] abbrev H : Vid := 9
@[inherit_doc S1] abbrev DH : Vid := 10
@[inherit_doc S1] abbrev C1 : Vid := 11
@[inherit_doc S1] abbrev C2 : Vid := 12
@[inherit_doc S1] abbrev CH : Vid := 13

/-- Signals, my.h:32-41. -/
abbrev ONE : Sig := 1
@[inherit_doc ONE] abbrev TWO : Sig := 2
@[inherit_doc ONE] abbrev THREE : Sig := 3
@[inherit_doc ONE] abbrev FOUR : Sig := 4
@[inherit_doc ONE] abbrev FIVE : Sig := 5
@[inherit_doc ONE] abbrev SIX : Sig := 6
@[inherit_doc ONE] abbrev TERM : Sig := 7

/-- Effects, my.c:35-43. `terminate` calls `rkh_fwk_exit`, which does not concern the state machine. -/
abbrev my_init : Act := 0
@[inherit_doc my_init] abbrev set_x1 : Act := 1
@[inherit_doc my_init] abbrev set_y_2 : Act := 2
@[inherit_doc my_init] abbrev set_y_1 : Act := 3
@[inherit_doc my_init] abbrev dummy_act : Act := 4
@[inherit_doc my_init] abbrev show_data : Act := 5
@[inherit_doc my_init] abbrev terminate : Act := 6

/-- Guards, my.c:55-59. -/
abbrev y_0 : Guard := .fn 0
@[inherit_doc y_0] abbrev y_1 : Guard := .fn 1
@[inherit_doc y_0] abbrev y_2 : Guard := .fn 2
@[inherit_doc y_0] abbrev x1 : Guard := .fn 3
@[inherit_doc y_0] abbrev x2_or_x3 : Guard := .fn 4

/-- `RKH_TRREG`, `RKH_TRINT`, `RKH_BRANCH` (rkhsm.h). -/
def trreg (e : Sig) (g : Option Guard) (a : Option Act) (t : Vid) : Tr := ⟨e, g, a, some t⟩
@[inherit_doc trreg] def trint (e : Sig) (g : Option Guard) (a : Act) : Tr := ⟨e, g, some a, none⟩
@[inherit_doc trreg] def branch (g : Guard) (a : Option Act) (t : Vid) : Tr := ⟨0, some g, a, some t⟩

/-- States and pseudostates, my.c:62-148. -/
def vertices : List Vertex := [
  /- S1 -/ .composite none [trint SIX none show_data, trint TERM none terminate, trreg TWO none (some set_y_2) S2,
      trreg THREE none none S3, trreg FIVE none none S12] S11 none (some DH),
  /- S11 -/ .composite (some S1) [trreg TWO none none S112, trreg FOUR none none S12] S111 none (some H),
  /- S111 -/ .basic (some S11) [trreg ONE none none S112],
  /- S112 -/ .basic (some S11) [trreg ONE none none S111, trreg TWO none none S11, trreg THREE none (some set_x1) CH],
  /- S12 -/ .basic (some S1) [trreg FOUR none (some set_y_1) S2],
  /- S2 -/ .basic none [trint FOUR none dummy_act, trint SIX none show_data, trint TERM none terminate,
      trreg ONE (some x1) (some dummy_act) S1, trreg TWO none none S2, trreg THREE none (some dummy_act) C2],
  /- S3 -/ .composite none [trint SIX none show_data, trint TERM none terminate, trreg TWO none none C1,
      trreg THREE none none S3] S31 none none,
  /- S31 -/ .basic (some S3) [trreg ONE none none S32],
  /- S32 -/ .basic (some S3) [trreg ONE none none S31, trreg THREE none none S2],
  /- H -/ .hist false (some S11) ⟨0, none, none, none⟩,
  /- DH -/ .hist true (some S1) ⟨0, none, none, none⟩,
  /- C1 -/ .cond [branch y_1 none H, branch y_2 (some dummy_act) DH, branch y_0 none S1],
  /- C2 -/ .cond [branch x1 (some dummy_act) S3, branch x2_or_x3 (some dummy_act) CH, branch .els none S2],
  /- CH -/ .choice [branch x1 (some dummy_act) S3, branch .els (some dummy_act) S32]]

/-- `RKH_SMA_CREATE(MySm, my, 0, HCAL, &S1, my_init, NULL)` (my.c:158), with depth 4, 4 segments and assertions compiled in
(demo/80x86/ahsm/rkhcfg.h:84, 227, 236). -/
def m : Machine := ofList vertices S1 (some my_init) 4 4 true

/-- The members `x` and `y` (my.c:151-156), as changed by the actions my.c:206-258 and the initial action my.c:171-202. The
object is static, so both start as zero. -/
def upd : Nat × Nat → Obs → Nat × Nat
  | _, .act 0 _ => (0, 0)
  | (_, y), .act 1 _ => (1, y)
  | (x, _), .act 2 _ => (x, 2)
  | (x, _), .act 3 _ => (x, 1)
  | (_, y), .entry 2 => (1, y)
  | (_, y), .entry 3 => (2, y)
  | (_, y), .entry 4 => (3, y)
  | (x, _), .entry 0 => (x, 0)
  | v, _ => v

/-- `x` and `y` after what has happened. -/
def vars (log : List Obs) : Nat × Nat := log.foldl upd (0, 0)

/-- The guard functions my.c:269-304. -/
def guards (g : Nat) (_ : Sig) : Nat × Nat → Bool
  | (x, y) => match g with
    | 0 => y == 0
    | 1 => y == 1
    | 2 => y == 2
    | 3 => x == 1
    | _ => x == 2 || x == 3

def env : Env := fun g e log => guards g e (log.foldl upd (0, 0))

/-- The active object is initialised and a sequence of events is dispatched to it. -/
def run (f : Nat) (es : List (Sig × Nat)) : Mem × List (Ans Unit) := life m env f (es.map fun x => (.dispatch x.1, x.2))

/-! ### The chart -/

namespace Chart

/-- The innermost states of the chart. -/
inductive Leaf where
  | s111 | s112 | s12 | s2 | s31 | s32
  deriving DecidableEq, Repr

/-- A configuration: the active state, the last active substate of S11, the last active innermost state in S1, and the variables. -/
structure Conf where
  at_ : Leaf
  inS11 : Leaf
  inS1 : Leaf
  x : Nat
  y : Nat
  deriving DecidableEq, Repr

/-- Entry of S111, S112 and S12 from inside S1. -/
def go111 (c : Conf) : Conf := { c with at_ := .s111, inS11 := .s111, inS1 := .s111, x := 1 }
@[inherit_doc go111] def go112 (c : Conf) : Conf := { c with at_ := .s112, inS11 := .s112, inS1 := .s112, x := 2 }
@[inherit_doc go111] def go12 (c : Conf) : Conf := { c with at_ := .s12, inS1 := .s12, x := 3 }
/-- Entry of a given innermost state of S1 from outside. -/
def goS1 (l : Leaf) (c : Conf) : Conf :=
  match l with
  | .s112 => go112 { c with y := 0 }
  | .s12 => go12 { c with y := 0 }
  | _ => go111 { c with y := 0 }
/-- Elsewhere no state has an entry action. -/
def goto (l : Leaf) (c : Conf) : Conf := { c with at_ := l }

/-- What the chart says about an event; `none`: no transition is enabled. S3 and its default state are left out: S3 stands for S31. -/
def step (c : Conf) (e : Sig) : Option Conf :=
  match c.at_, e with
  | .s2, 6 | .s2, 7 | .s2, 4 => some c
  | .s2, 1 => if c.x = 1 then some (goS1 .s111 c) else none
  | .s2, 2 => some c
  | .s2, 3 => some (goto (if c.x = 1 then .s31 else if c.x = 2 ∨ c.x = 3 then .s32 else .s2) c)
  | .s31, 6 | .s31, 7 | .s32, 6 | .s32, 7 => some c
  | .s31, 2 | .s32, 2 =>
    some (if c.y = 1 then goS1 c.inS11 c else if c.y = 2 then goS1 c.inS1 c else goS1 .s111 c)
  | .s31, 1 => some (goto .s32 c)
  | .s31, 3 => some (goto .s31 c)
  | .s32, 1 => some (goto .s31 c)
  | .s32, 3 => some (goto .s2 c)
  | .s111, 6 | .s111, 7 | .s112, 6 | .s112, 7 | .s12, 6 | .s12, 7 => some c
  | .s111, 5 | .s112, 5 | .s12, 5 => some (go12 c)
  | .s111, 1 | .s111, 2 => some (go112 c)
  | .s111, 3 => some (goto .s31 c)
  | .s111, 4 | .s112, 4 => some (go12 c)
  | .s112, 1 | .s112, 2 => some (go111 c)
  | .s112, 3 => some (goto .s31 { c with x := 1 })
  | .s12, 2 => some (goto .s2 { c with y := 2 })
  | .s12, 3 => some (goto .s31 c)
  | .s12, 4 => some (goto .s2 { c with y := 1 })
  | _, _ => none

/-- After the initialisation. -/
def start : Conf := ⟨.s111, .s111, .s111, 1, 0⟩

/-- The configuration after some events. -/
def after : List Sig → Conf
  | es => es.foldl (fun c e => (step c e).getD c) start

/-- The answers to the events. -/
def answers : Conf → List Sig → List (Ans Unit)
  | _, [] => []
  | c, e :: es => (if (step c e).isSome then .ok () else .stop (.rc .evtNFound)) :: answers ((step c e).getD c) es

end Chart
open Chart

/-- The state of the chart as a vertex of the program. -/
def vid : Leaf → Vid
  | .s111 => S111 | .s112 => S112 | .s12 => S12 | .s2 => S2 | .s31 => S31 | .s32 => S32

/-- What the program's data say: the current state is the active state, the variables are as in the chart, the deep history refers
to the last state in S1, and outside S11 the shallow history refers to the last substate of S11. -/
structure Shows (s : Mem) (c : Conf) : Prop where
  state : s.state = some (vid c.at_)
  vars : vars s.log = (c.x, c.y)
  deep : s.hist DH = some (vid c.inS1)
  shallow : c.at_ ≠ .s111 → c.at_ ≠ .s112 → s.hist H = some (vid c.inS11)

/-! ### Proof -/

theorem wf : WellFormed m := (ofList_sound (by decide +kernel)).1
theorem lim : Limits m := (ofList_sound (by decide +kernel)).2

/-- The data of the machine without the log. -/
structure Abs where
  state : Option Vid
  h : Option Vid
  dh : Option Vid
  v : Nat × Nat
  deriving DecidableEq, Repr

def abs (s : Mem) : Abs := ⟨s.state, s.hist H, s.hist DH, vars s.log⟩

/-- A memory with these data. -/
def rep (a : Abs) : Mem :=
  { state := a.state, hist := fun k => if k = H then a.h else if k = DH then a.dh else none,
    log := (match a.v.1 with | 0 => [] | 1 => [.entry S111] | 2 => [.entry S112] | _ => [.entry S12]) ++
      (match a.v.2 with | 0 => [] | 1 => [.act set_y_1 0] | _ => [.act set_y_2 0]) }

theorem hist_vertex {k : Vid} {d : Bool} {p : Option Vid} {trn : Tr} (h : m.vert k = some (.hist d p trn)) : k = H ∨ k = DH := by
  have hk : k < 14 := by
    rcases Nat.lt_or_ge k 14 with h1 | h1
    · exact h1
    · have : m.vert k = none := List.getElem?_eq_none h1
      rw [this] at h; cases h
  have : ∀ k : Nat, k < 14 → (match m.vert k with | some (.hist _ _ _) => k == H || k == DH | _ => true) = true := by decide +kernel
  have := this k hk
  rw [h] at this
  simpa using this

theorem same_of_abs {s t : Mem} (h : abs s = abs t) : SameSituation m env s t := by
  simp only [abs, Abs.mk.injEq] at h
  refine ⟨h.1, fun k d p trn hk => ?_, alike_of_vars (G := guards) h.2.2.2⟩
  rcases hist_vertex hk with rfl | rfl
  · exact h.2.1
  · exact h.2.2.1

theorem abs_of_same {s t : Mem} (h : SameSituation m env s t) (hv : vars s.log = vars t.log) : abs s = abs t := by
  simp only [abs, Abs.mk.injEq]
  exact ⟨h.state, h.hist _ _ _ _ (by rfl), h.hist _ _ _ _ (by rfl), hv⟩

/-- The configuration the data stand for. -/
def leafOf (v : Vid) : Leaf :=
  if v = S111 then .s111 else if v = S112 then .s112 else if v = S12 then .s12 else if v = S2 then .s2 else if v = S31 then .s31 else .s32

def confOf (a : Abs) : Conf :=
  let l := leafOf (a.state.getD 0)
  ⟨l, if l = .s111 ∨ l = .s112 then l else leafOf (a.h.getD 0), leafOf (a.dh.getD 0), a.v.1, a.v.2⟩

/-- The data are those of some configuration. -/
def good (a : Abs) : Bool :=
  a.state == some (vid (confOf a).at_) && a.dh == some (vid (confOf a).inS1) &&
    ((confOf a).at_ == .s111 || (confOf a).at_ == .s112 || a.h == some (vid (confOf a).inS11))

theorem shows_of_good {s : Mem} (h : good (abs s) = true) : Shows s (confOf (abs s)) := by
  simp only [good, Bool.and_eq_true, Bool.or_eq_true, beq_iff_eq] at h
  obtain ⟨⟨h1, h2⟩, h3⟩ := h
  refine ⟨h1, rfl, h2, fun g1 g2 => ?_⟩
  rcases h3 with (h3 | h3) | h3
  · exact absurd h3 g1
  · exact absurd h3 g2
  · exact h3

/-- All data that can be reached: state, H, DH, x, y. -/
def all : List Abs := ([
  (2, none, 2, 1, 0), (3, some 2, 3, 2, 0), (7, some 2, 2, 1, 0), (4, some 2, 4, 3, 0), (2, some 3, 2, 1, 0),
  (7, some 3, 3, 1, 0), (4, some 3, 4, 3, 0), (8, some 2, 2, 1, 0), (2, some 2, 2, 1, 0), (5, some 2, 4, 3, 2),
  (7, some 2, 4, 3, 0), (5, some 2, 4, 3, 1), (8, some 3, 3, 1, 0), (5, some 3, 4, 3, 2), (7, some 3, 4, 3, 0),
  (5, some 3, 4, 3, 1), (5, some 2, 2, 1, 0), (8, some 2, 4, 3, 2), (8, some 2, 4, 3, 0), (8, some 2, 4, 3, 1),
  (5, some 3, 3, 1, 0), (8, some 3, 4, 3, 2), (8, some 3, 4, 3, 0), (8, some 3, 4, 3, 1), (7, some 2, 4, 3, 2),
  (5, some 2, 4, 3, 0), (7, some 2, 4, 3, 1), (7, some 3, 4, 3, 2), (5, some 3, 4, 3, 0), (7, some 3, 4, 3, 1),
  (3, some 3, 3, 2, 0)] : List (Vid × Option Vid × Vid × Nat × Nat)).map fun a => ⟨some a.1, a.2.1, some a.2.2.1, a.2.2.2.1, a.2.2.2.2⟩

/-- The answer the chart gives. -/
def answer (c : Conf) (e : Sig) : Ans Unit := if (step c e).isSome then .ok () else .stop (.rc .evtNFound)

theorem all_good : all.all good = true := by decide +kernel

theorem all_rep : all.all (fun a => abs (rep a) == a) = true := by decide +kernel

theorem all_closed : all.all (fun a => (List.range 8).all fun e =>
    all.contains (abs (dispatch m env 30 e (rep a)).1) && ((dispatch m env 30 e (rep a)).2 == answer (confOf a) e) &&
    (confOf (abs (dispatch m env 30 e (rep a)).1) == (step (confOf a) e).getD (confOf a))) = true := by decide +kernel

theorem step_unknown {c : Conf} {e : Nat} (he : 8 ≤ e) : step c e = none := by
  obtain ⟨n, rfl⟩ : ∃ n, e = n + 8 := ⟨e - 8, by omega⟩
  unfold step
  cases c.at_ <;> rfl

theorem findTrn_none {e : Sig} {s : Mem} : ∀ {tbl : List Tr}, (∀ t ∈ tbl, t.event ≠ e) → findTrn env e tbl s = (s, .ok none) := by
  intro tbl
  induction tbl with
  | nil => intro _; rfl
  | cons t ts ih =>
    intro h
    unfold findTrn
    split
    · rfl
    · rw [if_neg (h t (List.mem_cons_self ..))]
      exact ih fun t ht => h t (List.mem_cons_of_mem _ ht)

theorem searchUp_none {e : Nat} (he : 8 ≤ e) {s : Mem} : ∀ {f : Nat} {v : Vid} {l : List Vid}, pathOf m f v = some l →
    searchUp m env e f v s = (s, .ok none) := by
  intro f
  induction f with
  | zero => intro v l h; simp [pathOf] at h
  | succ f ih =>
    intro v l h
    unfold searchUp
    have hv : v < 14 := by
      rcases Nat.lt_or_ge v 14 with h1 | h1
      · exact h1
      · have hn : m.vert v = none := List.getElem?_eq_none h1
        simp [pathOf, Machine.parent, hn] at h
    have ht : ∀ v : Nat, v < 14 → (m.trtbl v).isSome = (m.parent v).isSome ∧ ∀ t ∈ (m.trtbl v).getD [], t.event < 8 := by
      decide +kernel
    obtain ⟨h1, h2⟩ := ht v hv
    unfold pathOf at h
    cases hp : m.parent v with
    | none => simp [hp] at h
    | some p =>
      rw [hp] at h1 h
      cases htb : m.trtbl v with
      | none => rw [htb] at h1; simp at h1
      | some tbl =>
        rw [htb] at h2
        simp only [Option.getD_some] at h2
        have hf := findTrn_none (s := s) (e := e) (tbl := tbl) fun t ht => fun h => absurd he (Nat.not_le.2 (h ▸ h2 t ht))
        show Eng.bind (findTrn env e tbl) _ s = _
        unfold Eng.bind
        rw [hf]
        simp only
        cases p with
        | none => rfl
        | some p =>
          simp only [Option.map_eq_some_iff] at h
          obtain ⟨l', h3, _⟩ := h
          exact ih h3

theorem unknown_signal {e : Nat} (he : 8 ≤ e) (hc : e ≠ sigCreation) {s : Mem} {a : Abs} (ha : a ∈ all) (hs : s.state = a.state) :
    dispatch m env 30 e s = (s, .stop (.rc .evtNFound)) := by
  have hp : all.all (fun a => match a.state with | some v => (pathOf m 29 v).isSome | none => false) = true := by decide +kernel
  have hp := List.all_eq_true.1 hp a ha
  rw [← hs] at hp
  cases hst : s.state with
  | none => rw [hst] at hp; simp at hp
  | some v =>
    rw [hst] at hp
    simp only [Option.isSome_iff_exists] at hp
    obtain ⟨l, hl⟩ := hp
    have hsu := searchUp_none he (s := s) hl
    have hcr : (e == sigCreation) = false := by simpa using hc
    have hcomp : compound m env 29 e false s = (s, .stop (.rc .evtNFound)) := by
      unfold compound
      simp only
      show (Eng.bind Eng.get _ s) = _
      unfold Eng.bind Eng.get
      simp only [hst]
      show (Eng.bind (searchUp m env e 29 v) _ s) = _
      unfold Eng.bind
      rw [hsu]
      rfl
    unfold dispatch
    rw [hcr]
    show (Eng.bind (compound m env 29 e false) _ s) = _
    unfold Eng.bind
    rw [hcomp]

theorem vars_append (a d : List Obs) : vars (a ++ d) = d.foldl upd (vars a) := by simp [vars, List.foldl_append]

/-- One event in a situation known to the table. -/
theorem one_event {s : Mem} (hs : abs s ∈ all) {e : Sig} (hc : e ≠ sigCreation) {f : Nat} (hf : 30 ≤ f) :
    abs (dispatch m env f e s).1 ∈ all ∧ (dispatch m env f e s).2 = answer (confOf (abs s)) e ∧
    confOf (abs (dispatch m env f e s).1) = (step (confOf (abs s)) e).getD (confOf (abs s)) := by
  have h30 : abs (dispatch m env 30 e s).1 ∈ all ∧ (dispatch m env 30 e s).2 = answer (confOf (abs s)) e ∧
      confOf (abs (dispatch m env 30 e s).1) = (step (confOf (abs s)) e).getD (confOf (abs s)) := by
    rcases Nat.lt_or_ge e 8 with he | he
    · have h1 := List.all_eq_true.1 (List.all_eq_true.1 all_closed _ hs) e (List.mem_range.2 he)
      simp only [Bool.and_eq_true, beq_iff_eq, List.contains_iff_mem] at h1
      have hr : abs (rep (abs s)) = abs s := by simpa using List.all_eq_true.1 all_rep _ hs
      have hsame := same_of_abs (s := s) (t := rep (abs s)) hr.symm
      obtain ⟨g1, g2, d, g3, g4⟩ := Unif.op (m := m) (env := env) 30 (.dispatch e) s (rep (abs s)) hsame
      have hv : vars (dispatch m env 30 e s).1.log = vars (dispatch m env 30 e (rep (abs s))).1.log := by
        simp only [op] at g3 g4
        rw [g3, g4, vars_append, vars_append]
        congr 1
        have := congrArg Abs.v hr
        exact this.symm
      have habs := abs_of_same g2 hv
      simp only [op] at habs g1
      rw [habs, g1]
      exact ⟨h1.1.1, h1.1.2, h1.2⟩
    · rw [unknown_signal he hc hs rfl]
      refine ⟨hs, ?_, ?_⟩
      · simp [answer, step_unknown he]
      · simp [step_unknown he]
  rcases h1 : dispatch m env 30 e s with ⟨s1, r1⟩
  rcases h2 : dispatch m env f e s with ⟨s2, r2⟩
  have hne : r1 ≠ .stop .fuel := by
    have := h30.2.1
    rw [h1] at this
    simp only at this
    rw [this, answer]
    split <;> simp
  obtain ⟨rfl, rfl⟩ := budget_monotone hf h1 hne h2
  rw [h1] at h30
  exact h30

theorem run_from {es : List (Sig × Nat)} : ∀ {s : Mem}, abs s ∈ all → (∀ x ∈ es, x.1 ≠ sigCreation ∧ 30 ≤ x.2) →
    abs (calls m env (es.map fun x => (.dispatch x.1, x.2)) s).1 ∈ all ∧
    confOf (abs (calls m env (es.map fun x => (.dispatch x.1, x.2)) s).1) =
      (es.map Prod.fst).foldl (fun c e => (step c e).getD c) (confOf (abs s)) ∧
    (calls m env (es.map fun x => (.dispatch x.1, x.2)) s).2 = answers (confOf (abs s)) (es.map Prod.fst) := by
  induction es with
  | nil => intro s hs _; exact ⟨hs, rfl, rfl⟩
  | cons x es ih =>
    intro s hs hx
    obtain ⟨e, f⟩ := x
    obtain ⟨h1, h2⟩ := hx _ (List.mem_cons_self ..)
    obtain ⟨g1, g2, g3⟩ := one_event hs h1 h2
    simp only [List.map_cons, List.foldl_cons, answers]
    unfold calls
    simp only [op]
    rcases hd : dispatch m env f e s with ⟨s1, r1⟩
    rw [hd] at g1 g2 g3
    simp only at g1 g2 g3
    obtain ⟨i1, i2, i3⟩ := ih g1 fun x hx' => hx x (List.mem_cons_of_mem _ hx')
    rw [g3] at i2 i3
    have ha : answer (confOf (abs s)) e = if (step (confOf (abs s)) e).isSome then .ok () else .stop (.rc .evtNFound) := rfl
    rw [ha] at g2
    subst g2
    cases hst : (step (confOf (abs s)) e).isSome with
    | true => simp only [if_true]; rw [hst] at *; exact ⟨i1, i2, by rw [i3]⟩
    | false => simp only [Bool.false_eq_true, if_false]; exact ⟨i1, i2, by rw [i3]⟩

/-! ### The theorem -/

/-- **C133.** For every sequence of events, of whatever signals, the example's state machine answers each event as the chart does
("processed" if a transition is enabled, "not found" if none is), never fails, and is in the state, with the variables and
histories, that the chart prescribes. -/
theorem ahsm_follows_its_chart {f : Nat} (hf : 30 ≤ f) {es : List (Sig × Nat)} (h : ∀ x ∈ es, x.1 ≠ sigCreation ∧ 30 ≤ x.2) :
    Shows (run f es).1 (after (es.map Prod.fst)) ∧ (run f es).2 = .ok () :: answers start (es.map Prod.fst) := by
  have h0 : abs (init m env 30 (mem0 m)).1 ∈ all ∧ (init m env 30 (mem0 m)).2 = .ok () ∧
      confOf (abs (init m env 30 (mem0 m)).1) = start := by decide +kernel
  rcases h1 : init m env 30 (mem0 m) with ⟨s1, r1⟩
  rcases h2 : init m env f (mem0 m) with ⟨s2, r2⟩
  rw [h1] at h0
  obtain ⟨g1, g2, g3⟩ := h0
  simp only at g1 g2 g3
  subst g2
  obtain ⟨rfl, rfl⟩ := budget_monotone hf h1 (by simp) h2
  obtain ⟨i1, i2, i3⟩ := run_from g1 h
  rw [g3] at i2 i3
  have hr : run f es = ((calls m env (es.map fun x => (.dispatch x.1, x.2)) s1).1,
      .ok () :: (calls m env (es.map fun x => (.dispatch x.1, x.2)) s1).2) := by
    unfold run life
    rw [calls]
    simp only [op]
    have h2' : dispatch m env f sigCreation (mem0 m) = (s1, .ok ()) := h2
    rw [h2']
  rw [hr]
  refine ⟨?_, by rw [i3]⟩
  have := shows_of_good (List.all_eq_true.1 all_good _ i1)
  rw [i2] at this
  exact this

/-- What follows for the chart: while S1 is active y is zero; the deep history is only ever used to return to S12; the else branch of
C2 is never taken and its branch to the choice always ends in S32, since x is 1, 2 or 3. -/
theorem chart_facts (es : List Sig) : ((after es).at_ = .s111 ∨ (after es).at_ = .s112 ∨ (after es).at_ = .s12 → (after es).y = 0) ∧
    ((after es).y = 2 → (after es).inS1 = .s12) ∧ ((after es).x = 1 ∨ (after es).x = 2 ∨ (after es).x = 3) ∧ (after es).y ≤ 2 := by
  have hall : ∀ c ∈ all.map confOf, ((c.at_ = .s111 ∨ c.at_ = .s112 ∨ c.at_ = .s12 → c.y = 0) ∧
    (c.y = 2 → c.inS1 = .s12) ∧ (c.x = 1 ∨ c.x = 2 ∨ c.x = 3) ∧ c.y ≤ 2) := by decide +kernel
  refine hall _ ?_
  have : ∀ {es : List Sig} {c : Conf}, c ∈ all.map confOf → es.foldl (fun c e => (step c e).getD c) c ∈ all.map confOf := by
    intro es
    induction es with
    | nil => intro c hc; exact hc
    | cons e es ih =>
      intro c hc
      rw [List.foldl_cons]
      refine ih ?_
      rcases Nat.lt_or_ge e 8 with he | he
      · have hst : (all.map confOf).all (fun c => (List.range 8).all fun e => (all.map confOf).contains ((step c e).getD c)) = true := by
          decide +kernel
        have := List.all_eq_true.1 (List.all_eq_true.1 hst c hc) e (List.mem_range.2 he)
        simpa [List.contains_iff_mem] using this
      · rw [step_unknown he]; exact hc
  exact this (by decide +kernel)

/-! ### The rules for the design -/

theorem vars_le (log : List Obs) : (vars log).2 ≤ 2 := by
  have step : ∀ (o : Obs) (v : Nat × Nat), v.2 ≤ 2 → (upd v o).2 ≤ 2 := by
    rintro o ⟨x, y⟩ h
    unfold upd
    split <;> simp_all
  have : ∀ (log : List Obs) (v : Nat × Nat), v.2 ≤ 2 → (log.foldl upd v).2 ≤ 2 := by
    intro log
    induction log with
    | nil => intro v h; exact h
    | cons o log ih => intro v h; exact ih _ (step o v h)
  exact this log (0, 0) (by simp)

/-- The guards y_1, y_2 and y_0 of C1 cover all values that y can have, although C1 has no else branch. -/
theorem ahsm_covers : ExhaustiveFor m env := by
  have other : ∀ v : Nat, v < 14 → v ≠ C1 → (match m.vert v with
      | some (.cond tbl) | some (.choice tbl) => (branches tbl).any fun t => t.guard == some .els
      | some (.hist _ _ trn) => trn.target == none
      | _ => true) = true := by decide +kernel
  have lt : ∀ (v : Nat) x, m.vert v = some x → v < 14 := by
    intro v x hx
    rcases Nat.lt_or_ge v 14 with h | h
    · exact h
    · have : m.vert v = none := List.getElem?_eq_none h
      rw [this] at hx; cases hx
  have els : ∀ {tbl : List Tr} {e : Sig} {l l' : List Obs}, ((branches tbl).any fun t => t.guard == some .els) = true →
      ¬ GuardsFalse env e ((branches tbl).map Tr.guard) l l' := by
    intro tbl e l l' h hg
    simp only [List.any_eq_true, beq_iff_eq] at h
    obtain ⟨t, ht, hg'⟩ := h
    obtain ⟨n, hn⟩ := guardsFalse_fn hg _ (List.mem_map.2 ⟨t, ht, hg'⟩)
    cases hn
  refine ⟨fun v tbl e l l' hv => ?_, fun v tbl e l l' hv => ?_, fun v d p trn w e l l' hv ht => ?_,
    fun v => if v = C1 ∨ v = C2 then 1 else 0, okEffects_sound (n := 14) (fun v hv => List.getElem?_eq_none hv) (by decide +kernel)⟩
  · by_cases hc : v = C1
    · subst hc
      have hv' : m.vert C1 = some (.cond [branch y_1 none H, branch y_2 (some dummy_act) DH, branch y_0 none S1]) := by rfl
      rw [hv'] at hv
      cases hv
      intro hg
      have hb : (branches [branch y_1 none H, branch y_2 (some dummy_act) DH, branch y_0 none S1]).map Tr.guard =
        [some y_1, some y_2, some y_0] := by rfl
      rw [hb] at hg
      rcases hg with _ | ⟨h1, hg⟩
      rcases hg with _ | ⟨h2, hg⟩
      rcases hg with _ | ⟨h3, hg⟩
      have hle := vars_le l
      simp only [env, List.foldl_append, List.foldl_cons, List.foldl_nil] at h1 h2 h3
      have hv : l.foldl upd (0, 0) = vars l := rfl
      rw [hv] at h1 h2 h3
      revert h1 h2 h3 hle
      generalize vars l = p
      obtain ⟨x, y⟩ := p
      simp only [guards, upd, beq_eq_false_iff_ne]
      intro hle h1 h2 h3
      omega
    · have := other v (lt v _ hv) hc
      rw [hv] at this
      exact els this
  · have hc : v ≠ C1 := by rintro rfl; revert hv; simp [m, ofList, vertices]
    have := other v (lt v _ hv) hc
    rw [hv] at this
    exact els this
  · have hc : v ≠ C1 := by rintro rfl; revert hv; simp [m, ofList, vertices]
    have := other v (lt v _ hv) hc
    rw [hv] at this
    simp [ht] at this

-- covering_guards_never_fail, covering_guards_start: the rule of C109 is not met, the rule of C131 is
example : ¬ Exhaustive m := fun h => by
  obtain ⟨t, ht, hg⟩ := h.cond C1 _ rfl
  have : ∀ t ∈ branches [branch y_1 none H, branch y_2 (some dummy_act) DH, branch y_0 none S1], t.guard ≠ some .els := by decide +kernel
  exact this t ht hg
example : ∃ s, Reached m env s ∧ s.state = some S111 :=
  ⟨(init m env 30 (mem0 m)).1, (covering_guards_start wf lim ahsm_covers (f := 30) (r := .ok ())
    (Prod.ext rfl (by decide +kernel)) (by simp)).2, by decide +kernel⟩

-- ahsm_follows_its_chart: by the shallow history back to S112
example : (after [1, 4, 4, 3, 2]).at_ = .s112 ∧ answers start [1, 4, 4, 3, 2, 5, 0, 77] =
    [.ok (), .ok (), .ok (), .ok (), .ok (), .ok (), .stop (.rc .evtNFound), .stop (.rc .evtNFound)] := by decide +kernel
example : (run 30 [(1, 30), (4, 30), (4, 30), (3, 30), (2, 30)]).1.state = some S112 := by decide +kernel

-- same_situation_same_future: two different pasts, the same situation; and then the same answers
example : SameSituation m env (run 30 [(2, 30)]).1 (run 30 [(1, 30), (6, 30)]).1 ∧
    (run 30 [(2, 30)]).1.log ≠ (run 30 [(1, 30), (6, 30)]).1.log := ⟨same_of_abs (by decide +kernel), by decide +kernel⟩

end Verif.App.Ahsm
