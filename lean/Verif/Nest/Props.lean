import Verif.Nest.Whole
import Verif.SM.Check
/-
Property theorems: several state machines in one thread, working variables shared or not.
-/
namespace Verif.Nest
open Verif.SM Verif.Nest.Spec

theorem world0_sound {p : Prog} (hp : Apt p) (k : Nat) : Sound (p.mach k) ((world0 p).mem k) := sound_mem0 (hp.wf k)

theorem asked_none {p : Prog} (hs : ∀ i log, p.sends i log = []) {i : Nat} : ∀ {q log : List Obs}, asked p i log q = [] := by
  intro q
  induction q with
  | nil => intro log; rfl
  | cons o q ih => intro log; simp [asked, hs, ih]

theorem does_keys {p : Prog} {f : Nat} (hs : ∀ i log, p.sends i log = []) {μ μ' : Nat → Mem} {l : List (Nat × Sig)}
    {d : List (Nat × Sig × Ans Unit)} (h : Does p f μ l d μ') : d.map (fun x => (x.1, x.2.1)) = l := by
  induction h with
  | nil => rfl
  | @cons μ μ1 μ2 j e l m' a q d1 d2 h1 h2 h3 h4 h5 h6 ih1 ih2 =>
    rw [asked_none hs] at ih1
    simp only [List.map_eq_nil_iff] at ih1
    simp [ih1, ih2]

/-- A single thread dispatches events to any number of state machines in turn; no action dispatches an event itself. All
machines share one set of working variables, whatever these contain at first, with counters of 8 bits and arrays of fixed
size. Then every dispatch returns, in the given order, and each machine has answered and ended up exactly as if it alone
had been given its events; or else the thread has stopped in an assertion in which that machine, alone, would have stopped
after the same events, or in a dispatch that it does not complete alone either. Nothing is ever undefined. -/
theorem machines_take_turns {p : Prog} {f n : Nat} {l : List (Nat × Sig)} {v v' : Vars} {w' : World} {b : Out Unit}
    (hp : Apt p) (hn : 0 < n) (hs : ∀ i log, p.sends i log = []) (h : runs p f n l (world0 p, v) = ((w', v'), b)) :
    (b = .ok () ∧ w'.done.map (fun x => (x.1, x.2.1)) = l ∧
      ∀ j, Alone p f j (of j w'.done) (mem0 (p.mach j)) (w'.mem j)) ∨
    (∃ c, b = .dead c ∧ c ≠ .ub ∧ ∃ j e m m', Alone p f j (of j w'.done) (mem0 (p.mach j)) m ∧
      SM.dispatch (p.mach j) (p.env j) f e m = (m', .stop c)) := by
  have hr : Ranked p fun _ => 0 := by intro i log x hx; rw [hs] at hx; simp at hx
  rcases runs_does hp hr (.inr hs) (fun _ _ => hn) (world0_sound hp) h with ⟨c, h1, h2, new, g1, j, e, m, m', _, g2, g3⟩ | ⟨h1, new, h2, h3⟩
  · have : w'.done = new := by simpa [world0] using g1
    subst this
    exact .inr ⟨c, h1, h2, j, e, m, m', g2, g3⟩
  · have : w'.done = new := by simpa [world0] using h2
    subst this
    exact .inl ⟨h1, does_keys hs h3, fun j => does_alone h3⟩

/-- Actions, guards, entry and exit actions may themselves dispatch events to other machines, provided that the working
variables are automatic (`RKH_CFGPORT_REENTRANT_EN`) and that there is an order among the machines such that each
dispatches to lower ones only. Then every machine does what it would do alone, and the dispatches an action makes take
place, one after the other, while its machine processes its event. Missing in full generality: static working variables,
for which this is false, see below. -/
theorem dispatch_inside_dispatch_partial {p : Prog} {f n : Nat} {l : List (Nat × Sig)} {v v' : Vars} {w' : World}
    {b : Out Unit} (hp : Apt p) {rank : Nat → Nat} (hr : Ranked p rank) (ha : p.auto = true) (hn : ∀ x ∈ l, rank x.1 < n)
    (h : runs p f n l (world0 p, v) = ((w', v'), b)) :
    (b = .ok () ∧ Does p f (fun j => mem0 (p.mach j)) l w'.done w'.mem ∧
      ∀ j, Alone p f j (of j w'.done) (mem0 (p.mach j)) (w'.mem j)) ∨
    (∃ c, b = .dead c ∧ c ≠ .ub ∧ ∃ j e m m', Alone p f j (of j w'.done) (mem0 (p.mach j)) m ∧
      SM.dispatch (p.mach j) (p.env j) f e m = (m', .stop c)) := by
  rcases runs_does hp hr (.inl ha) hn (world0_sound hp) h with ⟨c, h1, h2, new, g1, j, e, m, m', _, g2, g3⟩ | ⟨h1, new, h2, h3⟩
  · have : w'.done = new := by simpa [world0] using g1
    subst this
    exact .inr ⟨c, h1, h2, j, e, m, m', g2, g3⟩
  · have : w'.done = new := by simpa [world0] using h2
    subst this
    exact .inl ⟨h1, h3, fun j => does_alone h3⟩

/-! ### A concrete program

  machine 0: 0 --1 / effect 10--> 1 --1 / effect 11--> 0; 1 is composite with default 2; 0 --3 / effect 14--> 5
  machine 1: 3 --2 / effect 12--> 4 --2 / effect 13--> 3
-/
namespace Demo

def tr (e : Sig) (a : Option Act) (t : Option Vid) : Tr := ⟨e, none, a, t⟩

def vertices : List Vertex := [
  .basic none [tr 1 (some 10) (some 1), tr 3 (some 14) (some 5)],
  .composite none [tr 1 (some 11) (some 0)] 2 none none,
  .basic (some 1) [],
  .basic none [tr 2 (some 12) (some 4)],
  .basic none [tr 2 (some 13) (some 3)],
  .basic none []]

/-- The machine with initial state `v`. -/
def mach (v : Vid) : Machine := ofList vertices v (some 20) 4 3 false

theorem sound : ∀ v, v = 0 ∨ v = 3 → SM.Spec.WellFormed (mach v) ∧ SM.Spec.Limits (mach v) := by
  rintro v (rfl | rfl) <;> exact ofList_sound (by decide +kernel)

/-- Junk. -/
def junk : Vars := ⟨none, none, 0, false, 7, 9, 200, 0, fun _ => none, fun _ => none, 3, 5, none⟩

/-- The program: the function of machine 0 whose call is observed as `o` dispatches the given events to machine 1. -/
def prog (auto : Bool) (o : Option Obs) (es : List Sig) : Prog where
  mach := fun i => mach (if i = 0 then 0 else 3)
  env := fun _ _ _ _ => true
  sends := fun i log => if i = 0 ∧ o.isSome ∧ log.getLast? = o then es.map (fun e => (1, e)) else []
  auto := auto
  junk := junk

theorem apt (auto : Bool) (o : Option Obs) (es : List Sig) : Apt (prog auto o es) := by
  have h : ∀ j, SM.Spec.WellFormed ((prog auto o es).mach j) ∧ SM.Spec.Limits ((prog auto o es).mach j) := by
    intro j
    simp only [prog]
    split <;> exact sound _ (by simp)
  exact ⟨fun j => (h j).1, fun j => (h j).2, fun j => by simp [prog, mach, ofList], fun j => by simp [prog, mach, ofList]⟩

theorem ranked (auto : Bool) (o : Option Obs) (es : List Sig) : Ranked (prog auto o es) (fun i => if i = 0 then 1 else 0) := by
  intro i log x hx
  simp only [prog] at hx
  split at hx
  · rename_i h
    simp only [List.mem_map] at hx
    obtain ⟨e, _, rfl⟩ := hx
    simp [h.1]
  · simp at hx

/-- Result of the thread, the dispatches that have returned and the states of the machines. -/
def run (auto : Bool) (o : Option Obs) (es : List Sig) (l : List (Nat × Sig)) : Out Unit × List (Nat × Sig × Ans Unit) × List (Option Vid) :=
  let r := runs (prog auto o es) 20 3 l (world0 (prog auto o es), junk)
  (r.2, r.1.1.done, [(r.1.1.mem 0).state, (r.1.1.mem 1).state])

-- machines_take_turns: two machines in turn, with shared variables
example : run false none [] [(0, sigCreation), (1, sigCreation), (0, 1), (1, 2), (0, 1), (0, 9), (1, 2)] =
    (.ok (), [(0, sigCreation, .ok ()), (1, sigCreation, .ok ()), (0, 1, .ok ()), (1, 2, .ok ()), (0, 1, .ok ()),
      (0, 9, .stop (.rc .evtNFound)), (1, 2, .ok ())], [some 0, some 3]) := by decide +kernel

-- dispatch_inside_dispatch_partial: an effect, an exit action and an entry action that start another machine
theorem good : ∀ o, o = Obs.act 10 1 ∨ o = .exit 0 ∨ o = .entry 1 ∨ o = .entry 2 →
    run true (some o) [sigCreation, 2] [(0, sigCreation), (0, 1), (0, 1)] =
    (.ok (), [(0, sigCreation, .ok ()), (1, sigCreation, .ok ()), (1, 2, .ok ()), (0, 1, .ok ()), (0, 1, .ok ())],
      [some 0, some 4]) := by
  rintro o (rfl | rfl | rfl | rfl) <;> decide +kernel

/-- The run in which the function observed as `o` starts machine 1, with static variables. -/
def badRun (o : Obs) (e : Sig) : (World × Vars) × Out Unit :=
  runs (prog false (some o) [sigCreation]) 20 3 [(0, sigCreation), (0, e)] (world0 (prog false (some o) [sigCreation]), junk)

theorem badRun_eq (o : Obs) (e : Sig) {r : Out Unit} (h : (badRun o e).2 = r) :
    runs (prog false (some o) [sigCreation]) 20 3 [(0, sigCreation), (0, e)]
      (world0 (prog false (some o) [sigCreation]), junk) = ((badRun o e).1, r) := by
  subst h
  exact (Prod.eta (badRun o e)).symm

theorem effect_bad : (badRun (.act 10 1) 1).2 = .dead .ub := by decide +kernel

theorem entry_bad : (badRun (.entry 1) 1).2 = .dead .ub := by decide +kernel

theorem exit_bad : (badRun (.exit 0) 3).2 = .ok () ∧
    (badRun (.exit 0) 3).1.1.done = [(0, sigCreation, .ok ()), (1, sigCreation, .ok ()), (0, 3, .ok ())] ∧
    ((badRun (.exit 0) 3).1.1.mem 0).state = some 3 ∧ ((badRun (.exit 0) 3).1.1.mem 1).state = some 3 ∧
    ((badRun (.exit 0) 3).1.1.mem 0).log = [.act 20 sigCreation, .entry 0, .stable 0, .exit 0, .stable 3] := by
  decide +kernel

end Demo

/-! ### Static working variables -/

/-- With static working variables it is false: an effect that starts another state machine makes the program undefined. -/
theorem effect_starts_machine_undefined : ∃ (p : Prog) (rank : Nat → Nat) (l : List (Nat × Sig)) (f n : Nat) (v : Vars)
    (s' : World × Vars), Apt p ∧ Ranked p rank ∧ p.auto = false ∧ runs p f n l (world0 p, v) = (s', .dead .ub) := by
  exact ⟨Demo.prog false (some (.act 10 1)) [sigCreation], _, _, _, _, _, _, Demo.apt _ _ _, Demo.ranked _ _ _, rfl,
    Demo.badRun_eq _ _ Demo.effect_bad⟩

/-- The same for an entry action. -/
theorem entry_starts_machine_undefined : ∃ (p : Prog) (rank : Nat → Nat) (l : List (Nat × Sig)) (f n : Nat) (v : Vars)
    (s' : World × Vars), Apt p ∧ Ranked p rank ∧ p.auto = false ∧ runs p f n l (world0 p, v) = (s', .dead .ub) := by
  exact ⟨Demo.prog false (some (.entry 1)) [sigCreation], _, _, _, _, _, _, Demo.apt _ _ _, Demo.ranked _ _ _, rfl,
    Demo.badRun_eq _ _ Demo.entry_bad⟩

/-- An exit action that starts another machine: the dispatch reports success, but the machine is now in the state of the
other machine, and neither the effect nor the entry action of its target has been executed. -/
theorem exit_starts_machine_mixes_states : ∃ (p : Prog) (rank : Nat → Nat) (f n : Nat) (v : Vars) (s' : World × Vars),
    Apt p ∧ Ranked p rank ∧ p.auto = false ∧ runs p f n [(0, sigCreation), (0, 3)] (world0 p, v) = (s', .ok ()) ∧
    s'.1.done = [(0, sigCreation, .ok ()), (1, sigCreation, .ok ()), (0, 3, .ok ())] ∧
    (s'.1.mem 0).state = some 3 ∧ (s'.1.mem 1).state = some 3 ∧
    (s'.1.mem 0).log = [.act 20 sigCreation, .entry 0, .stable 0, .exit 0, .stable 3] := by
  exact ⟨Demo.prog false (some (.exit 0)) [sigCreation], _, _, _, _, _, Demo.apt _ _ _, Demo.ranked _ _ _, rfl,
    Demo.badRun_eq _ _ Demo.exit_bad.1, Demo.exit_bad.2⟩

end Verif.Nest
