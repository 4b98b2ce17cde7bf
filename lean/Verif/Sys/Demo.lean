import Verif.Sys.Props
import Verif.Fwk.Demo
import Verif.SM.Demo
/-
A concrete system: two active objects with the same state machine, a periodic and a one-shot timer. For every theorem about the
system a situation that meets its hypotheses.
-/
namespace Verif.Sys.Demo
open Verif Verif.Sys

/-- Two states, switched by signal 21. -/
def toggle : SM.Machine := SM.ofList [
  .basic none [SM.Demo.tr 21 none (some 5) (some 1)], .basic none [SM.Demo.tr 21 none (some 6) (some 0)]] 0 none 1 1 true

def env : SM.Env := fun _ _ _ => true

def cfg : Cfg := { fw := Fwk.Demo.cfg, tm := ⟨256, true, 100⟩ }

/-- Timer structures before anything happens. -/
def heap : Nat → Timer.Tmr := fun _ => ⟨9, 9, 9, 9, 9, 1⟩

/-- Two objects with priorities 3 and 1; timer 1 (event 900, signal 21) fires at ticks 2, 5, … for object 0, timer 2 (event 901,
signal 22) at tick 2 for object 1. -/
def ops0 : List Op := [
  .activate 3 [0, 0, 0] 3 toggle env 20, .activate 1 [0, 0] 2 toggle env 20,
  .tmr (.init 1 900), .tmr (.init 2 901), .tmr (.start 1 1 2 3), .tmr (.start 2 2 2 0), .tick, .call (.postFifo 1 900)]

/-- The second tick. -/
def ops1 : List Op := ops0 ++ [.tick]

/-- Object 1 handles its first event. -/
def ops2 : List Op := ops1 ++ [.call .select, .fetch 20, .call .done, .call (.resume 0)]

def go (l : List Op) : List Out × Res Sys := runOps (step cfg) (init cfg Fwk.Demo.slots Fwk.Demo.hdr heap) l

/-- Boolean form of the contract of timer calls. -/
def legalT (W : Nat) : Timer.Spec.S → List Timer.Op → Bool
  | _, [] => true
  | a, op :: ops => (match op with
    | .init t e => t != 0 && e != 0
    | .start t sma i p => (a.tm t).ready && sma != 0 && decide (0 < i) && decide (i < W) && decide (p < W)
    | .stop t => (a.tm t).ready
    | .tick => true) && legalT W (Timer.Spec.step a op).1 ops

theorem legalT_iff {W : Nat} : ∀ {ops : List Timer.Op} {a : Timer.Spec.S}, legalT W a ops = true → Timer.Spec.Legal W a ops := by
  intro ops
  induction ops with
  | nil => intro a _; trivial
  | cons op ops ih =>
    intro a h
    simp only [legalT, Bool.and_eq_true] at h
    refine ⟨?_, ih h.2⟩
    have h1 := h.1
    cases op <;> simp_all [Timer.Spec.legalOp]

/-- Is a list of operations a history that respects the contract. -/
def good (l : List Op) : Bool :=
  (match (go l).2 with | .ok _ => true | _ => false) && (Fwk.Demo.res (Obs.fwkOps l (go l).1)).isSome &&
  legalT 256 Timer.Spec.start0 (Obs.tmrOps l) && decide ((Obs.tmrOps l).length < 100)

theorem mk {l : List Op} (h : good l = true) :
    ∃ s, Run cfg Fwk.Demo.slots Fwk.Demo.hdr heap l (go l).1 s ∧ (go l).2 = .ok s := by
  simp only [good, Bool.and_eq_true, decide_eq_true_eq] at h
  obtain ⟨⟨⟨h1, h2⟩, h3⟩, h4⟩ := h
  rcases hx : (go l).2 with s | _ | _ <;> rw [hx] at h1 <;> try cases h1
  obtain ⟨r, hr⟩ := Option.isSome_iff_exists.mp h2
  exact ⟨s, ⟨Fwk.Demo.env, (Fwk.Demo.check_ok hr).1, legalT_iff h3, h4, Prod.ext rfl hx⟩, rfl⟩

/-- A statement about the final state of a history, by evaluation. -/
def after (l : List Op) (P : Sys → Bool) : Bool := match (go l).2 with | .ok s => P s | _ => false

theorem after_ok {l : List Op} {P : Sys → Bool} {s : Sys} (h : (go l).2 = .ok s) (hp : after l P = true) : P s = true := by
  unfold after at hp; rw [h] at hp; exact hp

-- What happens: both timers fire at the second tick; object 1 (priority 1) has two events, object 0 has one.
example : good ops2 = true := by decide +kernel
example : (Obs.tmrOuts (go ops1).1).getLast? = some (.posts [⟨2, 2, 901⟩, ⟨1, 1, 900⟩]) := by decide +kernel
example : after ops1 (fun s => Fwk.Obs.todo s.w == [(1, 900), (1, 901), (0, 900)]) = true := by decide +kernel
example : Obs.handled 1 (go ops2).1 = [21] ∧ Obs.handled 0 (go ops2).1 = [] := by decide +kernel

-- C79
example : ∃ s, Run cfg Fwk.Demo.slots Fwk.Demo.hdr heap ops2 (go ops2).1 s ∧ (Obs.machines ops2)[1]? = some (toggle, env) ∧
    ∃ x, s.objs[1]? = some x ∧ Spec.Life toggle env [21] x.mem := by
  obtain ⟨s, h, _⟩ := mk (l := ops2) (by decide +kernel)
  obtain ⟨x, hx, _, _, hl⟩ := object_behaves_as_alone h (ao := 1) (m := toggle) (env := env) rfl
  have e : Obs.handled 1 (go ops2).1 = [21] := by decide +kernel
  exact ⟨s, h, rfl, x, hx, by rw [← e]; exact hl⟩

/-- Another system: one object, no timers, a different queue. -/
def alone : List Op := [.activate 0 [7] 1 toggle env 9, .call (.postFifo 0 900), .call .select, .fetch 30]

-- C81: the two objects are in the same situation
example : ∃ s s2, Run cfg Fwk.Demo.slots Fwk.Demo.hdr heap ops2 (go ops2).1 s ∧
    Run cfg Fwk.Demo.slots Fwk.Demo.hdr heap alone (go alone).1 s2 ∧
    ∃ x y, s.objs[1]? = some x ∧ s2.objs[0]? = some y ∧ x.mem = y.mem := by
  obtain ⟨s, h, _⟩ := mk (l := ops2) (by decide +kernel)
  obtain ⟨s2, h2, _⟩ := mk (l := alone) (by decide +kernel)
  exact ⟨s, s2, h, h2, same_events_same_behaviour h h2 (i := 1) (j := 0) (m := toggle) (env := env) rfl rfl (by decide +kernel)⟩

/-- Boolean form of the hypothesis of C80. -/
def fifoB (ao : Nat) (l : List Fwk.Op) : Bool := l.all fun
  | .postLifo i _ => i != ao
  | .recall i _ => i != ao
  | _ => true

theorem fifoB_iff {ao : Nat} {l : List Fwk.Op} (h : fifoB ao l = true) :
    ∀ op ∈ l, (∀ e, op ≠ .postLifo ao e) ∧ ∀ i, op ≠ .recall ao i := by
  intro op hop
  have := List.all_eq_true.mp h op hop
  constructor
  · rintro e rfl; simp at this
  · rintro i rfl; simp at this

-- C80: signals 21 and 22 were sent to object 1, 21 has been handled
example : ∃ s x, Run cfg Fwk.Demo.slots Fwk.Demo.hdr heap ops2 (go ops2).1 s ∧ s.w.aos[1]? = some x ∧
    [21, 22] = [21] ++ (Fwk.Obs.contents x.q).map fun e => (s.w.hdr e).sig := by
  obtain ⟨s, h, hs⟩ := mk (l := ops2) (by decide +kernel)
  have hx := after_ok hs (P := fun s => s.w.aos[1]?.isSome) (by decide +kernel)
  obtain ⟨x, hx⟩ := Option.isSome_iff_exists.mp hx
  have := handled_in_sending_order h hx (fifoB_iff (by decide +kernel))
  have e : Obs.handled 1 (go ops2).1 = [21] := by decide +kernel
  have e2 : Obs.sentSigs 1 ((Obs.fwkOps ops2 (go ops2).1).zip (Obs.fwkOuts (go ops2).1)) [] (fun _ => none) (fun _ _ => false)
    (fun e => (Fwk.Demo.hdr e).sig) = [21, 22] := by decide +kernel
  rw [e, e2] at this
  exact ⟨s, x, h, hx, this⟩

-- C82: the second tick
example : ∃ s s' x x', Run cfg Fwk.Demo.slots Fwk.Demo.hdr heap ops0 (go ops0).1 s ∧
    Run cfg Fwk.Demo.slots Fwk.Demo.hdr heap ops1 ((go ops0).1 ++ [.posts [⟨2, 2, 901⟩, ⟨1, 1, 900⟩]]) s' ∧
    s.w.aos[1]? = some x ∧ s'.w.aos[1]? = some x' ∧ Fwk.Obs.contents x'.q = Fwk.Obs.contents x.q ++ [901] ∧
    Timer.Spec.Fires 2 3 (Timer.nticks [.start 2 2 2 0, .tick] + 1) := by
  obtain ⟨s, h, hs⟩ := mk (l := ops0) (by decide +kernel)
  obtain ⟨s', h', _⟩ := mk (l := ops1) (by decide +kernel)
  have hx := after_ok hs (P := fun s => s.w.aos[1]?.isSome) (by decide +kernel)
  obtain ⟨x, hx⟩ := Option.isSome_iff_exists.mp hx
  have e : (go ops1).1 = (go ops0).1 ++ [.posts [⟨2, 2, 901⟩, ⟨1, 1, 900⟩]] := by rfl
  rw [e] at h'
  obtain ⟨l, hl, _, hq, hf, _⟩ := tick_delivers_due_timers h h'
  simp only [Out.posts.injEq] at hl
  subst hl
  obtain ⟨x', hx', hc⟩ := hq 1 x hx
  refine ⟨s, s', x, x', h, h', hx, hx', hc, by decide⟩

/-! ### C83, C84 -/

theorem eng_ok {α β : Type} {x : SM.Eng α} {k : α → SM.Eng β} {s s1 : SM.Mem} {a : α} (h : x s = (s1, .ok a)) :
    (x >>= k) s = k a s1 := by
  show SM.Eng.bind x k s = _
  simp only [SM.Eng.bind, h]

theorem eng_stop {α β : Type} {x : SM.Eng α} {k : α → SM.Eng β} {s s1 : SM.Mem} {c : SM.Stop} (h : x s = (s1, .stop c)) :
    (x >>= k) s = (s1, .stop c) := by
  show SM.Eng.bind x k s = _
  simp only [SM.Eng.bind, h]

/-- Other signals are ignored. -/
theorem other {e : Nat} (h21 : e ≠ 21) (f i : Nat) (hi : i = 0 ∨ i = 1) (h : SM.Vid → Option SM.Vid) (l : List SM.Obs) :
    SM.passes toggle env (f + 2) e false ⟨some i, h, l⟩ = (⟨some i, h, l⟩, .stop (.rc .evtNFound)) := by
  have hf : ∀ a t, SM.findTrn env e [SM.Demo.tr 21 none a t] = pure none := by
    intro a t
    simp [SM.findTrn, SM.Demo.tr, SM.sigAny, Ne.symm h21]
  have hs : SM.searchUp toggle env e (f + 1) i ⟨some i, h, l⟩ = (⟨some i, h, l⟩, .ok none) := by
    rcases hi with rfl | rfl
    · exact eng_ok (x := SM.findTrn env e [SM.Demo.tr 21 none (some 5) (some 1)]) (a := none) (by rw [hf]; rfl)
    · exact eng_ok (x := SM.findTrn env e [SM.Demo.tr 21 none (some 6) (some 0)]) (a := none) (by rw [hf]; rfl)
  have hc : SM.compound toggle env (f + 1) e false ⟨some i, h, l⟩ = (⟨some i, h, l⟩, .stop (.rc .evtNFound)) :=
    (eng_ok (x := SM.Eng.get) (a := ⟨some i, h, l⟩) rfl).trans (eng_ok hs)
  unfold SM.passes
  exact eng_stop hc

theorem toggles {s : SM.Mem} {e : Nat} (he : e ≠ SM.sigCreation) {i : Nat} (hi : i = 0 ∨ i = 1) (hs : s.state = some i) :
    ∃ j, (j = 0 ∨ j = 1) ∧ (SM.dispatch toggle env 20 e s).1.state = some j ∧ SM.Spec.Returns (SM.dispatch toggle env 20 e s).2 := by
  obtain ⟨st, h, l⟩ := s
  simp only at hs
  subst hs
  by_cases h21 : e = 21
  · subst h21
    rcases hi with rfl | rfl
    · exact ⟨1, .inr rfl, rfl, .inl rfl⟩
    · exact ⟨0, .inl rfl, rfl, .inl rfl⟩
  · have h1 : (e == SM.sigCreation) = false := by simpa using he
    unfold SM.dispatch
    rw [h1, other h21 18 i hi]
    exact ⟨i, hi, rfl, .inr ⟨_, rfl⟩⟩

theorem toggle_dispatches {s s' : SM.Mem} {es : List Nat} (h : Spec.Dispatches toggle env s es s') (hes : SM.sigCreation ∉ es)
    {i : Nat} (hi : i = 0 ∨ i = 1) (hs : s.state = some i) : ∃ j, (j = 0 ∨ j = 1) ∧ s'.state = some j := by
  induction h generalizing i with
  | nil => exact ⟨i, hi, hs⟩
  | cons h1 hr _ ih =>
    simp only [List.mem_cons, not_or] at hes
    obtain ⟨j, hj, h2, h3⟩ := toggles (Ne.symm hes.1) hi hs
    have ne : ∀ {r : SM.Ans Unit}, SM.Spec.Returns r → r ≠ .stop .fuel := by
      rintro r (rfl | ⟨c, rfl⟩) <;> simp
    obtain ⟨rfl, _⟩ := SM.budget_is_irrelevant h1 (ne hr) (Prod.ext rfl rfl) (ne h3)
    exact ih hes.2 hj h2

/-- Systems of toggles always return. -/
theorem toggles_return {s : Sys} (h : ∀ (ao : Nat) (x : Obj), s.objs[ao]? = some x → x.m = toggle ∧ x.env = env ∧
    ∃ i, (i = 0 ∨ i = 1) ∧ x.mem.state = some i) : AlwaysReturn s := by
  intro ao x hx es mem hes hd e he
  obtain ⟨hm, hn, i, hi, hs⟩ := h ao x hx
  rw [hm, hn] at hd ⊢
  obtain ⟨j, hj, hmem⟩ := toggle_dispatches hd hes hi hs
  obtain ⟨_, _, _, hr⟩ := toggles he hj hmem
  exact ⟨20, hr⟩

-- C83: three events are waiting
example : ∃ s, Run cfg Fwk.Demo.slots Fwk.Demo.hdr heap ops1 (go ops1).1 s ∧ s.w.ph = .none ∧ Fwk.Obs.NoRecall s.w ∧
    ∃ w', Fwk.Run cfg.fw Fwk.Demo.slots Fwk.Demo.hdr (Obs.fwkOps ops1 (go ops1).1 ++ (Fwk.Obs.rounds 3 ++ [.select]))
      (Obs.fwkOuts (go ops1).1 ++ [.chose 1, .dispatch 1 900, .unit, .chose 1, .dispatch 1 901, .unit, .chose 0,
        .dispatch 0 900, .unit, .idle]) w' := by
  obtain ⟨s, h, hs⟩ := mk (l := ops1) (by decide +kernel)
  have h1 : s.w.ph = .none := by
    have := after_ok hs (P := fun s => s.w.ph == .none) (by decide +kernel)
    simpa using this
  have h2 : Fwk.Obs.NoRecall s.w := by
    have := after_ok hs (P := fun s => s.w.conts.isEmpty) (by decide +kernel)
    rw [List.isEmpty_iff] at this
    intro t ht; rw [this] at ht; cases ht
  have h3 : Fwk.Obs.todo s.w = [(1, 900), (1, 901), (0, 900)] := by
    have := after_ok hs (P := fun s => Fwk.Obs.todo s.w == [(1, 900), (1, 901), (0, 900)]) (by decide +kernel)
    simpa using this
  obtain ⟨w', hr, _⟩ := Fwk.scheduler_drains h.fwk h1 h2
  rw [h3] at hr
  exact ⟨s, h, h1, h2, w', hr⟩

-- C84
example : ∃ s, Run cfg Fwk.Demo.slots Fwk.Demo.hdr heap ops1 (go ops1).1 s ∧ s.w.ph = .none ∧ Fwk.Obs.NoRecall s.w ∧
    AlwaysReturn s ∧ (∀ x ∈ Fwk.Obs.todo s.w, (s.w.hdr x.2).sig ≠ SM.sigCreation) ∧
    ∃ fs outs' s', fs.length = 3 ∧
      Run cfg Fwk.Demo.slots Fwk.Demo.hdr heap (ops1 ++ schedule fs) ((go ops1).1 ++ (outs' ++ [.call .idle])) s' := by
  obtain ⟨s, h, hs⟩ := mk (l := ops1) (by decide +kernel)
  have h1 : s.w.ph = .none := by
    have := after_ok hs (P := fun s => s.w.ph == .none) (by decide +kernel)
    simpa using this
  have h2 : Fwk.Obs.NoRecall s.w := by
    have := after_ok hs (P := fun s => s.w.conts.isEmpty) (by decide +kernel)
    rw [List.isEmpty_iff] at this
    intro t ht; rw [this] at ht; cases ht
  have h3 : Fwk.Obs.todo s.w = [(1, 900), (1, 901), (0, 900)] := by
    have := after_ok hs (P := fun s => Fwk.Obs.todo s.w == [(1, 900), (1, 901), (0, 900)]) (by decide +kernel)
    simpa using this
  have h4 : ∀ x ∈ Fwk.Obs.todo s.w, (s.w.hdr x.2).sig ≠ SM.sigCreation := by
    have := after_ok hs (P := fun s => (Fwk.Obs.todo s.w).all fun x => (s.w.hdr x.2).sig != SM.sigCreation) (by decide +kernel)
    intro x hx
    simpa using List.all_eq_true.mp this x hx
  have h5 : AlwaysReturn s := by
    have hl := after_ok hs (P := fun s => s.objs.length == 2) (by decide +kernel)
    have hst := after_ok hs (P := fun s => s.objs.all fun x => x.mem.state == some 0) (by decide +kernel)
    simp only [beq_iff_eq] at hl
    apply toggles_return
    intro ao x hx
    have hlt := (List.getElem?_eq_some_iff.mp hx).1
    have hm : (Obs.machines ops1)[ao]? = some (toggle, env) := by
      match ao, (by omega : ao < 2) with
      | 0, _ => rfl
      | 1, _ => rfl
    obtain ⟨y, hy, hm, he, _⟩ := object_behaves_as_alone h hm
    rw [hx] at hy; cases hy
    refine ⟨hm, he, 0, .inl rfl, ?_⟩
    simpa using List.all_eq_true.mp hst x (List.mem_of_getElem? hx)
  obtain ⟨fs, outs', s', hfs, hr, _⟩ := system_drains h h1 h2 h5 h4
  rw [h3] at hfs
  exact ⟨s, h, h1, h2, h5, h4, fs, outs', s', hfs, hr⟩

end Verif.Sys.Demo
