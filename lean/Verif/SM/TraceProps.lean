import Verif.SM.TraceLemmas
import Verif.SM.PropsRun
import Verif.SM.Demo
/-
C92: the trace of a state machine tells what the machine did.
C93: from the trace alone its reader knows the active states.
C94: the last record of a dispatch announces the result.
C95: the dispatch record comes before everything else about the event. False: guards that are false are reported first.
C96: the trace calls do not change what the machine does.
-/
namespace Verif.SM
open Eng TEng Spec Traced

variable {fn : Fns} {m : Machine} {env : Env} {f f0 : Nat} {e : Sig} {os : List (Op × Nat)}

/-! ### C96 -/

/-- With trace calls a state machine goes through the same situations and gives the same results as without. -/
theorem tracing_changes_nothing : life m env f0 os = ((tLife m fn env f0 os).1.mem, (tLife m fn env f0 os).2) :=
  erase_calls m fn env ((.dispatch sigCreation, f0) :: os) ⟨mem0 m, []⟩

/-! ### C92 -/

/-- Whatever events are dispatched and whatever becomes of them, a reader that starts with nothing never meets a record
that contradicts its knowledge; what it reads is, in order, every action executed with its event, every state entered and
left and every change of the current state; and at the end it knows the current state. The only condition is that no call
ran into undefined behaviour, which never happens in the situations of C48. -/
theorem trace_tells_behaviour (h : Ans.stop .ub ∉ (tLife m fn env f0 os).2) :
    ∃ r, Reader.start.read m fn (tLife m fn env f0 os).1.trc = some (r, (life m env f0 os).1.log.filter visible) ∧
      r.cur = (life m env f0 os).1.state := by
  have key : ∃ r', Told m fn ⟨mem0 m, []⟩ (tLife m fn env f0 os).1 Reader.start r' ∧ Knows r' (tLife m fn env f0 os).1.mem := by
    unfold tLife at h ⊢
    simp only [tCalls] at h ⊢
    rcases hr : tOp m fn env f0 (.dispatch sigCreation) ⟨mem0 m, []⟩ with ⟨s1, a⟩
    have first : a ≠ .stop .ub → ∃ r', Told m fn ⟨mem0 m, []⟩ s1 Reader.start r' ∧ Knows r' s1.mem ∧ r'.cur.isSome = true :=
      fun ha => tells_dispatch m env f0 sigCreation rfl (Or.inr ⟨rfl, rfl, rfl⟩) hr ha
    rw [hr] at h
    have go : a ≠ .stop .ub → Ans.stop .ub ∉ (tCalls m fn env os s1).2 →
        ∃ r', Told m fn ⟨mem0 m, []⟩ (tCalls m fn env os s1).1 Reader.start r' ∧ Knows r' (tCalls m fn env os s1).1.mem := by
      intro ha hub
      obtain ⟨r1, h1, h2, h3⟩ := first ha
      obtain ⟨r2, g1, g2⟩ := tells_calls m env os s1 r1 h2.1 h2.2 h3 hub
      exact ⟨r2, h1.trans g1, g2⟩
    cases a with
    | ok u => exact go (by simp) fun hh => h (List.mem_cons_of_mem _ hh)
    | stop c =>
      cases c with
      | rc c => exact go (by simp) fun hh => h (List.mem_cons_of_mem _ hh)
      | ub => simp at h
      | fuel => obtain ⟨r1, h1, h2, _⟩ := first (by simp); exact ⟨r1, h1, h2⟩
      | assert => obtain ⟨r1, h1, h2, _⟩ := first (by simp); exact ⟨r1, h1, h2⟩
  obtain ⟨r, ⟨recs, obs, h1, h2, h3⟩, h4⟩ := key
  rw [tracing_changes_nothing (fn := fn)]
  refine ⟨r, ?_, h4.2⟩
  simp only [List.nil_append] at h1
  have h3 : (tLife m fn env f0 os).1.mem.log.filter visible = [] ++ obs := h3
  rw [h1, h2, h3]
  rfl

/-! ### C93 -/

theorem replay_visible (m : Machine) : ∀ (log : List Obs) (l : List Vid), replay m (log.filter visible) l = replay m log l
  | [], _ => rfl
  | o :: log, l => by
    have ih := replay_visible m log
    cases o <;> simp only [List.filter_cons, visible, if_true, replay, ih, Bool.false_eq_true, if_false]

/-- As long as every call succeeds, the reader of the trace of a well-formed machine knows at the end which states are
active: replaying what it has read is possible and leads to the current state and its ancestors. -/
theorem trace_tells_active_states (wf : WellFormed m) (lim : Limits m) (hne : ∀ n, (Op.dispatch sigCreation, n) ∉ os)
    (hok : ∀ a ∈ (tLife m fn env f0 os).2, a = .ok ()) :
    ∃ r obs cs l, Reader.start.read m fn (tLife m fn env f0 os).1.trc = some (r, obs) ∧ r.cur = some cs ∧ IsLeaf m cs ∧
      Path m cs l ∧ replay m obs [] = some l := by
  obtain ⟨r, h1, h2⟩ := trace_tells_behaviour (fn := fn) (m := m) (env := env) (f0 := f0) (os := os)
    (fun h => by have := hok _ h; simp at this)
  obtain ⟨cs, l, h3, h4, h5, h6⟩ := life_is_balanced wf lim (tracing_changes_nothing (fn := fn) (m := m) (env := env) (f0 := f0) (os := os)) hne hok
  rw [tracing_changes_nothing (fn := fn)] at h1 h2
  exact ⟨r, _, cs, l, h1, h2.trans h3, h4, h5, by rw [replay_visible]; exact h6⟩

/-! ### C94 -/

/-- When a dispatch returns, the last record written tells the result. -/
theorem last_record_is_result {s s' : TMem} {a : Ans Unit} (h : tDispatch m fn env f e s = (s', a))
    (ha : a = .ok () ∨ ∃ c, a = .stop (.rc c)) : s'.trc.getLast?.bind announced = some a := by
  rcases ha with rfl | ⟨c, rfl⟩
  · exact (ends_dispatch m fn env f e).2 s s' () h
  · exact (ends_dispatch m fn env f e).1.run s s' c h

/-! ### C95 -/

/-- The English claim: the first record of a dispatch is the one that names the event. -/
def DispatchRecordFirst (m : Machine) (fn : Fns) (env : Env) (f : Nat) (e : Sig) (s : TMem) : Prop :=
  ∃ cs rest, (tDispatch m fn env f e s).1.trc = s.trc ++ .dch e cs :: rest

/-- Partial: the dispatch record follows the records of guards that were false, which do not say for which event they were
called. There is none of them, and the claim holds, if the guards called for this event are true. What comes next is the
record of the transition that is selected (C34), or that there is none. -/
theorem dispatch_record_after_guards_partial {s s' : TMem} {a : Ans Unit} {cs : Vid} {l : List Vid} (he : e ≠ sigCreation)
    (hs : s.mem.state = some cs) (hl : Path m cs l) (h : tDispatch m fn env f e s = (s', a)) (hub : a ≠ .stop .ub)
    (hf : a ≠ .stop .fuel) :
    ∃ g next rest, s'.trc = s.trc ++ List.replicate (g.countP falseGuard) .grdFalse ++ .dch e cs :: next :: rest ∧
      ((∀ g log, env g e log = true) → g.countP falseGuard = 0) ∧
      ((∃ v t, Selected m env e l s.mem.log v t (s.mem.log ++ g) ∧ next = .trn v t.target) ∨
        (NoneEnabled m env e l s.mem.log (s.mem.log ++ g) ∧ next = .evtNFound e)) := by
  have hb : (e == sigCreation) = false := by simpa using he
  have h : tPasses m fn env f e false s = (s', a) := by simpa only [tDispatch, hb] using h
  cases f with
  | zero =>
    have h : (s, (Ans.stop .fuel : Ans Unit)) = (s', a) := h
    simp only [Prod.mk.injEq] at h
    exact absurd h.2.symm hf
  | succ f =>
    have h : TEng.bind (tCompound m fn env f e false) (fun c => match c with
      | false => pure ()
      | true => tPasses m fn env f sigCompletion false) s = (s', a) := h
    unfold TEng.bind at h
    rw [compound_eq m env f e hs] at h
    have e1 : (do let r ← tSearchUp m env e f cs; TEng.say (.dch e cs); tTake m fn env f e cs r : TEng Bool) s =
      TEng.bind (tSearchUp m env e f cs) (fun r => do TEng.say (.dch e cs); tTake m fn env f e cs r) s := rfl
    rw [e1] at h
    unfold TEng.bind at h
    have wpx := searchUp_wp (m := m) (env := env) (e := e) (f := f) (s := s.mem) (R := fun _ _ => True)
      (Q := fun x mem => (∃ v t, x = some (v, t) ∧ Selected m env e l s.mem.log v t mem.log) ∨
        (x = none ∧ NoneEnabled m env e l s.mem.log mem.log)) hl
      (fun v t log h => .inl ⟨v, t, rfl, h⟩) (fun log h => .inr ⟨rfl, h⟩) (fun _ => trivial)
    have e2 := (erase_searchUp m env e f cs).run s
    rcases hx : tSearchUp m env e f cs s with ⟨s1, x | c⟩
    · rw [hx] at h e2
      unfold wp at wpx
      rw [e2] at wpx
      obtain ⟨g, g1, g2, g3, g4⟩ := guards_searchUp m env e f cs s s1 _ hx
      have hz : (∀ g log, env g e log = true) → g.countP falseGuard = 0 := by
        intro ht
        rw [List.countP_eq_zero]
        intro o ho
        obtain ⟨i, log, rfl⟩ := g2 o ho
        simp [falseGuard, ht]
      rcases wpx with ⟨v, t, hxv, hsel⟩ | ⟨hxv, hno⟩
      · have hxv : x = some (v, t) := hxv
        subst hxv
        have h : TEng.bind (tDo m fn env f e cs v t) (fun c => match c with
          | false => pure ()
          | true => tPasses m fn env f sigCompletion false) ⟨s1.mem, s1.trc ++ [.dch e cs] ++ [.trn v t.target]⟩ = (s', a) := h
        have ht : Tells m fn (fun r => r.evt = e ∧ r.nEn = 0 ∧ r.nEx = 0) (tDo m fn env f e cs v t >>= fun c => match c with
            | false => pure ()
            | true => tPasses m fn env f sigCompletion false) (fun _ _ => True) := by
          refine Tells.bind (tells_do m env f e cs v t) fun c => ?_
          cases c
          · exact Tells.pure _ fun _ h => h
          · exact Tells.weaken (tells_passes m env f sigCompletion false (by decide)) (fun _ _ h => by cases h) fun _ _ h => h
        obtain ⟨r', ⟨recs, _, hrec, _⟩, _⟩ := ht.run ⟨s1.mem, s1.trc ++ [.dch e cs] ++ [.trn v t.target]⟩
          { Reader.start with evt := e, cur := some cs } ⟨rfl, by show some cs = s1.mem.state; rw [g3, hs]⟩ ⟨rfl, rfl, rfl⟩ s' a h hub
        refine ⟨g, _, recs, by rw [hrec, g4]; simp, hz, .inl ⟨v, t, ?_, rfl⟩⟩
        rw [← g1]; exact hsel
      · have hxv : x = none := hxv
        subst hxv
        have h : ((⟨s1.mem, s1.trc ++ [.dch e cs] ++ [.evtNFound e]⟩ : TMem), (Ans.stop (.rc .evtNFound) : Ans Unit)) = (s', a) := h
        simp only [Prod.mk.injEq] at h
        refine ⟨g, .evtNFound e, [], by rw [← h.1, g4]; simp, hz, .inr ⟨?_, rfl⟩⟩
        rw [← g1]; exact hno
    · rw [hx] at h e2
      simp only [Prod.mk.injEq] at h
      exfalso
      have := searchUp_stop m env e f cs e2
      rw [← h.2] at hub hf
      rcases this with h1 | h1
      · subst h1; exact hub rfl
      · subst h1; exact hf rfl

/-! ### A concrete machine -/

namespace Demo

/-- Entry actions of the states with even numbers, exit actions of those divisible by three. -/
def fns : Fns := ⟨fun v => if v % 2 = 0 then some (100 + v) else none, fun v => if v % 3 = 0 then some (200 + v) else none⟩

/-- A life with a guard that is false, an internal transition, a choice, a completion event, a cleared history, events
that are not found and a transition to a history. -/
def calls1 : List (Op × Nat) :=
  [(.dispatch 2, 50), (.dispatch 9, 50), (.dispatch 2, 50), (.dispatch 1, 50), (.dispatch 5, 50), (.dispatch 8, 50),
   (.clearHistory 7, 50), (.dispatch 3, 50), (.dispatch 99, 50), (.dispatch 4, 50)]

example : Ans.stop .ub ∉ (tLife Demo.m fns Demo.env 50 calls1).2 := by decide +kernel

-- trace_tells_behaviour: what is read is not trivial
example : ((life Demo.m Demo.env 50 calls1).1.log.filter visible).length = 33 ∧ (tLife Demo.m fns Demo.env 50 calls1).1.trc.length = 89 := by
  decide +kernel

-- trace_tells_active_states
example : ∃ r obs cs l, Reader.start.read Demo.m fns (tLife Demo.m fns Demo.env 50 [(.dispatch 2, 50), (.dispatch 5, 50)]).1.trc = some (r, obs) ∧
    r.cur = some cs ∧ IsLeaf Demo.m cs ∧ Path Demo.m cs l ∧ replay Demo.m obs [] = some l :=
  trace_tells_active_states wf lim (by simp [sigCreation]) (by decide +kernel)

-- last_record_is_result: an event that is not found, an event that is processed
example : (tDispatch Demo.m fns Demo.env 50 99 ⟨at' Demo.env [], []⟩).2 = .stop (.rc .evtNFound) ∧
    (tDispatch Demo.m fns Demo.env 50 99 ⟨at' Demo.env [], []⟩).1.trc = [.dch 99 1, .evtNFound 99] ∧
    (tDispatch Demo.m fns Demo.env 50 5 ⟨at' Demo.env [], []⟩).2 = .ok () := by decide +kernel

end Demo

/-- Event 2 in state A1 of the machine: its first candidate has a guard that is false, and the record of the guard comes
before the record of the dispatch, so a reader attributes it to the event before. -/
theorem guard_records_come_first : ¬ DispatchRecordFirst Demo.m Demo.fns Demo.env 50 2 ⟨Demo.at' Demo.env [], []⟩ := by
  rintro ⟨cs, rest, h⟩
  have : (tDispatch Demo.m Demo.fns Demo.env 50 2 ⟨Demo.at' Demo.env [], []⟩).1.trc.head? = some .grdFalse := by
    decide +kernel
  rw [h] at this
  simp at this

-- dispatch_record_after_guards_partial: the same dispatch; its second candidate is selected
example : ∃ g next rest, (tDispatch Demo.m Demo.fns Demo.env 50 2 ⟨Demo.at' Demo.env [], []⟩).1.trc =
    [] ++ List.replicate (g.countP falseGuard) .grdFalse ++ .dch 2 1 :: next :: rest ∧
    ((∀ g log, Demo.env g 2 log = true) → g.countP falseGuard = 0) ∧
    ((∃ v t, Selected Demo.m Demo.env 2 [1, 0] (Demo.at' Demo.env []).log v t ((Demo.at' Demo.env []).log ++ g) ∧
      next = .trn v t.target) ∨
     (NoneEnabled Demo.m Demo.env 2 [1, 0] (Demo.at' Demo.env []).log ((Demo.at' Demo.env []).log ++ g) ∧ next = .evtNFound 2)) :=
  dispatch_record_after_guards_partial (s := ⟨Demo.at' Demo.env [], []⟩) (by decide) (by decide +kernel)
    (.child rfl (.root rfl)) (Prod.ext rfl rfl) (by decide +kernel) (by decide +kernel)

end Verif.SM
