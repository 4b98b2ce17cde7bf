import Verif.Fwk.Model
/-
`rkh_sma_register` and `rkh_sma_unregister` (source/sma/src/rkhsma.c:93-121) in two parts: the table is tested before the critical
section begins, so other contexts (interrupt handlers, threads of a preemptive port) may run between test and store.
-/
namespace Verif.Fwk.Register
open Verif Verif.Fwk

/-- Calls that have tested the table and not yet stored: `(true, ao, prio)` registers, `(false, ao, prio)` unregisters. -/
abbrev Pend := Bool × Nat × Nat

/-- `rkh_sptbl` and the calls between test and store. -/
structure St where
  tbl : List (Option Nat)
  pend : List Pend
  deriving DecidableEq

/-- `register ao prio`, `unregister ao prio`: a call up to the critical section; `resume k`: the `k`-th pending call goes on. -/
inductive Op where
  | register (ao prio : Nat)
  | unregister (ao prio : Nat)
  | resume (k : Nat)
  deriving DecidableEq

/-- `registered ao prio`: the call returned. -/
inductive Out where
  | pending
  | registered (ao prio : Nat)
  | unregistered (ao prio : Nat)
  deriving DecidableEq

/-- Lines 99-100 of rkhsma.c: the test of `rkh_sma_register`. -/
def test1 (c : Cfg) (tbl : List (Option Nat)) (prio : Nat) : Res Unit :=
  assertIf c.assertEn (decide (prio < c.maxSma ∧ tbl[prio]? = some none))

/-- Lines 102-105. -/
def store1 (tbl : List (Option Nat)) (ao prio : Nat) : Res (List (Option Nat)) :=
  if prio < tbl.length then .ok (tbl.set prio (some ao)) else .ub

/-- Lines 114-115: the test of `rkh_sma_unregister`. -/
def test2 (c : Cfg) (tbl : List (Option Nat)) (ao prio : Nat) : Res Unit :=
  if c.assertEn = true ∧ prio ≤ c.maxSma ∧ tbl.length ≤ prio then .ub
  else assertIf c.assertEn (decide (prio ≤ c.maxSma ∧ tbl[prio]? = some (some ao)))

/-- Lines 117-120. -/
def store2 (tbl : List (Option Nat)) (prio : Nat) : Res (List (Option Nat)) :=
  if prio < tbl.length then .ok (tbl.set prio none) else .ub

/-- One operation. -/
def step (c : Cfg) (s : St) : Op → Res (St × Out)
  | .register ao prio => (test1 c s.tbl prio).map' fun _ => ({ s with pend := (true, ao, prio) :: s.pend }, .pending)
  | .unregister ao prio => (test2 c s.tbl ao prio).map' fun _ => ({ s with pend := (false, ao, prio) :: s.pend }, .pending)
  | .resume k =>
    match s.pend[k]? with
    | none => .ub
    | some (true, ao, prio) => (store1 s.tbl ao prio).map' fun t => (⟨t, s.pend.eraseIdx k⟩, .registered ao prio)
    | some (false, ao, prio) => (store2 s.tbl prio).map' fun t => (⟨t, s.pend.eraseIdx k⟩, .unregistered ao prio)

/-- The two parts in sequence are the functions of the framework model. -/
theorem parts_register (c : Cfg) (w : World) (ao prio : Nat) :
    register c w ao prio = (test1 c w.sptbl prio).bind fun _ => (store1 w.sptbl ao prio).map' fun t => { w with sptbl := t } := by
  unfold register test1 store1
  cases h : assertIf c.assertEn (decide (prio < c.maxSma ∧ w.sptbl[prio]? = some none)) <;> simp only [Res.bind]
  split <;> rfl

theorem parts_unregister (c : Cfg) (w : World) (ao prio : Nat) :
    unregister c w ao prio = (test2 c w.sptbl ao prio).bind fun _ => (store2 w.sptbl prio).map' fun t => { w with sptbl := t } := by
  unfold unregister test2 store2
  split
  · rfl
  · cases h : assertIf c.assertEn (decide (prio ≤ c.maxSma ∧ w.sptbl[prio]? = some (some ao))) <;> simp only [Res.bind]
    split <;> rfl

end Verif.Fwk.Register

namespace Verif.Fwk.Register.Spec
open Verif.Fwk.Register

/-- Reading the results of the calls in the order they took effect: a priority is given to an object only while no object has it,
and taken only from the object that has it. `own p` is the object that has priority `p`. -/
def Exclusive : (Nat → Option Nat) → List Out → Prop
  | _, [] => True
  | own, .pending :: l => Exclusive own l
  | own, .registered ao p :: l => own p = none ∧ Exclusive (fun q => if q = p then some ao else own q) l
  | own, .unregistered ao p :: l => own p = some ao ∧ Exclusive (fun q => if q = p then none else own q) l

/-- No call begins while another call for the same priority is between test and store. -/
def Apart (c : Verif.Fwk.Cfg) : St → List Op → Prop
  | _, [] => True
  | s, op :: ops =>
    (match op with
      | .register _ p => ∀ x ∈ s.pend, x.2.2 ≠ p
      | .unregister _ p => ∀ x ∈ s.pend, x.2.2 ≠ p
      | .resume _ => True) ∧
    ∀ s' o, step c s op = .ok (s', o) → Apart c s' ops

end Verif.Fwk.Register.Spec

namespace Verif.Fwk.Register
open Verif Spec

/-- The empty table (`rkh_sptbl` is a static array). -/
def init (c : Cfg) : St := ⟨List.replicate c.maxSma none, []⟩

/-- **C114.** Whatever happened before: while a priority is free two contexts can register two objects with it. Both calls return
without assertion, the second object silently takes the place of the first. -/
theorem two_objects_one_priority {c : Cfg} {s : St} {a b p : Nat} (hp : p < c.maxSma) (hf : s.tbl[p]? = some none) :
    runOps (step c) s [.register a p, .register b p, .resume 1, .resume 0] =
      ([.pending, .pending, .registered a p, .registered b p], .ok ⟨s.tbl.set p (some b), s.pend⟩) ∧
    ¬ Exclusive (fun q => (s.tbl[q]?).join) [.pending, .pending, .registered a p, .registered b p] := by
  have hl : p < s.tbl.length := by
    rcases Nat.lt_or_ge p s.tbl.length with h | h
    · exact h
    · rw [List.getElem?_eq_none h] at hf; cases hf
  have hg := (List.getElem?_eq_some_iff.mp hf).2
  constructor
  · simp [runOps, step, test1, store1, hp, hg, hl, Res.map', assertIf]
  · simp [Exclusive]

/-- **C114.** Two contexts that unregister the same object can remove another object that was registered in between. -/
theorem unregister_removes_another {c : Cfg} {s : St} {a b p : Nat} (hp : p < c.maxSma) (hf : s.tbl[p]? = some (some a)) :
    runOps (step c) s [.unregister a p, .unregister a p, .resume 0, .register b p, .resume 0, .resume 0] =
      ([.pending, .pending, .unregistered a p, .pending, .registered b p, .unregistered a p], .ok ⟨s.tbl.set p none, s.pend⟩) := by
  have hl : p < s.tbl.length := by
    rcases Nat.lt_or_ge p s.tbl.length with h | h
    · exact h
    · rw [List.getElem?_eq_none h] at hf; cases hf
  have hg := (List.getElem?_eq_some_iff.mp hf).2
  have hn : ¬ s.tbl.length ≤ p := by omega
  simp [runOps, step, test1, test2, store1, store2, hp, hg, hl, hn, Nat.le_of_lt hp, Res.map', List.getElem?_set, assertIf]

/-- Between test and store nothing changes for the tested priority, and every priority is tested by one pending call at most. -/
structure Inv (s : St) : Prop where
  reg : ∀ ao p, (true, ao, p) ∈ s.pend → s.tbl[p]? = some none
  unreg : ∀ ao p, (false, ao, p) ∈ s.pend → s.tbl[p]? = some (some ao)
  nodup : (s.pend.map fun x => x.2.2).Nodup

theorem exclusive_run {c : Cfg} (ha : c.assertEn = true) : ∀ (ops : List Op) (s : St) (outs : List Out) (r : Res St), Inv s →
    Apart c s ops → runOps (step c) s ops = (outs, r) → ∀ own : Nat → Option Nat, (∀ p, p < s.tbl.length → s.tbl[p]? = some (own p)) →
    Exclusive own outs ∧ ∀ s', r = .ok s' → Inv s' := by
  intro ops
  induction ops with
  | nil =>
    intro s outs r hi _ h own _
    simp only [runOps, Prod.mk.injEq] at h
    obtain ⟨rfl, rfl⟩ := h
    exact ⟨trivial, fun s' e => by cases e; exact hi⟩
  | cons op ops ih =>
    intro s outs r hi hap h own hown
    obtain ⟨hap1, hap2⟩ := hap
    simp only [runOps] at h
    rcases hs : step c s op with ⟨s1, o⟩ | _ | _ <;> rw [hs] at h
    · simp only [Prod.mk.injEq] at h
      obtain ⟨rfl, rfl⟩ := h
      have hap2 := hap2 _ _ hs
      cases op with
      | register ao p =>
        simp only [step, Res.map'_eq_ok] at hs
        obtain ⟨_, ht, hs⟩ := hs
        simp only [Prod.mk.injEq] at hs
        obtain ⟨rfl, rfl⟩ := hs
        have ht : p < c.maxSma ∧ s.tbl[p]? = some none := by
          unfold test1 assertIf at ht
          simp only [ha, Bool.true_and, Bool.not_eq_true', decide_eq_false_iff_not] at ht
          split at ht
          · cases ht
          · rename_i hh; exact Decidable.not_not.1 hh
        refine ih _ _ _ ⟨?_, ?_, ?_⟩ hap2 rfl own hown
        · intro ao' p' hm
          rcases List.mem_cons.1 hm with hm | hm
          · cases hm; exact ht.2
          · exact hi.reg _ _ hm
        · intro ao' p' hm
          rcases List.mem_cons.1 hm with hm | hm
          · cases hm
          · exact hi.unreg _ _ hm
        · simp only [List.map_cons, List.nodup_cons]
          refine ⟨?_, hi.nodup⟩
          intro hm
          obtain ⟨x, hx, he⟩ := List.mem_map.1 hm
          exact hap1 x hx he
      | unregister ao p =>
        simp only [step, Res.map'_eq_ok] at hs
        obtain ⟨_, ht, hs⟩ := hs
        simp only [Prod.mk.injEq] at hs
        obtain ⟨rfl, rfl⟩ := hs
        have ht : s.tbl[p]? = some (some ao) := by
          unfold test2 at ht
          split at ht
          · cases ht
          · unfold assertIf at ht
            simp only [ha, Bool.true_and, Bool.not_eq_true', decide_eq_false_iff_not] at ht
            split at ht
            · cases ht
            · rename_i hh; exact (Decidable.not_not.1 hh).2
        refine ih _ _ _ ⟨?_, ?_, ?_⟩ hap2 rfl own hown
        · intro ao' p' hm
          rcases List.mem_cons.1 hm with hm | hm
          · cases hm
          · exact hi.reg _ _ hm
        · intro ao' p' hm
          rcases List.mem_cons.1 hm with hm | hm
          · cases hm; exact ht
          · exact hi.unreg _ _ hm
        · simp only [List.map_cons, List.nodup_cons]
          refine ⟨?_, hi.nodup⟩
          intro hm
          obtain ⟨x, hx, he⟩ := List.mem_map.1 hm
          exact hap1 x hx he
      | resume k =>
        -- a pending call and the others concern different priorities
        have key : ∀ (b : Bool) (ao p : Nat) (v : Option Nat), s.pend[k]? = some (b, ao, p) → Inv ⟨s.tbl.set p v, s.pend.eraseIdx k⟩ := by
          intro b ao p v hk
          have hk' : k < s.pend.length := (List.getElem?_eq_some_iff.mp hk).1
          have hne : ∀ x ∈ s.pend.eraseIdx k, x.2.2 ≠ p := by
            intro x hx he
            rw [List.mem_eraseIdx_iff_getElem?] at hx
            obtain ⟨j, hj, hx⟩ := hx
            have hj' : j < s.pend.length := (List.getElem?_eq_some_iff.mp hx).1
            have h1 := (List.getElem_inj (xs := s.pend.map fun (x : Pend) => x.2.2) (i := j) (j := k) (h₀ := by simpa using hj') (h₁ := by simpa using hk') hi.nodup).1 (by
              simp only [List.getElem_map]
              rw [(List.getElem?_eq_some_iff.mp hx).2, (List.getElem?_eq_some_iff.mp hk).2]
              exact he)
            exact hj h1
          refine ⟨?_, ?_, ?_⟩
          · intro ao' p' hm
            simp only
            rw [List.getElem?_set_ne (fun e => hne _ hm e.symm)]
            exact hi.reg _ _ (List.mem_of_mem_eraseIdx hm)
          · intro ao' p' hm
            simp only
            rw [List.getElem?_set_ne (fun e => hne _ hm e.symm)]
            exact hi.unreg _ _ (List.mem_of_mem_eraseIdx hm)
          · exact hi.nodup.sublist ((List.eraseIdx_sublist _ _).map _)
        have own' : ∀ (p : Nat) (v : Option Nat), ∀ q, q < (s.tbl.set p v).length →
            (s.tbl.set p v)[q]? = some (if q = p then v else own q) := by
          intro p v q hq
          simp only [List.length_set] at hq
          rw [List.getElem?_set]
          by_cases hqp : p = q
          · subst hqp; simp [hq]
          · rw [if_neg hqp, if_neg fun e => hqp e.symm]; exact hown q hq
        simp only [step] at hs
        split at hs
        · cases hs
        · rename_i ao p hk
          simp only [Res.map'_eq_ok] at hs
          obtain ⟨t, ht, hs⟩ := hs
          simp only [Prod.mk.injEq] at hs
          obtain ⟨rfl, rfl⟩ := hs
          unfold store1 at ht
          split at ht
          · rename_i hl
            cases ht
            have hfree := hi.reg _ _ (List.mem_of_getElem? hk)
            obtain ⟨h1, h2⟩ := ih _ _ _ (key _ _ _ _ hk) hap2 rfl _ (own' p (some ao))
            refine ⟨⟨?_, h1⟩, h2⟩
            have := hown p hl
            rw [hfree] at this
            exact (Option.some.inj this).symm
          · cases ht
        · rename_i ao p hk
          simp only [Res.map'_eq_ok] at hs
          obtain ⟨t, ht, hs⟩ := hs
          simp only [Prod.mk.injEq] at hs
          obtain ⟨rfl, rfl⟩ := hs
          unfold store2 at ht
          split at ht
          · rename_i hl
            cases ht
            have hfree := hi.unreg _ _ (List.mem_of_getElem? hk)
            obtain ⟨h1, h2⟩ := ih _ _ _ (key _ _ _ _ hk) hap2 rfl _ (own' p none)
            refine ⟨⟨?_, h1⟩, h2⟩
            have := hown p hl
            rw [hfree] at this
            exact (Option.some.inj this).symm
          · cases ht
    · simp only [Prod.mk.injEq] at h
      obtain ⟨rfl, rfl⟩ := h
      exact ⟨trivial, fun s' e => by cases e⟩
    · simp only [Prod.mk.injEq] at h
      obtain ⟨rfl, rfl⟩ := h
      exact ⟨trivial, fun s' e => by cases e⟩

/-- **C114, partial.** With assertions enabled, however calls for different priorities interleave, a priority never belongs to two
objects and is only taken from the object that has it, provided no call begins while another one for the same priority is between test
and store (for example because all objects are activated and terminated in one context). Missing: that proviso, without which the
claim is false. -/
theorem one_object_per_priority_partial {c : Cfg} (ha : c.assertEn = true) {ops : List Op} {outs : List Out} {r : Res St}
    (hap : Apart c (init c) ops) (h : runOps (step c) (init c) ops = (outs, r)) : Exclusive (fun _ => none) outs := by
  refine (exclusive_run ha ops (init c) outs r ⟨by simp [init], by simp [init], by simp [init]⟩ hap h _ ?_).1
  intro p hp
  simp only [init, List.length_replicate] at hp
  simp [init, hp]

/-- Calls of one context, one after the other, are apart. -/
theorem sequential_apart {c : Cfg} : ∀ (l : List (Bool × Nat × Nat)) (s : St), s.pend = [] →
    Apart c s (l.flatMap fun x => [if x.1 then .register x.2.1 x.2.2 else .unregister x.2.1 x.2.2, .resume 0]) := by
  intro l
  induction l with
  | nil => intro s _; trivial
  | cons x l ih =>
    intro s hs
    simp only [List.flatMap_cons, List.cons_append, List.nil_append]
    refine ⟨?_, fun s1 o h1 => ⟨trivial, fun s2 o2 h2 => ih s2 ?_⟩⟩
    · cases x.1 <;> simp [hs]
    · have hp : s1.pend = [x] := by
        obtain ⟨b, ao, p⟩ := x
        cases b <;> simp only [step, Bool.false_eq_true, if_true, if_false, Res.map'_eq_ok, Prod.mk.injEq] at h1 <;>
          (obtain ⟨_, _, h1, _⟩ := h1; rw [← h1, hs])
      obtain ⟨b, ao, p⟩ := x
      simp only [step, hp, List.getElem?_cons_zero] at h2
      cases b <;> simp only [Res.map'_eq_ok, Prod.mk.injEq] at h2 <;>
        (obtain ⟨_, _, h2, _⟩ := h2; rw [← h2]; simp)

/-! ### Concrete cases -/

def demo : Cfg :=
  { assertEn := true, maxSma := 4, maxPool := 1, maxChan := 1, qW := 256, mpc := ⟨4, 65536, 65536, true⟩, static := fun _ => false,
    junk := fun _ => ⟨0, 0, 0⟩ }

-- interleaved calls for two priorities
example : ∃ s, Apart demo (init demo) [.register 7 2, .register 8 3, .resume 1, .resume 0, .unregister 7 2, .resume 0, .register 9 2, .resume 0] ∧
    runOps (step demo) (init demo) [.register 7 2, .register 8 3, .resume 1, .resume 0, .unregister 7 2, .resume 0, .register 9 2, .resume 0] =
      ([.pending, .pending, .registered 7 2, .registered 8 3, .pending, .unregistered 7 2, .pending, .registered 9 2], .ok s) ∧
    s.tbl = [none, none, some 9, some 8] := by
  refine ⟨⟨[none, none, some 9, some 8], []⟩, ?_, by decide, rfl⟩
  simp [Apart, step, test1, test2, store1, store2, init, demo, assertIf, Res.map']
example : (runOps (step demo) (init demo) [.register 7 2, .register 8 2, .resume 1, .resume 0]).2 = .ok ⟨[none, none, some 8, none], []⟩ := by
  decide

end Verif.Fwk.Register
