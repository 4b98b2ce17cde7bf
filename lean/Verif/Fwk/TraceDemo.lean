import Verif.Fwk.TraceProps
/-
Concrete traced histories: the hypotheses of C101-C104 are met, and what is false of the code.
-/
namespace Verif.Fwk.Trace
open Verif Verif.Fwk Verif.Fwk.Demo

/-- Result of a traced history on the demo configuration. -/
def go (tops : List TOp) : Option (List (Out × List Rec) × TWorld) :=
  match runOps (tstep cfg) ⟨initW cfg slots hdr, []⟩ tops with
  | (os, .ok t) => some (os, t)
  | _ => none

/-- The records of a traced history. -/
def recs (tops : List TOp) : List Rec := ((go tops).map fun r => records r.1).getD []

/-- A concrete traced history. -/
theorem tmk {tops : List TOp} (h1 : (res (opsOf tops)).isSome = true) (h2 : (go tops).isSome = true) :
    ∃ os t, TRun cfg slots hdr tops os t ∧ go tops = some (os, t) := by
  obtain ⟨r, hr⟩ := Option.isSome_iff_exists.mp h1
  obtain ⟨⟨os, t⟩, hg⟩ := Option.isSome_iff_exists.mp h2
  refine ⟨os, t, ⟨env, (check_ok hr).1, ?_⟩, hg⟩
  unfold go at hg
  split at hg
  · rename_i os' t' he
    simp only [Option.some.injEq, Prod.mk.injEq] at hg
    obtain ⟨rfl, rfl⟩ := hg
    exact he
  · cases hg

/-- Operations without pending records in between. -/
def acts (l : List Op) : List TOp := l.map .act

/-- Set-up, two allocations (the second by an interrupt before the first is recorded), two posts, a fetch, and an urgent post by
an interrupt before the record of the fetch. -/
def tr1 : List TOp := acts setup ++ [.emit 0, .emit 0, .emit 0] ++ acts [.alloc 10 5, .alloc 10 6] ++ [.emit 0, .emit 0] ++
  acts [.postFifo 0 1000, .postFifo 0 1016, .select, .fetch, .postLifo 0 900]

/-- The record of the fetch is written. -/
def tr2 : List TOp := tr1 ++ [.emit 0]

/-- C101, C102: the hypotheses are met with a record pending; the records come in an order that is not the order of the
events: LIFO before GET. -/
example : ∃ os t, TRun cfg slots hdr tr1 os t ∧ t.pend = [.get 0 1000] := by
  obtain ⟨os, t, h, hg⟩ := tmk (tops := tr1) (by decide +kernel) (by decide +kernel)
  refine ⟨os, t, h, ?_⟩
  have : ((go tr1).map fun r => r.2.pend) = some [.get 0 1000] := by decide +kernel
  rw [hg] at this
  simpa using this

example : recs tr2 = [.reg 0 3, .reg 1 1, .epreg 1 64 13 4, .act 1 1 3, .act 0 3 2, .ae 10 6 0 0 2, .ae 10 5 0 0 2,
    .fifo 0 5 1 1 1 1, .fifo 0 6 1 1 2 0, .lifo 0 21 0 0 2 0, .get 0 5 1 1 2 0] := by decide +kernel

/-- The host's view after `tr2`: signals 21 and 6 are waiting for object 0. -/
example : ((Host.init.readAll (recs tr2)).map fun v => (v.q 0, v.taken 0, v.used 0)) = some ([21, 6], none, 2) := by decide +kernel

/-- A host that takes the order of the records for the order of the events: GET removes the front. -/
def naiveRead (q : List Nat) : Rec → Option (List Nat)
  | .fifo 0 sig _ _ _ _ => some (q ++ [sig])
  | .lifo 0 sig _ _ _ _ => some (sig :: q)
  | .get 0 sig _ _ _ _ => match q with
    | [] => none
    | x :: rest => if x = sig then some rest else none
  | _ => some q

/-- **C101 (why the count is needed).** Because `rkh_sma_get` writes its record after its critical section, a host that takes
the order of the records for the order of the events is contradicted by a legal history. -/
theorem naive_host_is_misled : ∃ tops os t, TRun cfg slots hdr tops os t ∧ t.pend = [] ∧
    (records os).foldlM naiveRead [] = none := by
  obtain ⟨os, t, h, hg⟩ := tmk (tops := tr2) (by decide +kernel) (by decide +kernel)
  refine ⟨tr2, os, t, h, ?_, ?_⟩
  · have : ((go tr2).map fun r => r.2.pend) = some [] := by decide +kernel
    rw [hg] at this
    simpa using this
  · have : ((go tr2).map fun r => (records r.1).foldlM naiveRead []) = some none := by decide +kernel
    rw [hg] at this
    simpa using this

/-- Two events are recycled, the second collector running between the first's critical section and its return of the
block. -/
def tr3 : List TOp := acts setup ++ [.emit 0, .emit 0, .emit 0] ++ acts [.alloc 10 5] ++ [.emit 0] ++ acts [.alloc 10 6] ++ [.emit 0] ++
  acts [.reserve 1000, .reserve 1016, .gc 1000, .resume 0, .resume 0, .gc 1016, .resume 0, .resume 0, .resume 0, .resume 0]

example : recs tr3 = [.reg 0 3, .reg 1 1, .epreg 1 64 13 4, .act 1 1 3, .act 0 3 2, .ae 10 5 0 0 1, .ae 10 6 0 0 2,
    .gcr 5 0 1 1, .gcr 6 0 1 1] := by decide +kernel

/-- **C103 (negation).** With interrupts the latest record of a pool can show a wrong number of used blocks for ever: after
this legal history nothing is in flight, all blocks are free, and the latest record says that one is in use. -/
theorem shown_used_can_be_wrong : ∃ tops os t p, TRun cfg slots hdr tops os t ∧ t.pend = [] ∧ t.w.conts = [] ∧
    (Obs.pools t.w)[0]? = some p ∧ p.nblocks - p.nfree = 0 ∧ shownUsed 0 (records os) 0 = 1 := by
  obtain ⟨os, t, h, hg⟩ := tmk (tops := tr3) (by decide +kernel) (by decide +kernel)
  have h1 : ((go tr3).map fun r => (r.2.pend, r.2.w.conts, ((Obs.pools r.2.w)[0]?.map fun p => (p.nblocks, p.nfree)), shownUsed 0 (records r.1) 0)) =
      some ([], [], some (4, 4), 1) := by decide +kernel
  rw [hg] at h1
  simp only [Option.map_some, Option.some.injEq, Prod.mk.injEq, Option.map_eq_some_iff] at h1
  obtain ⟨k1, k2, ⟨p, k3, k4, k5⟩, k6⟩ := h1
  exact ⟨tr3, os, t, p, h, k1, k2, k3, by omega, k6⟩

/-- Allocation, reservation, collection without interruption. -/
def tr4 : List TOp := acts setup ++ [.emit 0, .emit 0, .emit 0] ++ acts [.alloc 10 5] ++ [.emit 0] ++ acts [.alloc 10 6] ++ [.emit 0] ++
  acts [.reserve 1000, .gc 1000, .resume 0, .resume 0, .resume 0]

/-- `OneAtATime` as a computation. -/
def oneB (i : Nat) (t : TWorld) : List TOp → Bool
  | [] => decide (unrecorded t i + returning t.w i ≤ 1)
  | op :: ops => decide (unrecorded t i + returning t.w i ≤ 1) && (match tstep cfg t op with
    | .ok (t', _) => oneB i t' ops
    | _ => true)

theorem oneB_ok {i : Nat} : ∀ {tops : List TOp} {t : TWorld}, oneB i t tops = true → OneAtATime cfg i t tops := by
  intro tops
  induction tops with
  | nil =>
    intro t h x y os t1 hxy hr
    have : x = [] := by
      cases x with
      | nil => rfl
      | cons _ _ => cases hxy
    subst this
    simp only [runOps, Prod.mk.injEq, Res.ok.injEq] at hr
    obtain ⟨_, rfl⟩ := hr
    simpa [oneB] using h
  | cons op tops ih =>
    intro t h x y os t1 hxy hr
    simp only [oneB, Bool.and_eq_true, decide_eq_true_eq] at h
    cases x with
    | nil =>
      simp only [runOps, Prod.mk.injEq, Res.ok.injEq] at hr
      obtain ⟨_, rfl⟩ := hr
      exact h.1
    | cons op' x =>
      simp only [List.cons_append, List.cons.injEq] at hxy
      obtain ⟨rfl, hxy⟩ := hxy
      simp only [runOps] at hr
      rcases hs : tstep cfg t op with ⟨t', o⟩ | _ | _ <;> rw [hs] at hr h <;> simp only [Prod.mk.injEq, reduceCtorEq, and_false] at hr
      exact ih h.2 x y (runOps (tstep cfg) t' x).1 t1 hxy (by rw [← hr.2])

/-- C103: the hypotheses of the partial theorem are met by a history that allocates and recycles. -/
example : ∃ os t p, TRun cfg slots hdr tr4 os t ∧ OneAtATime cfg 0 ⟨initW cfg slots hdr, []⟩ tr4 ∧ (Obs.pools t.w)[0]? = some p ∧
    unrecorded t 0 = 0 ∧ returning t.w 0 = 0 ∧ p.nblocks - p.nfree = 1 ∧ shownUsed 0 (records os) 0 = 1 := by
  obtain ⟨os, t, h, hg⟩ := tmk (tops := tr4) (by decide +kernel) (by decide +kernel)
  have h1 : ((go tr4).map fun r => (unrecorded r.2 0, returning r.2.w 0, ((Obs.pools r.2.w)[0]?.map fun p => (p.nblocks, p.nfree)),
      shownUsed 0 (records r.1) 0)) = some (0, 0, some (4, 3), 1) := by decide +kernel
  rw [hg] at h1
  simp only [Option.map_some, Option.some.injEq, Prod.mk.injEq, Option.map_eq_some_iff] at h1
  obtain ⟨k1, k2, ⟨p, k3, k4, k5⟩, k6⟩ := h1
  exact ⟨os, t, p, h, oneB_ok (by decide +kernel), k3, k1, k2, by omega, k6⟩

/-- A concrete further step. -/
theorem tnext {tops : List TOp} {top : TOp} (h1 : (res (opsOf (tops ++ [top]))).isSome = true) (h0 : (res (opsOf tops)).isSome = true)
    (h2 : (go (tops ++ [top])).isSome = true) : ∃ os t o rs t', TNext cfg slots hdr tops os t top o rs t' ∧ go tops = some (os, t) := by
  have h3 : (go tops).isSome = true := by
    unfold go at h2 ⊢
    rcases hx : runOps (tstep cfg) ⟨initW cfg slots hdr, []⟩ tops with ⟨os, s⟩
    cases s with
    | ok t => rfl
    | assert =>
      have := runOps_snoc (tstep cfg) ⟨initW cfg slots hdr, []⟩ tops top
      rw [hx] at this
      rcases hy : runOps (tstep cfg) ⟨initW cfg slots hdr, []⟩ (tops ++ [top]) with ⟨os', s'⟩
      rw [hy] at this h2
      simp only at this
      subst this
      cases h2
    | ub =>
      have := runOps_snoc (tstep cfg) ⟨initW cfg slots hdr, []⟩ tops top
      rw [hx] at this
      rcases hy : runOps (tstep cfg) ⟨initW cfg slots hdr, []⟩ (tops ++ [top]) with ⟨os', s'⟩
      rw [hy] at this h2
      simp only at this
      subst this
      cases h2
  obtain ⟨os, t, h, hg⟩ := tmk h0 h3
  obtain ⟨os', t'', h', _⟩ := tmk h1 h2
  have := runOps_snoc (tstep cfg) ⟨initW cfg slots hdr, []⟩ tops top
  rw [h.run, h'.run] at this
  simp only at this
  rcases hs : tstep cfg t top with ⟨t', o, rs⟩ | _ | _ <;> rw [hs] at this <;> simp only [Res.map', reduceCtorEq] at this
  exact ⟨os, t, o, rs, t', ⟨h, h'.legal, hs⟩, hg⟩

/-- C104 (posts): an urgent post while a fetch is not yet recorded. -/
example : ∃ os t o rs t', TNext cfg slots hdr (tr2 ++ acts [.done, .resume 0, .resume 0]) os t (.act (if true then .postLifo 1 1016 else .postFifo 1 1016)) o rs t' := by
  obtain ⟨os, t, o, rs, t', h, _⟩ := tnext (tops := tr2 ++ acts [.done, .resume 0, .resume 0]) (top := .act (.postLifo 1 1016)) (by decide +kernel) (by decide +kernel) (by decide +kernel)
  exact ⟨os, t, o, rs, t', h⟩

/-- C104 (fetches), C103 (exact). -/
example : ∃ os t o rs t', TNext cfg slots hdr tr1 os t (.emit 0) o rs t' ∧ t.pend[0]? = some (.get 0 1000) := by
  obtain ⟨os, t, o, rs, t', h, hg⟩ := tnext (tops := tr1) (top := .emit 0) (by decide +kernel) (by decide +kernel) (by decide +kernel)
  refine ⟨os, t, o, rs, t', h, ?_⟩
  have : ((go tr1).map fun r => r.2.pend) = some [.get 0 1000] := by decide +kernel
  rw [hg] at this
  simp only [Option.map_some, Option.some.injEq] at this
  rw [this]; rfl

/-- C104 (publish): two receivers. -/
example : ∃ os t o rs t', TNext cfg slots hdr (acts (setup ++ [.alloc 10 5]) ++ [.emit 0]) os t (.act (.publish 0 1000 none)) o rs t' ∧
    receivers cfg (opsOf (acts (setup ++ [.alloc 10 5]) ++ [.emit 0])) 0 none = [1, 3] := by
  obtain ⟨os, t, o, rs, t', h, _⟩ := tnext (tops := acts (setup ++ [.alloc 10 5]) ++ [.emit 0]) (top := .act (.publish 0 1000 none))
    (by decide +kernel) (by decide +kernel) (by decide +kernel)
  exact ⟨os, t, o, rs, t', h, by decide +kernel⟩

example : recs (acts (setup ++ [.alloc 10 5]) ++ [.emit 0] ++ acts [.publish 0 1000 none]) =
    [.reg 0 3, .reg 1 1, .ae 10 5 0 0 1, .fifo 1 5 1 2 1 2, .fifo 0 5 1 3 1 1] := by decide +kernel

/-- C104 (collector): the last reference. -/
example : ∃ os t o rs t', TNext cfg slots hdr (acts (setup ++ [.alloc 10 5]) ++ [.emit 0] ++ acts [.reserve 1000, .gc 1000, .resume 0]) os t
    (.act (.resume 0)) o rs t' ∧ t.w.conts[0]? = some (.gc2 1000) := by
  obtain ⟨os, t, o, rs, t', h, hg⟩ := tnext (tops := acts (setup ++ [.alloc 10 5]) ++ [.emit 0] ++ acts [.reserve 1000, .gc 1000, .resume 0])
    (top := .act (.resume 0)) (by decide +kernel) (by decide +kernel) (by decide +kernel)
  refine ⟨os, t, o, rs, t', h, ?_⟩
  have : ((go (acts (setup ++ [.alloc 10 5]) ++ [.emit 0] ++ acts [.reserve 1000, .gc 1000, .resume 0])).map fun r => r.2.w.conts) =
      some [.gc2 1000] := by decide +kernel
  rw [hg] at this
  simp only [Option.map_some, Option.some.injEq] at this
  rw [this]; rfl

end Verif.Fwk.Trace
