import Verif.Queue.Lemmas
/-
Property theorems for the event queue (C01-C05).
-/
namespace Verif.Queue
open Verif

/-- A queue reached from initialisation by a sequence of API calls that did not halt. -/
def Reached (c : Cfg) (sma : Bool) (mem : List Ptr) (cap : Nat) (ops : List Op) (q : Queue) : Prop :=
  (runOps (step c) (init mem cap sma) ops).2 = .ok q

/-- Standing assumptions: the storage really has `cap` places, `cap` is representable in `RKH_QUENE_T`, and
either assertions are compiled in or the queue is not an active object's queue (without assertions, a get
from an empty active-object queue is not guarded at all: see `get_empty_ao_without_assertions_underflows`). -/
structure Setup (c : Cfg) (sma : Bool) (mem : List Ptr) (cap : Nat) : Prop where
  room : cap ≤ mem.length
  width : cap < c.W
  guarded : c.assertEn = true ∨ sma = false

/-- The same, as a decidable check, for the examples. -/
theorem Setup.of (c : Cfg) (sma : Bool) (mem : List Ptr) (cap : Nat)
    (h : cap ≤ mem.length ∧ cap < c.W ∧ (c.assertEn = true ∨ sma = false)) : Setup c sma mem cap :=
  ⟨h.1, h.2.1, h.2.2⟩

/-- A concrete configuration used by the examples: 8-bit counts, assertions on. -/
def cfg8 : Cfg := ⟨true, 256⟩

/-- A history that wraps the ring on both sides. -/
def demoOps : List Op :=
  [.putFifo 11, .putFifo 12, .get, .putLifo 13, .putFifo 14, .getNum, .isFull, .get, .get, .get, .get, .getLwm, .getInfo]

/-! ### C01 -/

/-- **C01.** For every capacity, storage contents and history of calls, an RKH queue returns, call by call, exactly what
the bounded sequence of `Queue.Spec` returns, and the run ends the same way (still running, or halted by an
assertion at the same call). -/
theorem queue_refines_sequence (c : Cfg) (sma : Bool) (mem : List Ptr) (cap : Nat)
    (hs : Setup c sma mem cap) (ops : List Op) :
    (runOps (step c) (init mem cap sma) ops).1 =
      (runOps (Spec.step c.assertEn sma cap) (Spec.empty cap) ops).1 ∧
    FinRel (fun _ _ => True) (runOps (step c) (init mem cap sma) ops).2
      (runOps (Spec.step c.assertEn sma cap) (Spec.empty cap) ops).2 := by
  have h := runOps_sim (R := Rep c sma cap) (fun s t op hr => rep_step hs.guarded op hr) ops _ _
    (rep_init c sma cap mem hs.room hs.width)
  refine ⟨h.1, ?_⟩
  have h2 := h.2
  revert h2
  cases (runOps (step c) (init mem cap sma) ops).2 <;>
    cases (runOps (Spec.step c.assertEn sma cap) (Spec.empty cap) ops).2 <;> simp [FinRel]

/-- C01 is about real runs: a capacity-3 queue over dirty storage, wrapping on both ends. -/
example : Setup cfg8 false [7, 7, 7, 7] 3 ∧
    (runOps (step cfg8) (init [7, 7, 7, 7] 3 false) demoOps).1 =
      [.unit, .unit, .ptr 11, .unit, .unit, .num 3, .bool true, .ptr 13, .ptr 12, .ptr 14, .ptr 0, .num 0,
       .info ⟨4, 4, 0, 1, 0⟩] := ⟨Setup.of _ _ _ _ (by decide), by decide⟩

/-! ### Reachable queues represent some abstract queue -/

theorem reached_rep {c : Cfg} {sma : Bool} {mem : List Ptr} {cap : Nat} {ops : List Op} {q : Queue}
    (hs : Setup c sma mem cap) (hr : Reached c sma mem cap ops q) :
    ∃ a, (runOps (Spec.step c.assertEn sma cap) (Spec.empty cap) ops).2 = .ok a ∧ Rep c sma cap q a := by
  have h := (runOps_sim (R := Rep c sma cap) (fun s t op hr => rep_step hs.guarded op hr) ops _ _
    (rep_init c sma cap mem hs.room hs.width)).2
  unfold Reached at hr
  rw [hr] at h
  revert h
  cases (runOps (Spec.step c.assertEn sma cap) (Spec.empty cap) ops).2 with
  | ok a => intro h; exact ⟨a, rfl, h⟩
  | assert => intro h; exact h.elim
  | ub => intro h; exact h.elim

/-- A call never changes cells of the supplied array beyond the queue's capacity. -/
theorem step_frame {c : Cfg} {sma : Bool} {cap : Nat} {q q' : Queue} {a : Spec.Abs} {op : Op} {o : Out}
    (h : Rep c sma cap q a) (hop : step c q op = .ok (q', o)) : q'.mem.drop cap = q.mem.drop cap := by
  have hset : ∀ i v, i < cap → (q.mem.set i v).drop cap = q.mem.drop cap := by
    intro i v hi
    rw [List.drop_set]
    simp [hi]
  have hle := h.le
  have hq := h.qty
  have hn := h.nel
  cases op with
  | putFifo e =>
    simp only [step, putFifo, Res.map'_eq_ok, Res.bind_eq_ok] at hop
    obtain ⟨r, ⟨_, _, _, _, hop⟩, hr⟩ := hop
    split at hop
    · simp only [Res.pure_eq, Res.ok.injEq] at hop
      subst hop
      simp only [Prod.mk.injEq] at hr
      rw [← hr.1]
    · have hpo : q.pout < cap := by rcases h.pout with h1 | h1 <;> omega
      have hpin : q.pin < cap := by rw [h.pin]; exact idx_lt hpo (by omega)
      simp only [Res.bind_eq_ok, wr] at hop
      obtain ⟨m, hm, hop⟩ := hop
      split at hm <;> simp only [Res.ok.injEq, reduceCtorEq] at hm
      simp only [Res.pure_eq, Res.ok.injEq] at hop
      subst hop
      simp only [Prod.mk.injEq] at hr
      rw [← hr.1, ← hm]
      exact hset _ _ hpin
  | putLifo e =>
    simp only [step, putLifo, Res.map'_eq_ok, Res.bind_eq_ok] at hop
    obtain ⟨r, ⟨_, _, _, _, hop⟩, hr⟩ := hop
    split at hop
    · simp only [Res.pure_eq, Res.ok.injEq] at hop
      subst hop
      simp only [Prod.mk.injEq] at hr
      rw [← hr.1]
    · have hpo : q.pout < cap := by rcases h.pout with h1 | h1 <;> omega
      have hpe := h.pend
      generalize hpo' : (if (q.pout == 0) = true then q.pend else q.pout) = po at hop
      have hpoV : po = if q.pout = 0 then cap else q.pout := by rw [← hpo', hpe]; simp
      have hpoc : po ≤ cap := by rw [hpoV]; split <;> omega
      split at hop
      · simp at hop
      rename_i hne
      simp only [beq_iff_eq] at hne
      simp only [Res.bind_eq_ok, wr] at hop
      obtain ⟨m, hm, hop⟩ := hop
      split at hm <;> simp only [Res.ok.injEq, reduceCtorEq] at hm
      simp only [Res.pure_eq, Res.ok.injEq] at hop
      subst hop
      simp only [Prod.mk.injEq] at hr
      rw [← hr.1, ← hm]
      exact hset _ _ (by omega)
  | get =>
    simp only [step, get, Res.map'_eq_ok, Res.bind_eq_ok] at hop
    obtain ⟨r, ⟨_, _, hop⟩, hr⟩ := hop
    split at hop
    · simp only [Res.pure_eq, Res.ok.injEq] at hop
      subst hop
      simp only [Prod.mk.injEq] at hr
      rw [← hr.1]
    · simp only [Res.bind_eq_ok] at hop
      obtain ⟨_, _, hop⟩ := hop
      simp only [Res.pure_eq, Res.ok.injEq] at hop
      subst hop
      simp only [Prod.mk.injEq] at hr
      rw [← hr.1]
  | deplete =>
    simp only [step, deplete, Res.ok.injEq, Prod.mk.injEq] at hop
    rw [← hop.1]
  | read =>
    simp only [step, read, Res.map'_eq_ok, Res.bind_eq_ok] at hop
    obtain ⟨r, ⟨_, _, hop⟩, hr⟩ := hop
    split at hop
    · simp only [Res.pure_eq, Res.ok.injEq] at hop
      subst hop
      simp only [Prod.mk.injEq] at hr
      rw [← hr.1]
    · simp only [Res.bind_eq_ok] at hop
      obtain ⟨_, _, hop⟩ := hop
      simp only [Res.pure_eq, Res.ok.injEq] at hop
      subst hop
      simp only [Prod.mk.injEq] at hr
      rw [← hr.1]
  | isFull | getNum | getLwm | getInfo =>
    simp only [step, Res.ok.injEq, Prod.mk.injEq] at hop
    rw [← hop.1]
  | clearInfo =>
    simp only [step, clearInfo, Res.ok.injEq, Prod.mk.injEq] at hop
    rw [← hop.1]

/-! ### C02 -/

/-- **C02 (bound).** However the queue was used, it never holds more elements than its capacity. -/
theorem queue_never_exceeds_capacity {c : Cfg} {sma : Bool} {mem : List Ptr} {cap : Nat} {ops : List Op} {q : Queue}
    (hs : Setup c sma mem cap) (hr : Reached c sma mem cap ops q) : getNum q ≤ cap := by
  obtain ⟨a, _, h⟩ := reached_rep hs hr
  simp only [getNum, h.qty]
  exact h.le

/-- **C02 (no stray access).** No history makes the queue touch memory outside the supplied array, and
the part of the array beyond the capacity given at initialisation keeps its contents. -/
theorem queue_stays_in_storage {c : Cfg} {sma : Bool} {mem : List Ptr} {cap : Nat} (hs : Setup c sma mem cap) (ops : List Op) :
    (runOps (step c) (init mem cap sma) ops).2 ≠ .ub ∧
    ∀ q, Reached c sma mem cap ops q → q.mem.drop cap = mem.drop cap := by
  constructor
  · have h := (runOps_sim (R := Rep c sma cap) (fun s t op hr => rep_step hs.guarded op hr) ops _ _
      (rep_init c sma cap mem hs.room hs.width)).2
    intro hub
    rw [hub] at h
    have hsp : ∀ (os : List Op) (a : Spec.Abs), (runOps (Spec.step c.assertEn sma cap) a os).2 ≠ .ub := by
      intro os
      induction os with
      | nil => intro a; simp [runOps]
      | cons op os ih =>
        intro a
        simp only [runOps]
        have : Spec.step c.assertEn sma cap a op ≠ .ub := by
          cases op <;> simp only [Spec.step, Spec.put] <;> (repeat' split) <;> simp
        split
        · exact ih _
        · simp
        · contradiction
    revert h
    cases hx : (runOps (Spec.step c.assertEn sma cap) (Spec.empty cap) ops).2 with
    | ok a => intro h; exact h
    | assert => intro h; exact h
    | ub => exact fun _ => hsp _ _ hx
  · intro q hr
    have hinv := runOps_inv (f := step c) (I := fun s => (∃ a, Rep c sma cap s a) ∧ s.mem.drop cap = mem.drop cap)
      (fun s op s' o hI hst => ?_) ops (init mem cap sma) q ⟨⟨_, rep_init c sma cap mem hs.room hs.width⟩, rfl⟩ hr
    · exact hinv.2
    · obtain ⟨⟨a, ha⟩, hm⟩ := hI
      refine ⟨?_, by rw [step_frame ha hst, hm]⟩
      have := rep_step hs.guarded op ha
      rw [hst] at this
      revert this
      cases Spec.step c.assertEn sma cap a op with
      | ok p => intro h; exact ⟨p.1, h.1⟩
      | assert => intro h; exact h.elim
      | ub => intro h; exact h.elim

/-- **C02 (full queue rejects).** A put of a non-NULL element into a full queue, FIFO or LIFO, halts with an assertion
when assertions are compiled in; when they are compiled out, nothing changes except that the `nfull` counter goes up. -/
theorem queue_full_put_rejected {c : Cfg} {sma : Bool} {mem : List Ptr} {cap : Nat} {ops : List Op} {q : Queue}
    (hs : Setup c sma mem cap) (hr : Reached c sma mem cap ops q) (hfull : getNum q = cap) (e : Ptr) (he : e ≠ 0) :
    (c.assertEn = true → putFifo c q e = .assert ∧ putLifo c q e = .assert) ∧
    (c.assertEn = false →
      putFifo c q e = .ok ({ q with info := { q.info with nfull := q.info.nfull + 1 } }, .none) ∧
      putLifo c q e = .ok ({ q with info := { q.info with nfull := q.info.nfull + 1 } }, .none)) := by
  obtain ⟨a, _, h⟩ := reached_rep hs hr
  have hn := h.nel
  simp only [getNum] at hfull
  have h1 : (e != 0) = true := by simpa using he
  have h2 : decide (q.qty < q.nelems) = false := by simp; omega
  have h3 : q.qty ≥ q.nelems := by omega
  constructor <;> intro hc <;> simp [putFifo, putLifo, h1, h2, hc, h3]

/-- **C02 (room means success).** A put of a non-NULL element into a queue that is not full never halts and stores exactly
one more element. -/
theorem queue_put_with_room_succeeds {c : Cfg} {sma : Bool} {mem : List Ptr} {cap : Nat} {ops : List Op} {q : Queue}
    (hs : Setup c sma mem cap) (hr : Reached c sma mem cap ops q) (hroom : getNum q < cap) (e : Ptr) (he : e ≠ 0) :
    (∃ q' s, putFifo c q e = .ok (q', s) ∧ getNum q' = getNum q + 1) ∧
    (∃ q' s, putLifo c q e = .ok (q', s) ∧ getNum q' = getNum q + 1) := by
  obtain ⟨a, _, h⟩ := reached_rep hs hr
  have hq := h.qty
  simp only [getNum] at hroom
  have hlen : a.items.length ≠ cap := by omega
  constructor
  · have h1 := rep_putFifo h e
    simp only [step, Spec.step, Spec.put, hlen, beq_iff_eq, he, if_false, Bool.and_eq_true, Bool.or_eq_true,
      and_false, or_self] at h1
    rcases hx : putFifo c q e with ⟨q', s⟩ | _ | _ <;> rw [hx] at h1 <;> simp only [Res.map', StepRel] at h1
    refine ⟨q', s, rfl, ?_⟩
    have := h1.1.qty
    simp [Spec.store] at this
    simp [getNum, this, hq]
  · have h1 := rep_putLifo h e
    simp only [step, Spec.step, Spec.put, hlen, beq_iff_eq, he, if_false, Bool.and_eq_true, Bool.or_eq_true,
      and_false, or_self] at h1
    rcases hx : putLifo c q e with ⟨q', s⟩ | _ | _ <;> rw [hx] at h1 <;> simp only [Res.map', StepRel] at h1
    refine ⟨q', s, rfl, ?_⟩
    have := h1.1.qty
    simp [Spec.store] at this
    simp [getNum, this, hq]

/-- Hypotheses of the C02 theorems are met: a full queue reached by a wrap-around history, and one with room. -/
example : ∃ q, Reached cfg8 false [7, 7, 7, 7] 3 [.putFifo 1, .putFifo 2, .get, .putLifo 3, .putFifo 4] q ∧ getNum q = 3 :=
  ⟨_, rfl, rfl⟩
example : ∃ q, Reached cfg8 true [7, 7, 7, 7] 3 [.putFifo 1, .putFifo 2, .get] q ∧ getNum q < 3 := ⟨_, rfl, by decide⟩
example : (runOps (step cfg8) (init [7, 7] 2 false) [.putFifo 1, .putFifo 2, .putFifo 3, .get]).2 = .assert := by decide
example : (runOps (step ⟨false, 256⟩) (init [7, 7] 2 false) [.putFifo 1, .putFifo 2, .putFifo 3, .get, .get, .get]).1 =
    [.unit, .unit, .unit, .ptr 1, .ptr 2, .ptr 0] := by decide

/-! ### C03 -/

/-- One call updates the low watermark to the minimum of its old value and the new number of free places. -/
theorem step_lwm {c : Cfg} {sma : Bool} {cap : Nat} {q q' : Queue} {a : Spec.Abs} {op : Op} {o : Out}
    (hen : c.assertEn = true ∨ sma = false) (h : Rep c sma cap q a) (hm : a.minFree ≤ cap - a.items.length)
    (hop : step c q op = .ok (q', o)) :
    ∃ a', Rep c sma cap q' a' ∧ a'.minFree = min a.minFree (cap - a'.items.length) := by
  have h1 := rep_step hen op h
  rw [hop] at h1
  revert h1
  rcases hx : Spec.step c.assertEn sma cap a op with ⟨a', o'⟩ | _ | _
  · intro h1
    refine ⟨a', h1.1, ?_⟩
    cases op <;> simp only [Spec.step, Spec.put] at hx <;> (repeat' split at hx) <;>
      simp only [Res.ok.injEq, Prod.mk.injEq, reduceCtorEq] at hx <;> (try obtain ⟨rfl, _⟩ := hx) <;>
      (try simp only [Spec.store]) <;> (try simp_all) <;> omega
  · intro h1; exact h1.elim
  · intro h1; exact h1.elim

/-- **C03 (watermark).** After any history, `rkh_queue_get_lwm` is the minimum, over all moments of that history, of the
number of free places. -/
theorem queue_lwm_is_historical_minimum {c : Cfg} {sma : Bool} {mem : List Ptr} {cap : Nat} (hs : Setup c sma mem cap)
    (ops : List Op) (q : Queue) (hr : Reached c sma mem cap ops q) :
    (∀ k q', Reached c sma mem cap (ops.take k) q' → getLwm q ≤ cap - getNum q') ∧
    (∃ k q', Reached c sma mem cap (ops.take k) q' ∧ getLwm q = cap - getNum q') := by
  -- strengthened by reverse induction on the history
  suffices H : ∀ (n : Nat) (ops : List Op), ops.length = n → ∀ q, Reached c sma mem cap ops q →
      (∀ k q', Reached c sma mem cap (ops.take k) q' → getLwm q ≤ cap - getNum q') ∧
      (∃ k q', Reached c sma mem cap (ops.take k) q' ∧ getLwm q = cap - getNum q') from H _ ops rfl q hr
  intro n
  induction n with
  | zero =>
    intro ops hl q hq
    rw [List.length_eq_zero_iff] at hl
    subst hl
    simp only [Reached, runOps, Res.ok.injEq] at hq
    subst hq
    refine ⟨?_, 0, _, rfl, rfl⟩
    intro k q' h
    simp only [List.take_nil, Reached, runOps, Res.ok.injEq] at h
    subst h
    simp [getLwm, getNum, init]
  | succ n ih =>
    intro ops hl q hq
    obtain ⟨ops', op, rfl⟩ : ∃ o p, ops = o ++ [p] := by
      refine ⟨ops.dropLast, ops.getLast (by intro h; simp [h] at hl), ?_⟩
      exact (List.dropLast_concat_getLast _).symm
    have hl' : ops'.length = n := by simpa using hl
    have hq0 := hq
    simp only [Reached, runOps_snoc] at hq
    rcases hp : (runOps (step c) (init mem cap sma) ops').2 with q1 | _ | _ <;> rw [hp] at hq <;> simp only [reduceCtorEq] at hq
    obtain ⟨ih1, ih2⟩ := ih ops' hl' q1 hp
    obtain ⟨a, _, ha⟩ := reached_rep (q := q1) (ops := ops') hs hp
    have hself := ih1 ops'.length q1 (by rw [List.take_length]; exact hp)
    simp only [getLwm, getNum, ha.nmin, ha.qty] at hself
    rcases hst : step c q1 op with ⟨q2, o⟩ | _ | _ <;> rw [hst] at hq <;> simp only [Res.map', reduceCtorEq, Res.ok.injEq] at hq
    subst hq
    obtain ⟨a', ha', hmin⟩ := step_lwm hs.guarded ha hself hst
    have hval : getLwm q2 = min (getLwm q1) (cap - getNum q2) := by
      simp only [getLwm, getNum, ha'.nmin, ha'.qty, ha.nmin, hmin]
    constructor
    · intro k q' hk
      by_cases hkl : k ≤ ops'.length
      · rw [List.take_append_of_le_length hkl] at hk
        have := ih1 k q' hk
        omega
      · rw [List.take_of_length_le (by simp; omega)] at hk
        simp only [Reached] at hk hq0
        rw [hq0, Res.ok.injEq] at hk
        subst hk
        omega
    · by_cases hc : getLwm q1 ≤ cap - getNum q2
      · obtain ⟨k, q', hk, he⟩ := ih2
        refine ⟨min k ops'.length, q', ?_, by omega⟩
        rw [List.take_append_of_le_length (Nat.min_le_right _ _)]
        by_cases hkl : k ≤ ops'.length
        · rw [Nat.min_eq_left hkl]; exact hk
        · rw [Nat.min_eq_right (by omega), List.take_length]
          rwa [List.take_of_length_le (by omega)] at hk
      · refine ⟨ops'.length + 1, q2, ?_, by omega⟩
        rw [List.take_of_length_le (by simp)]
        exact hq0

/-- The elements a queue would deliver, front first: what repeated gets return until the queue is empty. -/
def contents (c : Cfg) : Nat → Queue → List Ptr
  | 0, _ => []
  | n + 1, q =>
    if q.qty = 0 then []
    else match get c q with
      | .ok (q', e, _) => e :: contents c n q'
      | _ => []

/-- **C03 (observers).** At any point of any history `rkh_queue_get_num` is the number of elements that repeated gets deliver
before the queue is empty, `rkh_queue_is_full` says whether that number is the capacity. -/
theorem queue_observers_exact {c : Cfg} {sma : Bool} {mem : List Ptr} {cap : Nat} (hs : Setup c sma mem cap)
    (ops : List Op) (q : Queue) (hr : Reached c sma mem cap ops q) (n : Nat) (hn : cap ≤ n) :
    getNum q = (contents c n q).length ∧ (isFull q = true ↔ (contents c n q).length = cap) := by
  obtain ⟨a, _, ha⟩ := reached_rep hs hr
  have key : ∀ (n : Nat) (q : Queue) (a : Spec.Abs), Rep c sma cap q a → a.items.length ≤ n → contents c n q = a.items := by
    intro n
    induction n with
    | zero =>
      intro q a ha hl
      have : a.items = [] := List.eq_nil_of_length_eq_zero (by omega)
      simp [contents, this]
    | succ n ih =>
      intro q a ha hl
      have hq := ha.qty
      have hg := rep_get ha hs.guarded
      rcases hi : a.items with _ | ⟨e, rest⟩
      · rw [hi] at hq
        simp only [List.length_nil] at hq
        simp [contents, hq]
      · rw [hi] at hq hl
        simp only [List.length_cons] at hq hl
        simp only [step, Spec.step, hi] at hg
        rcases hx : get c q with ⟨q', e', s⟩ | _ | _ <;> rw [hx] at hg <;> simp only [Res.map', StepRel, Out.ptr.injEq] at hg
        obtain ⟨h1, rfl⟩ := hg
        simp only [contents, show ¬ q.qty = 0 by omega, if_false, hx]
        rw [ih q' _ h1 (by simpa using by omega)]
  have hk := key n q a ha (by have := ha.le; omega)
  rw [hk]
  refine ⟨by simp only [getNum, ha.qty], ?_⟩
  simp [isFull, ha.qty, ha.nel]

example : ∃ q, Reached cfg8 false [7, 7, 7] 3 [.putFifo 1, .putFifo 2, .get, .get, .putFifo 3] q ∧
    getLwm q = 1 ∧ getNum q = 1 ∧ contents cfg8 3 q = [3] := ⟨_, rfl, by decide, by decide, by decide⟩

/-! ### C04 -/

/-- What the documentation promises of a successful read: the caller's buffer then holds the front element. -/
def DeliversFront (c : Cfg) (q : Queue) (pe : Ptr) (cm : Ptr → Ptr) : Prop :=
  ∀ q' cm', read c q pe cm = .ok (q', true, cm') → ∃ e, (contents c q.qty q).head? = some e ∧ cm' pe = e

/-- **C04, negation.** `rkh_queue_read` does not deliver: there is a reachable non-empty queue and a caller buffer for
which a successful read leaves the buffer without the front element. -/
theorem queue_read_does_not_deliver :
    ¬ (∀ (c : Cfg) (sma : Bool) (mem : List Ptr) (cap : Nat) (ops : List Op) (q : Queue) (pe : Ptr) (cm : Ptr → Ptr),
        Setup c sma mem cap → Reached c sma mem cap ops q → pe ≠ 0 → DeliversFront c q pe cm) := by
  intro h
  have h1 := h cfg8 false [7] 1 [.putFifo 5] _ 1 (fun _ => 0) (Setup.of _ _ _ _ (by decide)) rfl (by decide)
  obtain ⟨e, he, h2⟩ := h1 _ _ rfl
  simp [contents, step, get, rd, init, cfg8, putFifo, wr, assertIf, newMin] at he
  subst he
  simp at h2

/-- **C04, partial.** What does hold of `rkh_queue_read`, in every reachable state and for every caller buffer: it returns RKH_QUE_OK
exactly when the queue is not empty, it never changes the stored elements, and it never writes the
caller's memory. Missing from the full statement: delivery of the element, which the code does not do. -/
theorem queue_read_partial {c : Cfg} {sma : Bool} {mem : List Ptr} {cap : Nat} {ops : List Op} {q : Queue}
    (hs : Setup c sma mem cap) (hr : Reached c sma mem cap ops q) (pe : Ptr) (hpe : pe ≠ 0) (cm : Ptr → Ptr) :
    ∃ q' ok, read c q pe cm = .ok (q', ok, cm) ∧ (ok = true ↔ getNum q ≠ 0) ∧
      q'.mem = q.mem ∧ getNum q' = getNum q ∧ ∀ n, contents c n q' = contents c n q := by
  obtain ⟨a, _, ha⟩ := reached_rep hs hr
  have hinfo : ∀ (n : Nat) (q : Queue) (i : Info), contents c n { q with info := i } = contents c n q := by
    intro n
    induction n with
    | zero => intros; rfl
    | succ n ih =>
      intro q i
      simp only [contents]
      by_cases hz : q.qty = 0
      · simp [hz]
      · simp only [hz, if_false, get]
        have hz' : (q.qty == 0) = false := by simpa using hz
        have hz2 : (q.qty != 0) = true := by simpa using hz
        simp only [hz', hz2, assertIf_true, Res.bind_ok, Bool.and_false, Bool.false_eq_true, if_false]
        rcases rd q.mem q.pout with e | _ | _ <;> simp only [Res.bind_ok, Res.bind_assert, Res.bind_ub, Res.pure_eq]
        congr 1
        have := ih { q with pout := if (q.pout + 1 == q.pend) = true then 0 else q.pout + 1, qty := (q.qty + (c.W - 1)) % c.W } { i with ngets := i.ngets + 1 }
        have h2 := ih { q with pout := if (q.pout + 1 == q.pend) = true then 0 else q.pout + 1, qty := (q.qty + (c.W - 1)) % c.W } { q.info with ngets := q.info.ngets + 1 }
        exact this.trans h2.symm
  have hp : (pe != 0) = true := by simpa using hpe
  by_cases hz : q.qty = 0
  · have hz' : (q.qty == 0) = true := by simpa using hz
    refine ⟨{ q with info := { q.info with nempty := q.info.nempty + 1 } }, false,
      by simp only [read, hp, assertIf_true, Res.bind_ok, hz', if_true, Res.pure_eq], ?_, rfl, rfl, ?_⟩
    · simp [getNum, hz]
    · intro n; exact hinfo n q _
  · have hz' : (q.qty == 0) = false := by simpa using hz
    have hq := ha.qty
    have hle := ha.le
    have hpo : q.pout < cap := by rcases ha.pout with h1 | h1 <;> omega
    have hml := ha.memLen
    have hget : rd q.mem q.pout = .ok q.mem[q.pout] := by
      simp [rd, List.getElem?_eq_getElem (show q.pout < q.mem.length by omega)]
    refine ⟨{ q with info := { q.info with nreads := q.info.nreads + 1 } }, true,
      by simp only [read, hp, assertIf_true, Res.bind_ok, hz', Bool.false_eq_true, if_false, hget, Res.pure_eq],
      ?_, rfl, rfl, ?_⟩
    · simp [getNum, hz]
    · intro n; exact hinfo n q _

example : ∃ q, Reached cfg8 false [7, 7] 2 [.putFifo 1, .putFifo 2] q ∧ getNum q ≠ 0 := ⟨_, rfl, by decide⟩

/-! ### C05 -/

/-- **C05.** After any history the counters a client reads are, modulo 2^16, the numbers of successful puts, successful
gets, successful reads, empty retrievals and rejected puts since the last clear (the counts kept, unbounded, by the specification run). -/
theorem queue_counters_exact {c : Cfg} {sma : Bool} {mem : List Ptr} {cap : Nat} {ops : List Op} {q : Queue}
    (hs : Setup c sma mem cap) (hr : Reached c sma mem cap ops q) :
    ∃ a, (runOps (Spec.step c.assertEn sma cap) (Spec.empty cap) ops).2 = .ok a ∧
      q.info.nputs.toNat = a.puts % 65536 ∧ q.info.ngets.toNat = a.gets % 65536 ∧
      q.info.nreads.toNat = a.reads % 65536 ∧ q.info.nempty.toNat = a.empties % 65536 ∧
      q.info.nfull.toNat = a.fulls % 65536 := by
  obtain ⟨a, h1, ha⟩ := reached_rep hs hr
  refine ⟨a, h1, ?_⟩
  rw [ha.info]
  simp [Spec.counters]

/-- Is this call a put / a retrieval attempt? -/
def Op.isPut : Op → Bool
  | .putFifo _ => true
  | .putLifo _ => true
  | _ => false
def Op.isRetrieval : Op → Bool
  | .get => true
  | .read => true
  | _ => false

/-- **C05 (totals).** In a history without a clear, every put is counted exactly once (as done or as rejected), every
get or read exactly once (as done or as empty), modulo 2^16. -/
theorem queue_counters_total {c : Cfg} {sma : Bool} {mem : List Ptr} {cap : Nat} {ops : List Op} {q : Queue}
    (hs : Setup c sma mem cap) (hr : Reached c sma mem cap ops q) (hnc : Op.clearInfo ∉ ops) :
    q.info.nputs + q.info.nfull = BitVec.ofNat 16 (ops.countP Op.isPut) ∧
    q.info.ngets + q.info.nreads + q.info.nempty = BitVec.ofNat 16 (ops.countP Op.isRetrieval) := by
  obtain ⟨a, h1, ha⟩ := reached_rep hs hr
  have key : ∀ (ops : List Op) (a0 a : Spec.Abs), Op.clearInfo ∉ ops →
      (runOps (Spec.step c.assertEn sma cap) a0 ops).2 = .ok a →
      a.puts + a.fulls = a0.puts + a0.fulls + ops.countP Op.isPut ∧
      a.gets + a.reads + a.empties = a0.gets + a0.reads + a0.empties + ops.countP Op.isRetrieval := by
    intro ops
    induction ops with
    | nil => intro a0 a _ h; simp only [runOps, Res.ok.injEq] at h; subst h; simp
    | cons op ops ih =>
      intro a0 a hn h
      simp only [List.mem_cons, not_or] at hn
      simp only [runOps] at h
      rcases hx : Spec.step c.assertEn sma cap a0 op with ⟨a1, o⟩ | _ | _ <;> rw [hx] at h <;> simp only [reduceCtorEq] at h
      have := ih a1 a hn.2 h
      cases op <;> simp only [Spec.step, Spec.put] at hx <;> (repeat' split at hx) <;>
        simp only [Res.ok.injEq, Prod.mk.injEq, reduceCtorEq] at hx <;> (try obtain ⟨rfl, _⟩ := hx) <;>
        simp only [List.countP_cons, Op.isPut, Op.isRetrieval, Spec.store, Bool.false_eq_true, if_true, if_false] at * <;>
        first | omega | (simp at hn)
  obtain ⟨k1, k2⟩ := key ops _ a hnc h1
  simp only [Spec.empty] at k1 k2
  rw [ha.info]
  simp only [Spec.counters, ← BitVec.ofNat_add]
  rw [k1, k2]
  simp

example : ∃ q, Reached cfg8 false [7, 7] 2 [.putFifo 1, .get, .get, .read, .putFifo 2, .putLifo 3, .read] q ∧
    q.info = ⟨3, 1, 1, 2, 0⟩ := ⟨_, rfl, by decide⟩

/-- Why `Setup.guarded` is needed: with assertions compiled out, getting from an empty active-object queue is not
stopped; the element count wraps to the top of its type. -/
theorem get_empty_ao_without_assertions_underflows :
    ∃ q' e s, get ⟨false, 256⟩ (init [7, 7] 2 true) = .ok (q', e, s) ∧ getNum q' = 255 :=
  ⟨_, _, _, rfl, rfl⟩

end Verif.Queue
