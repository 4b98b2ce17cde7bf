import Verif.Queue.Props
/-
Interrupts in the middle of a put: statement-level model of `rkh_queue_put_fifo` and `rkh_queue_put_lifo`.

Every other queue call does its work between RKH_ENTER_CRITICAL_ and RKH_EXIT_CRITICAL_. In the two puts those lines
are commented out (rkhqueue.c:222, 229, 253 and 264, 271, 297), so an interrupt handler may run between any two memory accesses
of a put, unless the caller masked interrupts itself, which is what the framework's own callers do
(rkhsma.c `rkh_sma_post_fifo`, `rkh_sma_post_lifo`, `rkh_sma_defer`).

A C statement is split into the loads and stores a processor with one-word memory accesses performs. The order
inside `*q->pin++ = pe` is not fixed by C; the model advances the pointer first. The ready state of an owning active
object is not part of this model (queues without owner, `q->sma == NULL`, have none); neither are trace calls.
-/
namespace Verif.Queue
open Verif

/-- Which of the two puts is being executed. -/
inductive Kind where
  | fifo
  | lifo
  deriving DecidableEq, Repr

/-- Where a put is: the next memory access, with the words already loaded into registers.
Line numbers: fifo / lifo. -/
inductive Pc where
  /-- the assertions, 221-223 / 263-265 -/
  | check
  /-- `if (q->qty >= q->nelems)`, 225 / 267 -/
  | test
  /-- `++nfull`: load, 227 / 269 -/
  | full1
  /-- `++nfull`: store -/
  | full2 (v : BitVec 16)
  /-- `*q->pin++ = pe`: load the pointer, 233 -/
  | fPin1
  /-- store the advanced pointer -/
  | fPin2 (p : Nat)
  /-- store the element -/
  | fElem (p : Nat)
  /-- `if (q->pout == q->pstart)`, 275 -/
  | lWrap1
  /-- `q->pout = q->pend`, 277 -/
  | lWrap2
  /-- `--q->pout`: load, 280 -/
  | lDec1
  /-- `--q->pout`: store -/
  | lDec2 (p : Nat)
  /-- `*q->pout = pe`: load the pointer, 281 -/
  | lElem1
  /-- store the element -/
  | lElem2 (p : Nat)
  /-- `++q->qty`: load, 234 / 282 -/
  | cnt1
  /-- `++q->qty`: store -/
  | cnt2 (t : Nat)
  /-- `if (q->pin == q->pend)`, 236 -/
  | fWrap1
  /-- `q->pin = q->pstart`, 238 -/
  | fWrap2
  /-- `if (q->nmin > nelems - qty)`: load `nmin`, 247 / 292 -/
  | low1
  /-- load `qty` and compare -/
  | low2 (m : Nat)
  /-- `q->nmin = nelems - qty`: load `qty`, 249 / 294 -/
  | low3
  /-- store `nmin` -/
  | low4 (v : Nat)
  /-- `++nputs`: load, 252 / 284 -/
  | inf1
  /-- `++nputs`: store -/
  | inf2 (v : BitVec 16)
  /-- returned -/
  | done
  deriving DecidableEq, Repr

/-- One memory access of a put (rkhqueue.c:216-255, 257-300). -/
def micro (c : Cfg) (k : Kind) (e : Ptr) : Pc → Queue → Res (Pc × Queue)
  | .check, q => do
    assertIf c.assertEn (e != 0)
    assertIf c.assertEn (decide (q.qty < q.nelems))
    pure (.test, q)
  | .test, q =>
    if q.qty ≥ q.nelems then .ok (.full1, q)
    else .ok ((match k with | .fifo => .fPin1 | .lifo => .lWrap1), q)
  | .full1, q => .ok (.full2 q.info.nfull, q)
  | .full2 v, q => .ok (.done, { q with info := { q.info with nfull := v + 1 } })
  | .fPin1, q => .ok (.fPin2 q.pin, q)
  | .fPin2 p, q => .ok (.fElem p, { q with pin := p + 1 })
  | .fElem p, q => do
    let mem ← wr q.mem p e
    pure (.cnt1, { q with mem := mem })
  | .lWrap1, q => .ok ((if q.pout == 0 then .lWrap2 else .lDec1), q)
  | .lWrap2, q => .ok (.lDec1, { q with pout := q.pend })
  | .lDec1, q => .ok (.lDec2 q.pout, q)
  | .lDec2 p, q => if p == 0 then .ub else .ok (.lElem1, { q with pout := p - 1 })
  | .lElem1, q => .ok (.lElem2 q.pout, q)
  | .lElem2 p, q => do
    let mem ← wr q.mem p e
    pure (.cnt1, { q with mem := mem })
  | .cnt1, q => .ok (.cnt2 q.qty, q)
  | .cnt2 t, q => .ok ((match k with | .fifo => .fWrap1 | .lifo => .inf1), { q with qty := (t + 1) % c.W })
  | .fWrap1, q => .ok ((if q.pin == q.pend then .fWrap2 else .low1), q)
  | .fWrap2, q => .ok (.low1, { q with pin := 0 })
  | .low1, q => .ok (.low2 q.nmin, q)
  | .low2 m, q =>
    .ok ((if m > (q.nelems + c.W - q.qty) % c.W then .low3
          else match k with | .fifo => .inf1 | .lifo => .done), q)
  | .low3, q => .ok (.low4 ((q.nelems + c.W - q.qty) % c.W), q)
  | .low4 v, q => .ok ((match k with | .fifo => .inf1 | .lifo => .done), { q with nmin := v })
  | .inf1, q => .ok (.inf2 q.info.nputs, q)
  | .inf2 v, q =>
    .ok ((match k with | .fifo => .done | .lifo => .low1), { q with info := { q.info with nputs := v + 1 } })
  | .done, q => .ok (.done, q)

/-- A put in progress: where it is, the queue in memory, and the calls interrupt handlers made meanwhile, with
what they returned. -/
structure Conf where
  pc : Pc
  q : Queue
  log : List (Op × Out)

/-- Executions of a put with interrupts. `masked`: the caller disabled interrupts around the put, so handlers run only
once it has returned. A handler makes any queue calls; each is one step because handlers are not interrupted. -/
inductive Exec (c : Cfg) (k : Kind) (e : Ptr) (masked : Bool) : Conf → Conf → Prop where
  | refl (s : Conf) : Exec c k e masked s s
  | prog {s t : Conf} {pc : Pc} {q : Queue} : Exec c k e masked s t → t.pc ≠ .done → micro c k e t.pc t.q = .ok (pc, q) →
      Exec c k e masked s ⟨pc, q, t.log⟩
  | irq {s t : Conf} {op : Op} {q : Queue} {o : Out} : Exec c k e masked s t → (masked = false ∨ t.pc = .done) →
      step c t.q op = .ok (q, o) → Exec c k e masked s ⟨t.pc, q, t.log ++ [(op, o)]⟩

/-- A put of kind `k` as one call. -/
def Kind.op (k : Kind) (e : Ptr) : Op :=
  match k with
  | .fifo => .putFifo e
  | .lifo => .putLifo e

/-- Specification: the put acted at one instant. Some of the handlers' calls took place before it and the others after it, and every
call returned what it returns when the calls are made one after the other in that order. -/
def ActsAtOneInstant (c : Cfg) (q0 : Queue) (k : Kind) (e : Ptr) (fin : Conf) : Prop :=
  ∃ before after, fin.log = before ++ after ∧
    (runOps (step c) q0 (before.map Prod.fst ++ k.op e :: after.map Prod.fst)).1 =
      before.map Prod.snd ++ .unit :: after.map Prod.snd ∧
    ∃ q', (runOps (step c) q0 (before.map Prod.fst ++ k.op e :: after.map Prod.fst)).2 = .ok q' ∧
      ∀ ops, (runOps (step c) fin.q ops).1 = (runOps (step c) q' ops).1

/-! ### Without interrupts -/

/-- Run the remaining accesses. -/
def finish (c : Cfg) (k : Kind) (e : Ptr) : Nat → Pc → Queue → Res Queue
  | 0, _, q => .ok q
  | n + 1, pc, q =>
    match micro c k e pc q with
    | .ok (pc', q') => finish c k e n pc' q'
    | .assert => .assert
    | .ub => .ub

/-- How many accesses are left at most. -/
def rank (k : Kind) : Pc → Nat
  | .check => 22 | .test => 21 | .full1 => 2 | .full2 _ => 1
  | .fPin1 => 17 | .fPin2 _ => 16 | .fElem _ => 15
  | .lWrap1 => 20 | .lWrap2 => 19 | .lDec1 => 18 | .lDec2 _ => 17 | .lElem1 => 16 | .lElem2 _ => 15
  | .cnt1 => 14 | .cnt2 _ => 13 | .fWrap1 => 12 | .fWrap2 => 11
  | .low1 => (match k with | .fifo => 9 | .lifo => 5)
  | .low2 _ => (match k with | .fifo => 8 | .lifo => 4)
  | .low3 => (match k with | .fifo => 7 | .lifo => 3)
  | .low4 _ => (match k with | .fifo => 6 | .lifo => 2)
  | .inf1 => (match k with | .fifo => 5 | .lifo => 10)
  | .inf2 _ => (match k with | .fifo => 4 | .lifo => 9)
  | .done => 0

theorem rank_micro {c : Cfg} {k : Kind} {e : Ptr} {pc pc' : Pc} {q q' : Queue}
    (h : micro c k e pc q = .ok (pc', q')) (hd : pc ≠ .done) : rank k pc' < rank k pc := by
  revert h
  cases pc <;> cases k <;> simp only [micro, assertIf, wr] <;> (repeat' split) <;>
    simp only [Res.pure_eq, Res.bind_ok, Res.bind_assert, Res.bind_ub, Res.ok.injEq, Prod.mk.injEq, reduceCtorEq,
      false_implies] <;>
    first
    | contradiction
    | (intro h; obtain ⟨h1, _⟩ := h; subst h1; simp [rank])

theorem finish_done (c : Cfg) (k : Kind) (e : Ptr) (n : Nat) (q : Queue) : finish c k e n .done q = .ok q := by
  induction n with
  | zero => rfl
  | succ n ih => simp [finish, micro, ih]

theorem finish_enough {c : Cfg} {k : Kind} {e : Ptr} : ∀ (n m : Nat) (pc : Pc) (q : Queue), rank k pc ≤ n → rank k pc ≤ m →
    finish c k e n pc q = finish c k e m pc q := by
  intro n
  induction n with
  | zero =>
    intro m pc q h1 _
    have : pc = .done := by
      cases pc <;> simp [rank] at h1 ⊢ <;> cases k <;> simp at h1
    subst this
    rw [finish_done, finish_done]
  | succ n ih =>
    intro m pc q h1 h2
    by_cases hd : pc = .done
    · subst hd; rw [finish_done, finish_done]
    · cases m with
      | zero => cases pc <;> simp [rank] at h2 hd <;> cases k <;> simp at h2
      | succ m =>
        simp only [finish]
        rcases hm : micro c k e pc q with ⟨pc', q'⟩ | _ | _
        · have := rank_micro hm hd
          exact ih m pc' q' (by omega) (by omega)
        · rfl
        · rfl

/-- The rest of the put, from any point. -/
def rest (c : Cfg) (k : Kind) (e : Ptr) (pc : Pc) (q : Queue) : Res Queue := finish c k e 22 pc q

theorem rest_micro {c : Cfg} {k : Kind} {e : Ptr} {pc pc' : Pc} {q q' : Queue}
    (h : micro c k e pc q = .ok (pc', q')) : rest c k e pc q = rest c k e pc' q' := by
  have hr : ∀ pc, rank k pc ≤ 22 := by intro pc; cases pc <;> simp [rank] <;> cases k <;> simp
  rw [rest, rest, finish_enough 22 23 pc q (hr _) (by have := hr pc; omega)]
  simp [finish, h]

theorem rest_done (c : Cfg) (k : Kind) (e : Ptr) (q : Queue) : rest c k e .done q = .ok q := finish_done ..

/-- The memory accesses of a put, one after the other, are the put of the queue model. -/
theorem put_eq_accesses (c : Cfg) (k : Kind) (e : Ptr) (q : Queue) :
    rest c k e .check q = (step c q (k.op e)).map' Prod.fst := by
  cases k with
  | fifo =>
    simp only [Kind.op, step, putFifo, rest, finish, micro, assertIf, newMin, wr]
    by_cases h1 : (c.assertEn && !(e != 0)) = true
    · simp [h1, Res.map']
    · by_cases h2 : (c.assertEn && !decide (q.qty < q.nelems)) = true
      · simp [h1, h2, Res.map']
      · by_cases h3 : q.qty ≥ q.nelems
        · simp [h1, h2, h3, Res.map', micro]
        · by_cases h4 : q.pin < q.mem.length <;> by_cases h5 : q.pin + 1 = q.pend <;>
            by_cases h6 : q.nmin > (q.nelems + c.W - (q.qty + 1) % c.W) % c.W <;>
            simp [h1, h2, h3, h4, h5, h6, Res.map', micro, wr]
  | lifo =>
    simp only [Kind.op, step, putLifo, rest, finish, micro, assertIf, newMin, wr]
    by_cases h1 : (c.assertEn && !(e != 0)) = true
    · simp [h1, Res.map']
    · by_cases h2 : (c.assertEn && !decide (q.qty < q.nelems)) = true
      · simp [h1, h2, Res.map']
      · by_cases h3 : q.qty ≥ q.nelems
        · simp [h1, h2, h3, Res.map', micro]
        · by_cases h5 : q.pout = 0
          · by_cases h7 : q.pend = 0
            · simp [h1, h2, h3, h5, h7, Res.map', micro, wr]
            · by_cases h4 : q.pend - 1 < q.mem.length <;>
                by_cases h6 : q.nmin > (q.nelems + c.W - (q.qty + 1) % c.W) % c.W <;>
                simp [h1, h2, h3, h4, h5, h6, h7, Res.map', micro, wr]
          · by_cases h4 : q.pout - 1 < q.mem.length <;>
                by_cases h6 : q.nmin > (q.nelems + c.W - (q.qty + 1) % c.W) % c.W <;>
                simp [h1, h2, h3, h4, h5, h6, Res.map', micro, wr]

/-! ### Interrupts masked -/

theorem masked_exec {c : Cfg} {k : Kind} {e : Ptr} {s t : Conf} (h : Exec c k e true s t) (hs : s.log = []) :
    (t.pc ≠ .done → t.log = [] ∧ rest c k e s.pc s.q = rest c k e t.pc t.q) ∧
    (t.pc = .done → ∃ q1, rest c k e s.pc s.q = .ok q1 ∧
      runOps (step c) q1 (t.log.map Prod.fst) = (t.log.map Prod.snd, .ok t.q)) := by
  induction h with
  | refl =>
    refine ⟨fun _ => ⟨hs, rfl⟩, fun hd => ⟨s.q, by rw [hd, rest_done], by simp [hs, runOps]⟩⟩
  | @prog t pc q h hd hm ih =>
    obtain ⟨h1, h2⟩ := ih.1 hd
    refine ⟨fun _ => ⟨h1, h2.trans (rest_micro hm)⟩, fun hp => ⟨q, ?_, by simp [h1, runOps]⟩⟩
    simp only at hp
    rw [h2, rest_micro hm, hp, rest_done]
  | @irq t op q o h hor hst ih =>
    have hd : t.pc = .done := by rcases hor with h | h; cases h; exact h
    refine ⟨fun hn => absurd hd hn, fun _ => ?_⟩
    obtain ⟨q1, h1, h2⟩ := ih.2 hd
    refine ⟨q1, h1, ?_⟩
    have := runOps_append_ok (f := step c) (t.log.map Prod.fst) [op] q1 t.q (by rw [h2])
    simp only [List.map_append, List.map_cons, List.map_nil]
    refine Prod.ext ?_ ?_
    · rw [this.1, h2]; simp [runOps, hst]
    · rw [this.2]; simp [runOps, hst]

/-- **C100, partial.** A put made with interrupts masked acts at one instant, whatever the handlers do with the queue and
wherever inside the put they become pending: from every reachable queue, the put and the handlers' calls return
what they return one after the other. Missing from the full statement: puts made with interrupts enabled, for which
the claim is false (`unmasked_put_is_not_atomic`). -/
theorem masked_put_acts_at_one_instant_partial (c : Cfg) (k : Kind) (e : Ptr) (q0 : Queue) (fin : Conf)
    (h : Exec c k e true ⟨.check, q0, []⟩ fin) (hd : fin.pc = .done) : ActsAtOneInstant c q0 k e fin := by
  obtain ⟨q1, h1, h2⟩ := (masked_exec h rfl).2 hd
  simp only [put_eq_accesses, Res.map'_eq_ok] at h1
  obtain ⟨⟨q1', o⟩, h1, rfl⟩ := h1
  have ho : o = .unit := by
    cases k <;> simp only [Kind.op, step, Res.map'_eq_ok, Prod.mk.injEq] at h1 <;> (obtain ⟨_, _, _, h⟩ := h1; exact h.symm)
  subst ho
  refine ⟨[], fin.log, rfl, ?_, fin.q, ?_, fun _ => rfl⟩
  · simp [runOps, h1, h2]
  · simp [runOps, h1, h2]

/-! ### Interrupts enabled -/

/-- Without further interrupts a put in progress goes on to its end. -/
theorem exec_finish {c : Cfg} {k : Kind} {e : Ptr} {m : Bool} {s : Conf} : ∀ (n : Nat) (t : Conf), rank k t.pc ≤ n →
    Exec c k e m s t → ∀ q', rest c k e t.pc t.q = .ok q' → Exec c k e m s ⟨.done, q', t.log⟩ := by
  intro n
  induction n with
  | zero =>
    intro t hn h q' hr
    have hd : t.pc = .done := by
      rcases t with ⟨pc, q, l⟩
      cases pc <;> simp [rank] at hn ⊢ <;> cases k <;> simp at hn
    rw [hd, rest_done, Res.ok.injEq] at hr
    rcases t with ⟨pc, q, l⟩
    subst hr
    simp only at hd
    subst hd
    exact h
  | succ n ih =>
    intro t hn h q' hr
    by_cases hd : t.pc = .done
    · rw [hd, rest_done, Res.ok.injEq] at hr
      rcases t with ⟨pc, q, l⟩
      subst hr
      simp only at hd
      subst hd
      exact h
    · rcases hm : micro c k e t.pc t.q with ⟨pc', q''⟩ | _ | _
      · have h3 := rank_micro hm hd
        have h2 := Exec.prog h hd hm
        exact ih _ (by simp only; omega) h2 q' (by simp only; rw [← rest_micro hm]; exact hr)
      · simp [rest, finish, hm] at hr
      · simp [rest, finish, hm] at hr

/-- From the store of the count on, the number of elements is the loaded word plus one, whatever the memory says. -/
theorem rest_cnt2 (c : Cfg) (k : Kind) (e : Ptr) (t : Nat) (q : Queue) :
    ∃ q', rest c k e (.cnt2 t) q = .ok q' ∧ q'.qty = (t + 1) % c.W := by
  cases k with
  | fifo =>
    by_cases h5 : q.pin = q.pend <;> by_cases h6 : q.nmin > (q.nelems + c.W - (t + 1) % c.W) % c.W <;>
      simp [rest, finish, micro, h5, h6]
  | lifo =>
    by_cases h6 : q.nmin > (q.nelems + c.W - (t + 1) % c.W) % c.W <;> simp [rest, finish, micro, h6]

/-- The queue after a successful get. -/
def afterGet (c : Cfg) (q : Queue) : Queue :=
  { q with pout := if q.pout + 1 = q.pend then 0 else q.pout + 1,
           qty := (q.qty + (c.W - 1)) % c.W,
           info := { q.info with ngets := q.info.ngets + 1 } }

theorem step_get {c : Cfg} {q : Queue} {v : Ptr} (h0 : q.qty ≠ 0) (hv : q.mem[q.pout]? = some v) :
    step c q .get = .ok (afterGet c q, .ptr v) := by
  have h1 : (q.qty != 0) = true := by simpa using h0
  simp [step, get, rd, hv, h0, h1, Res.map', afterGet]

/-- A put into a queue with room reaches the update of the count with the old count in a register. -/
theorem exec_to_count {c : Cfg} {sma : Bool} {cap : Nat} {q0 : Queue} {a : Spec.Abs} (h : Rep c sma cap q0 a)
    (hroom : q0.qty < cap) (k : Kind) (e : Ptr) (he : e ≠ 0) :
    ∃ q1, Exec c k e false ⟨.check, q0, []⟩ ⟨.cnt2 q0.qty, q1, []⟩ ∧ q1.qty = q0.qty ∧ q1.pout < q1.mem.length ∧
      q1.sma = q0.sma := by
  have hn := h.nel
  have hpe := h.pend
  have hml := h.memLen
  have hpo : q0.pout < cap := by rcases h.pout with h1 | h1 <;> omega
  have hle := h.le
  have hq := h.qty
  have hpin : q0.pin < cap := by rw [h.pin]; exact idx_lt hpo (by omega)
  have h1 : (e != 0) = true := by simpa using he
  have h3 : ¬ q0.nelems ≤ q0.qty := by omega
  have e0 : Exec c k e false ⟨.check, q0, []⟩ ⟨.check, q0, []⟩ := .refl _
  have e1 := e0.prog (pc := .test) (q := q0) (by simp) (by simp [micro, h1, show q0.qty < q0.nelems by omega])
  cases k with
  | fifo =>
    have e2 := e1.prog (pc := .fPin1) (q := q0) (by simp) (by simp [micro, h3])
    have e3 := e2.prog (pc := .fPin2 q0.pin) (q := q0) (by simp) (by simp [micro])
    have e4 := e3.prog (pc := .fElem q0.pin) (q := { q0 with pin := q0.pin + 1 }) (by simp) (by simp [micro])
    have e5 := e4.prog (pc := .cnt1) (q := { q0 with pin := q0.pin + 1, mem := q0.mem.set q0.pin e }) (by simp)
      (by simp [micro, wr, show q0.pin < q0.mem.length by omega])
    have e6 := e5.prog (pc := .cnt2 q0.qty) (q := { q0 with pin := q0.pin + 1, mem := q0.mem.set q0.pin e }) (by simp)
      (by simp [micro])
    exact ⟨_, e6, rfl, by simp; omega, rfl⟩
  | lifo =>
    have e2 := e1.prog (pc := .lWrap1) (q := q0) (by simp) (by simp [micro, h3])
    obtain ⟨p, hp, e3⟩ : ∃ p, (0 < p ∧ p ≤ cap) ∧ Exec c .lifo e false ⟨.check, q0, []⟩ ⟨.lDec1, { q0 with pout := p }, []⟩ := by
      by_cases hz : q0.pout = 0
      · have e3 := e2.prog (pc := .lWrap2) (q := q0) (by simp) (by simp [micro, hz])
        have e4 := e3.prog (pc := .lDec1) (q := { q0 with pout := q0.pend }) (by simp) (by simp [micro])
        exact ⟨q0.pend, by omega, e4⟩
      · have e3 := e2.prog (pc := .lDec1) (q := q0) (by simp) (by simp [micro, hz])
        exact ⟨q0.pout, by omega, e3⟩
    have e4 := e3.prog (pc := .lDec2 p) (q := { q0 with pout := p }) (by simp) (by simp [micro])
    have e5 := e4.prog (pc := .lElem1) (q := { q0 with pout := p - 1 }) (by simp) (by simp [micro, show p ≠ 0 by omega])
    have e6 := e5.prog (pc := .lElem2 (p - 1)) (q := { q0 with pout := p - 1 }) (by simp) (by simp [micro])
    have e7 := e6.prog (pc := .cnt1) (q := { q0 with pout := p - 1, mem := q0.mem.set (p - 1) e }) (by simp)
      (by simp [micro, wr, show p - 1 < q0.mem.length by omega])
    have e8 := e7.prog (pc := .cnt2 q0.qty) (q := { q0 with pout := p - 1, mem := q0.mem.set (p - 1) e }) (by simp)
      (by simp [micro])
    exact ⟨_, e8, rfl, by simp; omega, rfl⟩

/-- Whatever the order, a get and a put one after the other leave a queue that held something and had room with as many
elements as before. -/
theorem get_and_put_keep_count {c : Cfg} {sma : Bool} {cap : Nat} {q0 : Queue} {a : Spec.Abs}
    (hg : c.assertEn = true ∨ sma = false) (h : Rep c sma cap q0 a)
    (h0 : 0 < q0.qty) (hroom : q0.qty < cap) (k : Kind) (e : Ptr) (q' : Queue) (ops : List Op)
    (ho : ops = [.get, k.op e] ∨ ops = [k.op e, .get]) (hr : (runOps (step c) q0 ops).2 = .ok q') : q'.qty = q0.qty := by
  have hsim := (runOps_sim (R := Rep c sma cap) (fun s t op hr => rep_step hg op hr) ops q0 a h).2
  rw [hr] at hsim
  have hq := h.qty
  rcases hi : a.items with _ | ⟨x, xs⟩
  · rw [hi] at hq; simp at hq; omega
  · rw [hi] at hq
    simp only [List.length_cons] at hq
    have c1 : ¬ xs.length = cap := by omega
    have c2 : ¬ xs.length + 1 = cap := by omega
    revert hsim
    rcases ho with rfl | rfl <;> cases k <;> cases hx : c.assertEn <;> by_cases he : e = 0 <;>
      simp [runOps, Kind.op, Spec.step, Spec.put, Spec.store, hi, he, c1, c2, FinRel] <;>
      (intro hrep; have := hrep.qty; simp at this; omega)

/-- **C100, negation, from every state that allows it.** Take any reachable queue that is neither empty nor full. A put, FIFO or LIFO, of
any element, made with interrupts enabled, can be interrupted by a handler that gets one element, so that afterwards the queue
counts one element more than it was given: no order of the two calls explains that. -/
theorem unmasked_put_is_not_atomic {c : Cfg} {sma : Bool} {mem : List Ptr} {cap : Nat} {ops : List Op} {q0 : Queue}
    (hs : Setup c sma mem cap) (hr : Reached c sma mem cap ops q0) (h0 : 0 < getNum q0) (hroom : getNum q0 < cap)
    (k : Kind) (e : Ptr) (he : e ≠ 0) :
    ∃ fin o, Exec c k e false ⟨.check, q0, []⟩ fin ∧ fin.pc = .done ∧ fin.log = [(.get, o)] ∧
      getNum fin.q = getNum q0 + 1 ∧ ¬ ActsAtOneInstant c q0 k e fin := by
  obtain ⟨a, _, h⟩ := reached_rep hs hr
  simp only [getNum] at h0 hroom
  obtain ⟨q1, e1, hq1, hp1, hs1⟩ := exec_to_count h hroom k e he
  obtain ⟨q2, x, hget⟩ : ∃ q2 x, step c q1 .get = .ok (q2, .ptr x) := by
    exact ⟨_, _, step_get (v := q1.mem[q1.pout]) (by omega) (by simp [hp1])⟩
  have e2 := e1.irq (Or.inl rfl) hget
  obtain ⟨q3, hrest, hq3⟩ := rest_cnt2 c k e q0.qty q2
  have e3 := exec_finish 22 _ (by simp [rank]) e2 q3 hrest
  have hW := h.capW
  have hcnt : q3.qty = q0.qty + 1 := by rw [hq3, Nat.mod_eq_of_lt (by omega)]
  refine ⟨_, _, e3, rfl, rfl, by simp [getNum, hcnt], ?_⟩
  rintro ⟨before, after, hl, _, q', hq', hobs⟩
  have hobs := hobs [.getNum]
  simp only [runOps, step, getNum, hcnt] at hobs
  have hord : before.map Prod.fst ++ k.op e :: after.map Prod.fst = [.get, k.op e] ∨
      before.map Prod.fst ++ k.op e :: after.map Prod.fst = [k.op e, .get] := by
    simp only [List.nil_append] at hl
    rcases before with _ | ⟨b, bs⟩
    · simp only [List.nil_append] at hl; subst hl; right; rfl
    · simp only [List.cons_append, List.cons.injEq] at hl
      obtain ⟨rfl, hl⟩ := hl
      have := List.append_eq_nil_iff.mp hl.symm
      left; simp [this.1, this.2]
  have := get_and_put_keep_count hs.guarded h h0 hroom k e q' _ hord hq'
  simp [this] at hobs

/-- Where a FIFO put that was not interrupted is, and what it has done to the queue by then. -/
def At (c : Cfg) (e : Ptr) (q0 : Queue) : Pc → Queue → Prop
  | .check, q => q = q0
  | .test, q => q = q0 ∧ (c.assertEn = true → q0.qty < q0.nelems)
  | .full1, q => q = q0 ∧ q0.nelems ≤ q0.qty ∧ c.assertEn = false
  | .full2 v, q => q = q0 ∧ q0.nelems ≤ q0.qty ∧ c.assertEn = false ∧ v = q0.info.nfull
  | .fPin1, q => q = q0 ∧ q0.qty < q0.nelems
  | .fPin2 p, q => q = q0 ∧ q0.qty < q0.nelems ∧ p = q0.pin
  | .fElem p, q => q = { q0 with pin := q0.pin + 1 } ∧ q0.qty < q0.nelems ∧ p = q0.pin
  | .cnt1, q => q = { q0 with pin := q0.pin + 1, mem := q0.mem.set q0.pin e } ∧ q0.qty < q0.nelems
  | .cnt2 t, q => q = { q0 with pin := q0.pin + 1, mem := q0.mem.set q0.pin e } ∧ q0.qty < q0.nelems ∧ t = q0.qty
  | .fWrap1, q => q = { q0 with pin := q0.pin + 1, mem := q0.mem.set q0.pin e, qty := (q0.qty + 1) % c.W } ∧
      q0.qty < q0.nelems
  | .fWrap2, q => q = { q0 with pin := q0.pin + 1, mem := q0.mem.set q0.pin e, qty := (q0.qty + 1) % c.W } ∧
      q0.qty < q0.nelems ∧ q0.pin + 1 = q0.pend
  | .low1, q => q = { q0 with pin := if q0.pin + 1 = q0.pend then 0 else q0.pin + 1, mem := q0.mem.set q0.pin e,
                              qty := (q0.qty + 1) % c.W } ∧ q0.qty < q0.nelems
  | .low2 m, q => q = { q0 with pin := if q0.pin + 1 = q0.pend then 0 else q0.pin + 1, mem := q0.mem.set q0.pin e,
                                qty := (q0.qty + 1) % c.W } ∧ q0.qty < q0.nelems ∧ m = q0.nmin
  | .low3, q => q = { q0 with pin := if q0.pin + 1 = q0.pend then 0 else q0.pin + 1, mem := q0.mem.set q0.pin e,
                              qty := (q0.qty + 1) % c.W } ∧ q0.qty < q0.nelems ∧
      q0.nmin > (q0.nelems + c.W - (q0.qty + 1) % c.W) % c.W
  | .low4 v, q => q = { q0 with pin := if q0.pin + 1 = q0.pend then 0 else q0.pin + 1, mem := q0.mem.set q0.pin e,
                                qty := (q0.qty + 1) % c.W } ∧ q0.qty < q0.nelems ∧
      q0.nmin > (q0.nelems + c.W - (q0.qty + 1) % c.W) % c.W ∧ v = (q0.nelems + c.W - (q0.qty + 1) % c.W) % c.W
  | .inf1, q => q = { q0 with pin := if q0.pin + 1 = q0.pend then 0 else q0.pin + 1, mem := q0.mem.set q0.pin e,
                              qty := (q0.qty + 1) % c.W,
                              nmin := newMin c q0.nelems ((q0.qty + 1) % c.W) q0.nmin } ∧ q0.qty < q0.nelems
  | .inf2 v, q => q = { q0 with pin := if q0.pin + 1 = q0.pend then 0 else q0.pin + 1, mem := q0.mem.set q0.pin e,
                                qty := (q0.qty + 1) % c.W,
                                nmin := newMin c q0.nelems ((q0.qty + 1) % c.W) q0.nmin } ∧ q0.qty < q0.nelems ∧
      v = q0.info.nputs
  | .done, q => (q = { q0 with pin := if q0.pin + 1 = q0.pend then 0 else q0.pin + 1, mem := q0.mem.set q0.pin e,
                               qty := (q0.qty + 1) % c.W,
                               nmin := newMin c q0.nelems ((q0.qty + 1) % c.W) q0.nmin,
                               info := { q0.info with nputs := q0.info.nputs + 1 } } ∧ q0.qty < q0.nelems) ∨
      (q = { q0 with info := { q0.info with nfull := q0.info.nfull + 1 } } ∧ q0.nelems ≤ q0.qty ∧ c.assertEn = false)
  | .lWrap1, _ => False
  | .lWrap2, _ => False
  | .lDec1, _ => False
  | .lDec2 _, _ => False
  | .lElem1, _ => False
  | .lElem2 _, _ => False

theorem at_micro {c : Cfg} {e : Ptr} {q0 q q' : Queue} {pc pc' : Pc} (h : At c e q0 pc q) (hd : pc ≠ .done)
    (hm : micro c .fifo e pc q = .ok (pc', q')) : At c e q0 pc' q' := by
  cases pc with
  | done => contradiction
  | lWrap1 | lWrap2 | lDec1 | lDec2 _ | lElem1 | lElem2 _ => exact h.elim
  | check =>
    simp only [micro, Res.bind_eq_ok, Res.pure_eq, Res.ok.injEq, Prod.mk.injEq] at hm
    obtain ⟨_, _, _, h2, rfl, rfl⟩ := hm
    have h : q = q0 := h
    subst h
    refine ⟨rfl, fun ha => ?_⟩
    by_cases hlt : q.qty < q.nelems
    · exact hlt
    · simp [ha, hlt] at h2
  | test =>
    obtain ⟨rfl, h1⟩ := h
    by_cases hc : q.qty ≥ q.nelems
    · have hm : (Res.ok (Pc.full1, q) : Res (Pc × Queue)) = .ok (pc', q') := by rw [← hm]; simp only [micro, hc, if_true]
      simp only [Res.ok.injEq, Prod.mk.injEq] at hm
      obtain ⟨rfl, rfl⟩ := hm
      refine ⟨rfl, hc, ?_⟩
      cases ha : c.assertEn
      · rfl
      · have := h1 ha; omega
    · have hm : (Res.ok (Pc.fPin1, q) : Res (Pc × Queue)) = .ok (pc', q') := by rw [← hm]; simp only [micro, hc, if_false]
      simp only [Res.ok.injEq, Prod.mk.injEq] at hm
      obtain ⟨rfl, rfl⟩ := hm
      exact ⟨rfl, by omega⟩
  | full1 =>
    simp only [micro, Res.ok.injEq, Prod.mk.injEq] at hm
    obtain ⟨rfl, rfl⟩ := hm
    obtain ⟨rfl, h1, h2⟩ := h
    exact ⟨rfl, h1, h2, rfl⟩
  | full2 v =>
    simp only [micro, Res.ok.injEq, Prod.mk.injEq] at hm
    obtain ⟨rfl, rfl⟩ := hm
    obtain ⟨rfl, h1, h2, rfl⟩ := h
    exact Or.inr ⟨rfl, h1, h2⟩
  | fPin1 =>
    simp only [micro, Res.ok.injEq, Prod.mk.injEq] at hm
    obtain ⟨rfl, rfl⟩ := hm
    obtain ⟨rfl, h1⟩ := h
    exact ⟨rfl, h1, rfl⟩
  | fPin2 p =>
    simp only [micro, Res.ok.injEq, Prod.mk.injEq] at hm
    obtain ⟨rfl, rfl⟩ := hm
    obtain ⟨rfl, h1, rfl⟩ := h
    exact ⟨rfl, h1, rfl⟩
  | fElem p =>
    obtain ⟨rfl, h1, rfl⟩ := h
    simp only [micro, Res.bind_eq_ok, wr] at hm
    obtain ⟨m, hw, hm⟩ := hm
    split at hw <;> simp only [Res.ok.injEq, reduceCtorEq] at hw
    subst hw
    simp only [Res.pure_eq, Res.ok.injEq, Prod.mk.injEq] at hm
    obtain ⟨rfl, rfl⟩ := hm
    exact ⟨rfl, h1⟩
  | cnt1 =>
    simp only [micro, Res.ok.injEq, Prod.mk.injEq] at hm
    obtain ⟨rfl, rfl⟩ := hm
    obtain ⟨rfl, h1⟩ := h
    exact ⟨rfl, h1, rfl⟩
  | cnt2 t =>
    simp only [micro, Res.ok.injEq, Prod.mk.injEq] at hm
    obtain ⟨rfl, rfl⟩ := hm
    obtain ⟨rfl, h1, rfl⟩ := h
    exact ⟨rfl, h1⟩
  | fWrap1 =>
    obtain ⟨rfl, h1⟩ := h
    simp only [micro, Res.ok.injEq, Prod.mk.injEq] at hm
    obtain ⟨rfl, rfl⟩ := hm
    by_cases hw : q0.pin + 1 = q0.pend
    · simp only [hw, beq_self_eq_true, if_true]
      exact ⟨by rw [hw], h1, hw⟩
    · simp only [show (q0.pin + 1 == q0.pend) = false by simpa using hw, Bool.false_eq_true, if_false]
      exact ⟨by simp [hw], h1⟩
  | fWrap2 =>
    obtain ⟨rfl, h1, h2⟩ := h
    simp only [micro, Res.ok.injEq, Prod.mk.injEq] at hm
    obtain ⟨rfl, rfl⟩ := hm
    exact ⟨by simp [h2], h1⟩
  | low1 =>
    simp only [micro, Res.ok.injEq, Prod.mk.injEq] at hm
    obtain ⟨rfl, rfl⟩ := hm
    obtain ⟨rfl, h1⟩ := h
    exact ⟨rfl, h1, rfl⟩
  | low2 m =>
    obtain ⟨rfl, h1, rfl⟩ := h
    simp only [micro, Res.ok.injEq, Prod.mk.injEq] at hm
    obtain ⟨rfl, rfl⟩ := hm
    by_cases hw : q0.nmin > (q0.nelems + c.W - (q0.qty + 1) % c.W) % c.W
    · simp only [hw, if_true]
      exact ⟨rfl, h1, hw⟩
    · simp only [hw, if_false]
      exact ⟨by simp [newMin, hw], h1⟩
  | low3 =>
    obtain ⟨rfl, h1, h2⟩ := h
    simp only [micro, Res.ok.injEq, Prod.mk.injEq] at hm
    obtain ⟨rfl, rfl⟩ := hm
    exact ⟨rfl, h1, h2, rfl⟩
  | low4 v =>
    obtain ⟨rfl, h1, h2, rfl⟩ := h
    simp only [micro, Res.ok.injEq, Prod.mk.injEq] at hm
    obtain ⟨rfl, rfl⟩ := hm
    exact ⟨by simp [newMin, h2], h1⟩
  | inf1 =>
    simp only [micro, Res.ok.injEq, Prod.mk.injEq] at hm
    obtain ⟨rfl, rfl⟩ := hm
    obtain ⟨rfl, h1⟩ := h
    exact ⟨rfl, h1, rfl⟩
  | inf2 v =>
    simp only [micro, Res.ok.injEq, Prod.mk.injEq] at hm
    obtain ⟨rfl, rfl⟩ := hm
    obtain ⟨rfl, h1, rfl⟩ := h
    exact Or.inl ⟨rfl, h1⟩

theorem at_exec {c : Cfg} {e : Ptr} {s t : Conf} (h : Exec c .fifo e false s t) (hs : s.pc = .check)
    (ht : t.log = []) : At c e s.q t.pc t.q := by
  induction h with
  | refl => rw [hs]; rfl
  | @prog t pc q h hd hm ih => exact at_micro (ih ht) hd hm
  | @irq t op q o h hor hst ih => simp at ht

theorem exec_log {c : Cfg} {k : Kind} {e : Ptr} {m : Bool} {s t : Conf} (h : Exec c k e m s t) :
    s.log.length ≤ t.log.length := by
  induction h with
  | refl => exact Nat.le_refl _
  | prog _ _ _ ih => exact ih
  | irq _ _ _ ih => simp; omega

/-- An execution in which no handler ran is the rest of the put. -/
theorem exec_rest {c : Cfg} {k : Kind} {e : Ptr} {m : Bool} {s t : Conf} (h : Exec c k e m s t) (hl : t.log = s.log) :
    rest c k e s.pc s.q = rest c k e t.pc t.q := by
  induction h with
  | refl => rfl
  | prog _ _ hm ih => exact (ih hl).trans (rest_micro hm)
  | irq h _ _ _ =>
    have := exec_log h
    have h2 := congrArg List.length hl
    simp at h2
    omega

/-- The queue after a get and a put of `e`, the put having seen `n` elements when it updated the low watermark. -/
def both (c : Cfg) (q0 : Queue) (e : Ptr) (n : Nat) : Queue :=
  { q0 with mem := q0.mem.set q0.pin e,
            pin := if q0.pin + 1 = q0.pend then 0 else q0.pin + 1,
            pout := if q0.pout + 1 = q0.pend then 0 else q0.pout + 1,
            nmin := newMin c q0.nelems n q0.nmin,
            info := { q0.info with nputs := q0.info.nputs + 1, ngets := q0.info.ngets + 1 } }

/-- The facts about a reachable, non-empty queue the next proofs use. -/
structure Facts (c : Cfg) (q0 : Queue) (v : Ptr) : Prop where
  pos : 0 < q0.qty
  le : q0.qty ≤ q0.nelems
  width : q0.nelems < c.W
  low : q0.nmin ≤ q0.nelems - q0.qty
  pinM : q0.pin < q0.mem.length
  front : q0.mem[q0.pout]? = some v
  apart : q0.qty < q0.nelems → q0.pin ≠ q0.pout

theorem facts_of_reached {c : Cfg} {sma : Bool} {mem : List Ptr} {cap : Nat} {ops : List Op} {q0 : Queue}
    (hs : Setup c sma mem cap) (hr : Reached c sma mem cap ops q0) (h0 : 0 < getNum q0) : ∃ v, Facts c q0 v := by
  obtain ⟨a, _, h⟩ := reached_rep hs hr
  have hq := h.qty
  have hle := h.le
  have hn := h.nel
  have hml := h.memLen
  simp only [getNum] at h0
  have hpo : q0.pout < cap := by rcases h.pout with h1 | h1 <;> omega
  have hpin : q0.pin < cap := by rw [h.pin]; exact idx_lt hpo (by omega)
  have hlow := (queue_lwm_is_historical_minimum hs ops q0 hr).1 ops.length q0 (by rw [List.take_length]; exact hr)
  simp only [getLwm, getNum] at hlow
  refine ⟨q0.mem[q0.pout], h0, by omega, by have := h.capW; omega, by omega, by omega, by simp, fun hlt => ?_⟩
  rw [h.pin]
  unfold idx
  split <;> omega

theorem dec_mod {n W : Nat} (h0 : 0 < n) (hW : n < W) : (n + (W - 1)) % W = n - 1 := by
  rw [show n + (W - 1) = (n - 1) + W by omega, Nat.add_mod_right, Nat.mod_eq_of_lt (by omega)]

theorem newMin_of_low {c : Cfg} {cap n m : Nat} (hm : m ≤ cap - n) (hn : n ≤ cap) (hW : cap < c.W) : newMin c cap n m = m := by
  rw [newMin_eq c cap n m hn hW]; omega

/-- Get, then put. -/
theorem get_then_put {c : Cfg} {q0 : Queue} {v e : Ptr} (F : Facts c q0 v) (he : e ≠ 0) :
    runOps (step c) q0 [.get, .putFifo e] = ([.ptr v, .unit], .ok (both c q0 e q0.qty)) := by
  have h1 : (e != 0) = true := by simpa using he
  have hd := dec_mod F.pos (show q0.qty < c.W by have := F.le; have := F.width; omega)
  have := F.pos; have := F.le; have := F.width
  have h2 : (q0.qty - 1 + 1) % c.W = q0.qty := by rw [Nat.mod_eq_of_lt (by omega)]; omega
  simp only [runOps, step_get (by omega : q0.qty ≠ 0) F.front]
  simp [step, putFifo, afterGet, hd, h1, wr, F.pinM, Res.map', h2, both, show q0.qty - 1 < q0.nelems by omega,
    show ¬ q0.nelems ≤ q0.qty - 1 by omega]

/-- The queue after a successful put. -/
def afterPut (c : Cfg) (q0 : Queue) (e : Ptr) : Queue :=
  { q0 with mem := q0.mem.set q0.pin e,
            pin := if q0.pin + 1 = q0.pend then 0 else q0.pin + 1,
            qty := (q0.qty + 1) % c.W,
            nmin := newMin c q0.nelems ((q0.qty + 1) % c.W) q0.nmin,
            info := { q0.info with nputs := q0.info.nputs + 1 } }

/-- Put, then get, with room. -/
theorem put_then_get {c : Cfg} {q0 : Queue} {v e : Ptr} (F : Facts c q0 v) (he : e ≠ 0) (hlt : q0.qty < q0.nelems) :
    runOps (step c) q0 [.putFifo e, .get] = ([.unit, .ptr v], .ok (both c q0 e (q0.qty + 1))) := by
  have h1 : (e != 0) = true := by simpa using he
  have := F.pos; have := F.le; have := F.width
  have hmod : (q0.qty + 1) % c.W = q0.qty + 1 := Nat.mod_eq_of_lt (by omega)
  have hd := dec_mod (show 0 < q0.qty + 1 by omega) (show q0.qty + 1 < c.W by omega)
  have hp : step c q0 (.putFifo e) = .ok (afterPut c q0 e, .unit) := by
    simp [step, putFifo, h1, hlt, Nat.not_le.mpr hlt, wr, F.pinM, Res.map', afterPut]
  have hf : (q0.mem.set q0.pin e)[q0.pout]? = some v := by
    rw [List.getElem?_set_ne (F.apart hlt)]; exact F.front
  simp only [runOps, hp]
  rw [step_get (v := v) (by simp [afterPut, hmod]) (by exact hf)]
  simp [afterGet, afterPut, hmod, hd, both]

/-- Put into a full queue without assertions, then get. -/
theorem full_put_then_get {c : Cfg} {q0 : Queue} {v e : Ptr} (F : Facts c q0 v) (hge : q0.nelems ≤ q0.qty)
    (ha : c.assertEn = false) :
    runOps (step c) q0 [.putFifo e, .get] =
      ([.unit, .ptr v], .ok (afterGet c { q0 with info := { q0.info with nfull := q0.info.nfull + 1 } })) := by
  have := F.pos
  have hp : step c q0 (.putFifo e) = .ok ({ q0 with info := { q0.info with nfull := q0.info.nfull + 1 } }, .unit) := by
    simp [step, putFifo, ha, hge, Res.map']
  simp only [runOps, hp]
  rw [step_get (v := v) (by simp; omega) (by exact F.front)]

theorem acts_gp {c : Cfg} {q0 qf : Queue} {v e : Ptr} (F : Facts c q0 v) (he : e ≠ 0) (h : qf = both c q0 e q0.qty) :
    ActsAtOneInstant c q0 .fifo e ⟨.done, qf, [(.get, .ptr v)]⟩ := by
  subst h
  have := get_then_put F he
  exact ⟨[(.get, .ptr v)], [], rfl, by simp [Kind.op, this], _, by simp only [Kind.op, List.map, List.cons_append,
    List.nil_append, this], fun _ => rfl⟩

theorem acts_pg {c : Cfg} {q0 qf : Queue} {v e : Ptr}
    (h : runOps (step c) q0 [.putFifo e, .get] = ([.unit, .ptr v], .ok qf)) :
    ActsAtOneInstant c q0 .fifo e ⟨.done, qf, [(.get, .ptr v)]⟩ :=
  ⟨[], [(.get, .ptr v)], rfl, by simp [Kind.op, h], _, by simp only [Kind.op, List.map, List.nil_append, h], fun _ => rfl⟩

/-- **C100, partial (where a get does no harm).** A FIFO put with interrupts enabled into a queue that is not empty, interrupted at
any one point by a handler that gets an element, acts at one instant — unless that point is between the load and the store of the
element count. Together with `unmasked_put_is_not_atomic` this locates the defect exactly, for such handlers. -/
theorem get_elsewhere_is_harmless_partial {c : Cfg} {sma : Bool} {mem : List Ptr} {cap : Nat} {ops : List Op} {q0 : Queue}
    (hs : Setup c sma mem cap) (hr : Reached c sma mem cap ops q0) (h0 : 0 < getNum q0) (e : Ptr) (he : e ≠ 0)
    {pc : Pc} {q q' qf : Queue} {o : Out}
    (h1 : Exec c .fifo e false ⟨.check, q0, []⟩ ⟨pc, q, []⟩) (hpc : ∀ t, pc ≠ .cnt2 t)
    (hget : step c q .get = .ok (q', o))
    (h2 : Exec c .fifo e false ⟨pc, q', [(.get, o)]⟩ ⟨.done, qf, [(.get, o)]⟩) :
    ActsAtOneInstant c q0 .fifo e ⟨.done, qf, [(.get, o)]⟩ := by
  obtain ⟨v, F⟩ := facts_of_reached hs hr h0
  have hat := at_exec h1 rfl rfl
  have hrest := exec_rest h2 rfl
  simp only [rest_done] at hrest hat
  have h3 : (e != 0) = true := by simpa using he
  have := F.pos; have := F.le; have := F.width; have := F.low
  have hd := dec_mod F.pos (show q0.qty < c.W by omega)
  have h4 : (q0.qty - 1 + 1) % c.W = q0.qty := by rw [Nat.mod_eq_of_lt (by omega)]; omega
  have h5 : ∀ x, q0.qty < q0.nelems → (q0.mem.set q0.pin x)[q0.pout]? = some v := by
    intro x hlt
    rw [List.getElem?_set_ne (F.apart hlt)]; exact F.front
  have hnm := newMin_of_low F.low F.le F.width
  have hpin := F.pinM
  have hA : (q0.nelems + c.W - q0.qty) % c.W = q0.nelems - q0.qty := by
    rw [show q0.nelems + c.W - q0.qty = (q0.nelems - q0.qty) + c.W by omega, Nat.add_mod_right, Nat.mod_eq_of_lt (by omega)]
  have hno : ¬ q0.nelems - q0.qty < q0.nmin := by omega
  have hB : q0.qty - 1 < q0.nelems := by omega
  have hC : ¬ q0.nelems ≤ q0.qty - 1 := by omega
  cases pc with
  | cnt2 t => exact absurd rfl (hpc t)
  | lWrap1 | lWrap2 | lDec1 | lDec2 _ | lElem1 | lElem2 _ => exact hat.elim
  | check =>
    have hat : q = q0 := hat
    subst hat
    rw [step_get (by omega) F.front] at hget
    simp only [Res.ok.injEq, Prod.mk.injEq] at hget
    obtain ⟨rfl, rfl⟩ := hget
    apply acts_gp F he
    rw [put_eq_accesses] at hrest
    have := get_then_put F he
    simp only [runOps, step_get (by omega : q.qty ≠ 0) F.front] at this
    simp only [Kind.op] at hrest
    revert this hrest
    rcases step c (afterGet c q) (.putFifo e) with ⟨a, b⟩ | _ | _ <;> simp [Res.map']
    intro h6 _ h7
    rw [← h6, h7]
  | test =>
    obtain ⟨rfl, _⟩ := hat
    rw [step_get (by omega) F.front] at hget
    simp only [Res.ok.injEq, Prod.mk.injEq] at hget
    obtain ⟨rfl, rfl⟩ := hget
    apply acts_gp F he
    by_cases hw : q.pin + 1 = q.pend <;>
      simp [rest, finish, micro, afterGet, hd, h4, hA, hno, hB, hC, wr, hpin, hw] at hrest <;>
      rw [← hrest] <;> simp [both, hw, hnm]
  | fPin1 =>
    obtain ⟨rfl, hlt⟩ := hat
    rw [step_get (v := v) (by first | omega | (simp only; omega)) (by first | exact F.front | exact h5 e hlt)] at hget
    simp only [Res.ok.injEq, Prod.mk.injEq] at hget
    obtain ⟨rfl, rfl⟩ := hget
    apply acts_gp F he
    by_cases hw : q.pin + 1 = q.pend <;>
      simp [rest, finish, micro, afterGet, hd, h4, hA, hno, hB, hC, wr, hpin, hw] at hrest <;>
      rw [← hrest] <;> simp [both, hw, hnm]
  | fPin2 p =>
    obtain ⟨rfl, hlt, rfl⟩ := hat
    rw [step_get (v := v) (by first | omega | (simp only; omega)) (by first | exact F.front | exact h5 e hlt)] at hget
    simp only [Res.ok.injEq, Prod.mk.injEq] at hget
    obtain ⟨rfl, rfl⟩ := hget
    apply acts_gp F he
    by_cases hw : q.pin + 1 = q.pend <;>
      simp [rest, finish, micro, afterGet, hd, h4, hA, hno, hB, hC, wr, hpin, hw] at hrest <;>
      rw [← hrest] <;> simp [both, hw, hnm]
  | fElem p =>
    obtain ⟨rfl, hlt, rfl⟩ := hat
    rw [step_get (v := v) (by first | omega | (simp only; omega)) (by first | exact F.front | exact h5 e hlt)] at hget
    simp only [Res.ok.injEq, Prod.mk.injEq] at hget
    obtain ⟨rfl, rfl⟩ := hget
    apply acts_gp F he
    by_cases hw : q0.pin + 1 = q0.pend <;>
      simp [rest, finish, micro, afterGet, hd, h4, hA, hno, hB, hC, wr, hpin, hw] at hrest <;>
      rw [← hrest] <;> simp [both, hw, hnm]
  | cnt1 =>
    obtain ⟨rfl, hlt⟩ := hat
    rw [step_get (v := v) (by first | omega | (simp only; omega)) (by first | exact F.front | exact h5 e hlt)] at hget
    simp only [Res.ok.injEq, Prod.mk.injEq] at hget
    obtain ⟨rfl, rfl⟩ := hget
    apply acts_gp F he
    by_cases hw : q0.pin + 1 = q0.pend <;>
      simp [rest, finish, micro, afterGet, hd, h4, hA, hno, hB, hC, wr, hpin, hw] at hrest <;>
      rw [← hrest] <;> simp [both, hw, hnm]
  | fWrap1 =>
    obtain ⟨rfl, hlt⟩ := hat
    have hmod : (q0.qty + 1) % c.W = q0.qty + 1 := Nat.mod_eq_of_lt (by omega)
    have hE := dec_mod (show 0 < q0.qty + 1 by omega) (show q0.qty + 1 < c.W by omega)
    rw [step_get (v := v) (by simp only [hmod]; omega) (by exact h5 e hlt)] at hget
    simp only [Res.ok.injEq, Prod.mk.injEq] at hget
    obtain ⟨rfl, rfl⟩ := hget
    apply acts_gp F he
    by_cases hw : q0.pin + 1 = q0.pend <;>
      simp [rest, finish, micro, afterGet, hmod, hE, hA, hno, hw] at hrest <;>
      rw [← hrest] <;> simp [both, hw, hnm]
  | fWrap2 =>
    obtain ⟨rfl, hlt, hpe⟩ := hat
    have hmod : (q0.qty + 1) % c.W = q0.qty + 1 := Nat.mod_eq_of_lt (by omega)
    have hE := dec_mod (show 0 < q0.qty + 1 by omega) (show q0.qty + 1 < c.W by omega)
    rw [step_get (v := v) (by simp only [hmod]; omega) (by exact h5 e hlt)] at hget
    simp only [Res.ok.injEq, Prod.mk.injEq] at hget
    obtain ⟨rfl, rfl⟩ := hget
    apply acts_gp F he
    simp [rest, finish, micro, afterGet, hmod, hE, hA, hno] at hrest
    rw [← hrest]
    simp [both, hpe, hnm]

  | low1 =>
    obtain ⟨rfl, hlt⟩ := hat
    have hmod : (q0.qty + 1) % c.W = q0.qty + 1 := Nat.mod_eq_of_lt (by omega)
    have hE := dec_mod (show 0 < q0.qty + 1 by omega) (show q0.qty + 1 < c.W by omega)
    rw [step_get (v := v) (by simp only [hmod]; omega) (by exact h5 e hlt)] at hget
    simp only [Res.ok.injEq, Prod.mk.injEq] at hget
    obtain ⟨rfl, rfl⟩ := hget
    apply acts_gp F he
    by_cases hw : q0.pin + 1 = q0.pend <;>
      simp [rest, finish, micro, afterGet, hmod, hE, hA, hno, hw] at hrest <;>
      rw [← hrest] <;> simp [both, hw, hnm]
  | low2 m =>
    obtain ⟨rfl, hlt, rfl⟩ := hat
    have hmod : (q0.qty + 1) % c.W = q0.qty + 1 := Nat.mod_eq_of_lt (by omega)
    have hE := dec_mod (show 0 < q0.qty + 1 by omega) (show q0.qty + 1 < c.W by omega)
    rw [step_get (v := v) (by simp only [hmod]; omega) (by exact h5 e hlt)] at hget
    simp only [Res.ok.injEq, Prod.mk.injEq] at hget
    obtain ⟨rfl, rfl⟩ := hget
    apply acts_gp F he
    by_cases hw : q0.pin + 1 = q0.pend <;>
      simp [rest, finish, micro, afterGet, hmod, hE, hA, hno, hw] at hrest <;>
      rw [← hrest] <;> simp [both, hw, hnm]
  | low3 =>
    obtain ⟨rfl, hlt, hbig⟩ := hat
    have hmod : (q0.qty + 1) % c.W = q0.qty + 1 := Nat.mod_eq_of_lt (by omega)
    have hE := dec_mod (show 0 < q0.qty + 1 by omega) (show q0.qty + 1 < c.W by omega)
    rw [step_get (v := v) (by simp only [hmod]; omega) (by exact h5 e hlt)] at hget
    simp only [Res.ok.injEq, Prod.mk.injEq] at hget
    obtain ⟨rfl, rfl⟩ := hget
    apply acts_gp F he
    have hF : (q0.nelems + c.W - (q0.qty + 1)) % c.W = q0.nelems - (q0.qty + 1) := by
      rw [show q0.nelems + c.W - (q0.qty + 1) = (q0.nelems - (q0.qty + 1)) + c.W by omega, Nat.add_mod_right,
        Nat.mod_eq_of_lt (by omega)]
    rw [hmod, hF] at hbig
    have hG : q0.nmin = q0.nelems - q0.qty := by omega
    by_cases hw : q0.pin + 1 = q0.pend <;>
      simp [rest, finish, micro, afterGet, hmod, hE, hA, hw] at hrest <;>
      rw [← hrest] <;> simp only [both, hnm] <;> simp [hw, hG]
  | low4 w =>
    obtain ⟨rfl, hlt, hbig, rfl⟩ := hat
    have hmod : (q0.qty + 1) % c.W = q0.qty + 1 := Nat.mod_eq_of_lt (by omega)
    have hE := dec_mod (show 0 < q0.qty + 1 by omega) (show q0.qty + 1 < c.W by omega)
    rw [step_get (v := v) (by simp only [hmod]; omega) (by exact h5 e hlt)] at hget
    simp only [Res.ok.injEq, Prod.mk.injEq] at hget
    obtain ⟨rfl, rfl⟩ := hget
    rw [hmod] at hbig
    refine acts_pg ?_
    rw [put_then_get F he hlt]
    by_cases hw : q0.pin + 1 = q0.pend <;>
      simp [rest, finish, micro, afterGet, hmod, hE, hw] at hrest <;>
      rw [← hrest] <;> simp [both, hw, newMin, hbig]
  | inf1 =>
    obtain ⟨rfl, hlt⟩ := hat
    have hmod : (q0.qty + 1) % c.W = q0.qty + 1 := Nat.mod_eq_of_lt (by omega)
    have hE := dec_mod (show 0 < q0.qty + 1 by omega) (show q0.qty + 1 < c.W by omega)
    rw [step_get (v := v) (by simp only [hmod]; omega) (by exact h5 e hlt)] at hget
    simp only [Res.ok.injEq, Prod.mk.injEq] at hget
    obtain ⟨rfl, rfl⟩ := hget
    refine acts_pg ?_
    rw [put_then_get F he hlt]
    by_cases hw : q0.pin + 1 = q0.pend <;>
      simp [rest, finish, micro, afterGet, hmod, hE, hw] at hrest <;>
      rw [← hrest] <;> simp [both, hw]
  | inf2 w =>
    obtain ⟨rfl, hlt, rfl⟩ := hat
    have hmod : (q0.qty + 1) % c.W = q0.qty + 1 := Nat.mod_eq_of_lt (by omega)
    have hE := dec_mod (show 0 < q0.qty + 1 by omega) (show q0.qty + 1 < c.W by omega)
    rw [step_get (v := v) (by simp only [hmod]; omega) (by exact h5 e hlt)] at hget
    simp only [Res.ok.injEq, Prod.mk.injEq] at hget
    obtain ⟨rfl, rfl⟩ := hget
    refine acts_pg ?_
    rw [put_then_get F he hlt]
    by_cases hw : q0.pin + 1 = q0.pend <;>
      simp [rest, finish, micro, afterGet, hmod, hE, hw] at hrest <;>
      rw [← hrest] <;> simp [both, hw]
  | full1 =>
    obtain ⟨rfl, hge, ha⟩ := hat
    rw [step_get (by omega) F.front] at hget
    simp only [Res.ok.injEq, Prod.mk.injEq] at hget
    obtain ⟨rfl, rfl⟩ := hget
    refine acts_pg ?_
    rw [full_put_then_get F hge ha]
    simp [rest, finish, micro, afterGet] at hrest
    rw [← hrest]
    simp [afterGet]
  | full2 w =>
    obtain ⟨rfl, hge, ha, rfl⟩ := hat
    rw [step_get (by omega) F.front] at hget
    simp only [Res.ok.injEq, Prod.mk.injEq] at hget
    obtain ⟨rfl, rfl⟩ := hget
    refine acts_pg ?_
    rw [full_put_then_get F hge ha]
    simp [rest, finish, micro, afterGet] at hrest
    rw [← hrest]
    simp [afterGet]
  | done =>
    rcases hat with ⟨rfl, hlt⟩ | ⟨rfl, hge, ha⟩
    · have hmod : (q0.qty + 1) % c.W = q0.qty + 1 := Nat.mod_eq_of_lt (by omega)
      have hE := dec_mod (show 0 < q0.qty + 1 by omega) (show q0.qty + 1 < c.W by omega)
      rw [step_get (v := v) (by simp only [hmod]; omega) (by exact h5 e hlt)] at hget
      simp only [Res.ok.injEq, Prod.mk.injEq] at hget
      obtain ⟨rfl, rfl⟩ := hget
      refine acts_pg ?_
      rw [put_then_get F he hlt]
      simp [rest_done, afterGet, hmod, hE] at hrest
      rw [← hrest]
      simp [both]
    · rw [step_get (v := v) (by simp only; omega) (by exact F.front)] at hget
      simp only [Res.ok.injEq, Prod.mk.injEq] at hget
      obtain ⟨rfl, rfl⟩ := hget
      refine acts_pg ?_
      rw [full_put_then_get F hge ha]
      simp only [rest_done, Res.ok.injEq] at hrest
      rw [hrest]

/-! ### A concrete case -/

/-- A queue of capacity 2 holding 11; a put of 12 is interrupted between the load and the store of the count by a get of 11. The queue
then claims two elements and hands out 12 and, again, 11. -/
theorem element_delivered_twice : ∃ q0 fin,
    Reached cfg8 false [7, 7] 2 [.putFifo 11] q0 ∧ Exec cfg8 .fifo 12 false ⟨.check, q0, []⟩ fin ∧ fin.pc = .done ∧
    fin.log = [(.get, .ptr 11)] ∧ (runOps (step cfg8) fin.q [.getNum, .get, .get]).1 = [.num 2, .ptr 12, .ptr 11] := by
  have e0 : Exec cfg8 .fifo 12 false ⟨.check, ⟨[11, 7], 1, 0, 2, 2, 1, 1, false, ⟨1, 0, 0, 0, 0⟩⟩, []⟩ _ := .refl _
  have e1 := e0.prog (pc := .test) (by simp) rfl
  have e2 := e1.prog (pc := .fPin1) (by simp) rfl
  have e3 := e2.prog (pc := .fPin2 1) (by simp) rfl
  have e4 := e3.prog (pc := .fElem 1) (by simp) rfl
  have e5 := e4.prog (pc := .cnt1) (by simp) rfl
  have e6 := e5.prog (pc := .cnt2 1) (by simp) rfl
  have e7 := e6.irq (op := .get) (o := .ptr 11) (Or.inl rfl) rfl
  obtain ⟨q', hq'⟩ : ∃ q', rest cfg8 .fifo 12 (.cnt2 1) ⟨[11, 12], 2, 1, 2, 2, 0, 1, false, ⟨1, 1, 0, 0, 0⟩⟩ = .ok q' := ⟨_, rfl⟩
  have e8 := exec_finish 22 _ (by simp [rank]) e7 q' hq'
  refine ⟨_, _, rfl, e8, rfl, rfl, ?_⟩
  have : q' = ⟨[11, 12], 0, 1, 2, 2, 2, 0, false, ⟨2, 1, 0, 0, 0⟩⟩ := by
    have h2 : rest cfg8 .fifo 12 (.cnt2 1) ⟨[11, 12], 2, 1, 2, 2, 0, 1, false, ⟨1, 1, 0, 0, 0⟩⟩ =
        .ok ⟨[11, 12], 0, 1, 2, 2, 2, 0, false, ⟨2, 1, 0, 0, 0⟩⟩ := rfl
    rw [h2, Res.ok.injEq] at hq'
    exact hq'.symm
  subst this
  rfl

/-- The hypotheses of `unmasked_put_is_not_atomic` and `get_elsewhere_is_harmless_partial` are met. -/
example : ∃ q0, Reached cfg8 false [7, 7, 7] 3 [.putFifo 11, .putFifo 12] q0 ∧ 0 < getNum q0 ∧ getNum q0 < 3 :=
  ⟨_, rfl, by decide, by decide⟩

/-- A masked put with a handler that gets right afterwards (`masked_put_acts_at_one_instant_partial`). -/
example : ∃ q0 fin, Reached cfg8 false [7, 7] 2 [.putFifo 11] q0 ∧ Exec cfg8 .fifo 12 true ⟨.check, q0, []⟩ fin ∧ fin.pc = .done ∧
    fin.log = [(.get, .ptr 11)] := by
  have e0 : Exec cfg8 .fifo 12 true ⟨.check, ⟨[11, 7], 1, 0, 2, 2, 1, 1, false, ⟨1, 0, 0, 0, 0⟩⟩, []⟩ _ := .refl _
  have e1 := exec_finish 22 _ (by simp [rank]) e0 ⟨[11, 12], 0, 0, 2, 2, 2, 0, false, ⟨2, 0, 0, 0, 0⟩⟩ rfl
  have e2 := e1.irq (op := .get) (o := .ptr 11) (Or.inr rfl) rfl
  exact ⟨_, _, rfl, e2, rfl, rfl⟩

/-- A get between the stores of the count and of the wrapped pointer (`get_elsewhere_is_harmless_partial`). -/
example : ∃ q0 q q' qf, Reached cfg8 false [7, 7] 2 [.putFifo 11] q0 ∧
    Exec cfg8 .fifo 12 false ⟨.check, q0, []⟩ ⟨.fWrap1, q, []⟩ ∧ step cfg8 q .get = .ok (q', .ptr 11) ∧
    Exec cfg8 .fifo 12 false ⟨.fWrap1, q', [(.get, .ptr 11)]⟩ ⟨.done, qf, [(.get, .ptr 11)]⟩ := by
  have e0 : Exec cfg8 .fifo 12 false ⟨.check, ⟨[11, 7], 1, 0, 2, 2, 1, 1, false, ⟨1, 0, 0, 0, 0⟩⟩, []⟩ _ := .refl _
  have e1 := e0.prog (pc := .test) (by simp) rfl
  have e2 := e1.prog (pc := .fPin1) (by simp) rfl
  have e3 := e2.prog (pc := .fPin2 1) (by simp) rfl
  have e4 := e3.prog (pc := .fElem 1) (by simp) rfl
  have e5 := e4.prog (pc := .cnt1) (by simp) rfl
  have e6 := e5.prog (pc := .cnt2 1) (by simp) rfl
  have e7 := e6.prog (pc := .fWrap1) (by simp) rfl
  exact ⟨_, _, _, _, rfl, e7, rfl, exec_finish 22 _ (by simp [rank]) (.refl _) _ rfl⟩

end Verif.Queue
