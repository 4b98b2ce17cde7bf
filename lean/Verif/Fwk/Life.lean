import Verif.Fwk.Findings
import Verif.Fwk.Partial
/-
After an active object has been terminated: events that are still sent to it, priorities that are used again, subscriptions that
are left over (C125-C127).
-/
namespace Verif.Fwk
open Verif

section
variable {c : Cfg} {slots : List MemPool.Pool} {hdr : Nat → Evt} {ops : List Op} {outs : List Out} {w : World}

/-- Somebody is registered at priority `p`. -/
def Taken (ops : List Op) (p : Nat) : Prop := Obs.registry ops [] (fun _ => none) p ≠ none

/-- Nothing is waiting for an object with a higher priority than `p`. -/
def NothingAbove (w : World) (p : Nat) : Prop := ∀ q y, q < p → Obs.registered w q = some y → Obs.contents y.q = []

theorem notReady_above (h : Run c slots hdr ops outs w) {p q : Nat} (hn : NothingAbove w p) (hq : q < p) :
    RdyGrp.bit w.rdy q = false := by
  cases hb : RdyGrp.bit w.rdy q with
  | false => rfl
  | true =>
    obtain ⟨y, hy, hc⟩ := (ready_iff_pending h q).mp hb
    exact absurd (hn q y hq hy) hc

/-- A post to any object, registered or not. -/
theorem post_any (h : Run c slots hdr ops outs w) {ao e : Nat} {x : Ao} (hx : w.aos[ao]? = some x) (he : e ≠ 0)
    (hroom : x.q.qty ≠ x.q.nelems) :
    ∃ w' q', step c w (.postFifo ao e) = .ok (w', .unit) ∧ w'.ph = w.ph ∧ w'.sptbl = w.sptbl ∧
      w'.aos = w.aos.set ao { x with q := q' } ∧ x.prio < c.maxSma ∧ RdyGrp.Inv c.maxSma w'.rdy ∧
      (∀ q, RdyGrp.bit w'.rdy q = (decide (q = x.prio) || RdyGrp.bit w.rdy q)) ∧ Obs.contents q' = Obs.contents x.q ++ [e] := by
  obtain ⟨a, hR, _⟩ := h.full
  have hlt : ao < a.aos.length := by rw [← hR.ao.aos.1]; exact (List.getElem?_eq_some_iff.mp hx).1
  obtain ⟨k1, k2⟩ := hR.ao.aos.2 ao x _ hx (List.getElem?_eq_getElem hlt)
  have hroom' : a.aos[ao].q.items.length ≠ a.aos[ao].q.cap := by
    obtain ⟨qa, h5, h6⟩ := k2
    rw [h5.nel, h5.qty, h6] at hroom; exact hroom
  obtain ⟨q', hput, hrep⟩ := (qput_rel (front := false) h.env.en he k2).2 hroom'
  have hpm : x.prio < c.maxSma := by rw [k1]; exact hR.ao.prioOk _ (List.getElem_mem hlt)
  obtain ⟨g, hg, hginv, hgbit⟩ := RdyGrp.setReady_ok (en := c.assertEn) h.env.sma hR.ao.rdyInv hpm
  refine ⟨{ w with hdr := incHdr w.hdr e, aos := w.aos.set ao { x with q := q' }, rdy := g }, q', ?_, rfl, rfl, rfl, hpm, hginv, hgbit, ?_⟩
  · have hg' : applySync c w.rdy x.prio .ready = .ok g := hg
    simp only [step, postFifo_eq, postC, hx, hput, Res.bind'_ok, if_true, hg', Res.map']
  · rw [contents_eq hrep, contents_eq k2]; simp

/-- The scheduler looks at the highest ready priority. -/
theorem select_at {w : World} {m p : Nat} (hinv : RdyGrp.Inv m w.rdy) (hp : RdyGrp.bit w.rdy p = true)
    (hl : ∀ q, q < p → RdyGrp.bit w.rdy q = false) :
    RdyGrp.isReady w.rdy = true ∧ RdyGrp.findHighest w.rdy = .ok p := by
  have hready : RdyGrp.isReady w.rdy = true := (RdyGrp.isReady_iff hinv).mpr ⟨p, hp⟩
  obtain ⟨p', h1, h2, h3⟩ := findHighest_of_inv hinv hready
  refine ⟨hready, ?_⟩
  rcases Nat.lt_trichotomy p' p with hlt | heq | hgt
  · rw [hl p' hlt] at h2; cases h2
  · rw [h1, heq]
  · rw [h3 p hgt] at hp; cases hp

/-- **C125 (negation).** A post to an object that has been terminated is accepted, whatever the event; if nothing is waiting for a
higher priority, the next iteration of the scheduler then dereferences the null entry of the priority table. -/
theorem post_to_terminated_crashes (h : Run c slots hdr ops outs w) {ao e : Nat} {x : Ao} (hph : w.ph = .none)
    (hx : w.aos[ao]? = some x) (hun : ¬ Taken ops x.prio) (he : e ≠ 0) (hroom : x.q.qty ≠ x.q.nelems)
    (habove : NothingAbove w x.prio) :
    runOps (step c) w [.postFifo ao e, .select] = ([.unit], .ub) := by
  obtain ⟨w', q', h1, h2, h3, _, hpm, hinv, hbit, _⟩ := post_any h hx he hroom
  obtain ⟨k1, k2⟩ := select_at (p := x.prio) hinv (by simp [hbit]) (fun q hq => by
    rw [hbit, notReady_above h habove hq]; simp; omega)
  obtain ⟨a, hR, _, hb⟩ := h.full
  have hreg : a.reg = Obs.registry ops [] (fun _ => none) := hb.reg
  have htbl := hR.ao.tbl x.prio hpm
  rw [hreg, Classical.not_not.mp hun] at htbl
  have s2 : step c w' .select = .ub := by
    simp only [step, h2, hph, select, k1, if_true, k2, Res.bind'_ok, h3, htbl, Res.map']
  simp only [runOps, h1, s2]

/-- **C125 (negation).** If another object has got the priority of the terminated one in the meantime, and nothing is waiting for it,
the scheduler stops with an assertion when it tries to fetch an event for that other object. -/
theorem post_to_replaced_asserts (h : Run c slots hdr ops outs w) {ao e i : Nat} {x y : Ao} (hph : w.ph = .none)
    (hx : w.aos[ao]? = some x) (hre : Obs.registry ops [] (fun _ => none) x.prio = some i) (hne : i ≠ ao)
    (hy : w.aos[i]? = some y) (hempty : Obs.contents y.q = []) (he : e ≠ 0) (hroom : x.q.qty ≠ x.q.nelems)
    (habove : NothingAbove w x.prio) :
    runOps (step c) w [.postFifo ao e, .select, .fetch] = ([.unit, .chose i], .assert) := by
  obtain ⟨w', q', h1, h2, h3, h4, hpm, hinv, hbit, _⟩ := post_any h hx he hroom
  obtain ⟨k1, k2⟩ := select_at (p := x.prio) hinv (by simp [hbit]) (fun q hq => by
    rw [hbit, notReady_above h habove hq]; simp; omega)
  obtain ⟨a, hR, _, hb⟩ := h.full
  have hreg : a.reg = Obs.registry ops [] (fun _ => none) := hb.reg
  have htbl := hR.ao.tbl x.prio hpm
  rw [hreg, hre] at htbl
  have hilt : i < a.aos.length := by rw [← hR.ao.aos.1]; exact (List.getElem?_eq_some_iff.mp hy).1
  obtain ⟨l1, l2⟩ := hR.ao.aos.2 i y _ hy (List.getElem?_eq_getElem hilt)
  have hy' : (w.aos.set ao { x with q := q' })[i]? = some y := by rw [List.getElem?_set_ne (Ne.symm hne)]; exact hy
  rw [contents_eq l2] at hempty
  obtain ⟨qa, h5, h6⟩ := l2
  have hq0 : y.q.qty = 0 := by rw [h5.qty, h6, hempty]; rfl
  have hqs : y.q.sma = true := h5.sma
  have hen : c.qc.assertEn = true := h.env.en
  have s2 : step c w' .select = .ok ({ w' with ph := .fetch i }, .chose i) := by
    simp [step, h2, hph, select, k1, k2, h3, htbl, Res.map']
  have s3 : step c { w' with ph := .fetch i } .fetch = .assert := by
    simp [step, smaGet, h4, hy', Queue.get, hq0, hqs, hen, Res.map']
  simp only [runOps, h1, s2, s3]

/-- **C125** (partial: publications). A publication to a channel a terminated object is still subscribed to (nobody else having got
its priority) stops with an assertion. -/
theorem publish_to_terminated_asserts_partial (h : Run c slots hdr ops outs w) {ao ch e : Nat} {s : Option Nat} {x : Ao}
    (hl : Allowed c hdr ops (.publish ch e s)) (hx : w.aos[ao]? = some x) (hun : ¬ Taken ops x.prio)
    (hsub : Obs.subscribed ch x.prio ops [] false = true) : step c w (.publish ch e s) = .assert := by
  obtain ⟨a, hR, _⟩ := h.full
  have hlt : ao < a.aos.length := by rw [← hR.ao.aos.1]; exact (List.getElem?_eq_some_iff.mp hx).1
  obtain ⟨k1, _⟩ := hR.ao.aos.2 ao x _ hx (List.getElem?_eq_getElem hlt)
  have hpm : x.prio < c.maxSma := by rw [k1]; exact hR.ao.prioOk _ (List.getElem_mem hlt)
  refine (publish_ok_iff h hl).2 fun hall => ?_
  obtain ⟨i, _, hi, _⟩ := hall x.prio (by simp [subs, hpm, hsub])
  exact hun (by simp [Taken, hi])

/-! ### C126: the priority is used again -/

/-- **C126 (negation).** An object is terminated while events are waiting for it, and its priority is given to an object again, which
succeeds: if nothing is waiting for a higher priority, the scheduler chooses the new object, for which nothing is waiting, and stops with an
assertion. -/
theorem activated_again_with_pending_asserts (h : Run c slots hdr ops outs w) {p ao n : Nat} {mem : List Nat} {x : Ao}
    (hph : w.ph = .none) (hreg : Obs.registry ops [] (fun _ => none) p = some ao) (hx : w.aos[ao]? = some x)
    (hpend : Obs.contents x.q ≠ []) (habove : NothingAbove w p) (hn : n ≠ 0) :
    runOps (step c) w [.terminate ao, .activate p mem n, .select, .fetch] =
      ([.unit, .num w.aos.length, .chose w.aos.length], .assert) := by
  obtain ⟨a, hR, _, hb⟩ := h.full
  have hrg : a.reg = Obs.registry ops [] (fun _ => none) := hb.reg
  rw [← hrg] at hreg
  obtain ⟨hpm, y, hy, hyp⟩ := hR.ao.regOk p ao hreg
  obtain ⟨k1, k2⟩ := hR.ao.aos.2 ao x y hx hy
  have hxp : x.prio = p := by rw [k1, hyp]
  have htbl := hR.ao.tbl p hpm
  rw [hreg] at htbl
  have hreg' : Obs.registered w p = some x := by simp [Obs.registered, htbl, hx]
  have hbit := (ready_iff_pending h p).mpr ⟨x, hreg', hpend⟩
  obtain ⟨l1, l2⟩ := select_at hR.ao.rdyInv hbit (fun q hq => notReady_above h habove hq)
  have hlen := hR.ao.len
  have hlt : p < w.sptbl.length := by omega
  have s1 : step c w (.terminate ao) = .ok ({ w with sptbl := w.sptbl.set p none }, .unit) := by
    simp only [step, terminate, hx, unregister, hxp]
    rw [if_neg (by omega)]
    have hdec : decide (p ≤ c.maxSma ∧ w.sptbl[p]? = some (some ao)) = true := decide_eq_true ⟨Nat.le_of_lt hpm, htbl⟩
    rw [hdec, assertIf_true, if_pos hlt]
    rfl
  have hn' : (n != 0) = true := by simpa using hn
  have s2 : step c { w with sptbl := w.sptbl.set p none } (.activate p mem n) =
      .ok ({ w with sptbl := (w.sptbl.set p none).set p (some w.aos.length), aos := w.aos ++ [⟨p, Queue.init mem n true⟩] },
        .num w.aos.length) := by
    have hdec : decide (p < c.maxSma ∧ (w.sptbl.set p none)[p]? = some none) = true :=
      decide_eq_true ⟨hpm, List.getElem?_set_self hlt⟩
    simp only [step, activate, register, hn', assertIf_true, Res.bind'_ok, hdec]
    rw [if_pos (by simpa using hlt)]
    simp [Res.map']
  have hen : c.qc.assertEn = true := h.env.en
  have hlt2 : p < (w.sptbl.set p none).length := by simpa using hlt
  have s3 : ∀ w1 : World, w1.ph = .none → w1.rdy = w.rdy → w1.sptbl[p]? = some (some w.aos.length) →
      step c w1 .select = .ok ({ w1 with ph := .fetch w.aos.length }, .chose w.aos.length) := by
    intro w1 e1 e2 e3
    simp [step, e1, select, e2, l1, l2, e3, Res.map']
  have s4 : ∀ w1 : World, w1.aos[w.aos.length]? = some ⟨p, Queue.init mem n true⟩ →
      step c { w1 with ph := .fetch w.aos.length } .fetch = .assert := by
    intro w1 e1
    simp [step, smaGet, e1, Queue.get, Queue.init, hen, Res.map']
  have s3' := s3 { w with sptbl := (w.sptbl.set p none).set p (some w.aos.length), aos := w.aos ++ [⟨p, Queue.init mem n true⟩] }
    hph rfl (List.getElem?_set_self hlt2)
  have s4' := s4 { w with sptbl := (w.sptbl.set p none).set p (some w.aos.length), aos := w.aos ++ [⟨p, Queue.init mem n true⟩] }
    (by simp)
  simp only [runOps, s1, s2, s3', s4']

/-- **C126** (partial: nothing waiting). An object for which nothing is waiting can be terminated, and its priority be given to an
object again, with a queue of any size: the new object is registered, nothing is waiting for it, and the history goes on. -/
theorem activated_again_partial (h : Run c slots hdr ops outs w) {p ao n : Nat} {mem : List Nat} {x : Ao}
    (hreg : Obs.registry ops [] (fun _ => none) p = some ao) (hx : w.aos[ao]? = some x)
    (hpend : Obs.contents x.q = []) (hn : n ≠ 0) (hm : n ≤ mem.length) (hw : n < c.qW) :
    ∃ w', Run c slots hdr (ops ++ [.terminate ao] ++ [.activate p mem n]) (outs ++ [.unit] ++ [.num w.aos.length]) w' ∧
      (∃ y, Obs.registered w' p = some y ∧ Obs.contents y.q = []) ∧ RdyGrp.bit w'.rdy p = false ∧
      ∀ q, q ≠ p → Obs.registered w' q = Obs.registered w q := by
  obtain ⟨a, hR, hr, hb⟩ := h.full
  have hrg : a.reg = Obs.registry ops [] (fun _ => none) := hb.reg
  rw [← hrg] at hreg
  obtain ⟨hpm, y, hy, hyp⟩ := hR.ao.regOk p ao hreg
  obtain ⟨k1, k2⟩ := hR.ao.aos.2 ao x y hx hy
  have hxp : x.prio = p := by rw [k1, hyp]
  rw [contents_eq k2] at hpend
  have hl1 : Allowed c hdr ops (.terminate ao) := (allowed_iff h hr).mpr ⟨y, hy, by rw [hyp]; exact hreg, hpend⟩
  have htbl := hR.ao.tbl p hpm
  rw [hreg] at htbl
  have hlen := hR.ao.len
  have hlt : p < w.sptbl.length := by omega
  have s1 : step c w (.terminate ao) = .ok ({ w with sptbl := w.sptbl.set p none }, .unit) := by
    simp only [step, terminate, hx, unregister, hxp]
    rw [if_neg (by omega)]
    have hdec : decide (p ≤ c.maxSma ∧ w.sptbl[p]? = some (some ao)) = true := decide_eq_true ⟨Nat.le_of_lt hpm, htbl⟩
    rw [hdec, assertIf_true, if_pos hlt]
    rfl
  have r1 := h.next hl1 s1
  obtain ⟨a1, hR1, hr1, hb1⟩ := r1.full
  have hl2 : Allowed c hdr (ops ++ [.terminate ao]) (.activate p mem n) := (allowed_iff r1 hr1).mpr ⟨hm, hw⟩
  have hn' : (n != 0) = true := by simpa using hn
  have s2 : step c { w with sptbl := w.sptbl.set p none } (.activate p mem n) =
      .ok ({ w with sptbl := (w.sptbl.set p none).set p (some w.aos.length), aos := w.aos ++ [⟨p, Queue.init mem n true⟩] },
        .num w.aos.length) := by
    have hdec : decide (p < c.maxSma ∧ (w.sptbl.set p none)[p]? = some none) = true :=
      decide_eq_true ⟨hpm, List.getElem?_set_self hlt⟩
    simp only [step, activate, register, hn', assertIf_true, Res.bind'_ok, hdec]
    rw [if_pos (by simpa using hlt)]
    simp [Res.map']
  have r2 := r1.next hl2 s2
  have hlt2 : p < (w.sptbl.set p none).length := by simpa using hlt
  refine ⟨_, r2, ⟨⟨p, Queue.init mem n true⟩, ?_, rfl⟩, ?_, ?_⟩
  · simp only [Obs.registered, List.getElem?_set_self hlt2]
    simp
  · cases hbit : RdyGrp.bit w.rdy p with
    | false => rfl
    | true =>
      obtain ⟨i, z, h1, h2, h3⟩ := (hR.ao.rdyBit p).mp hbit
      rw [hreg] at h1; cases h1
      rw [hy] at h2; cases h2
      exact absurd hpend h3
  · intro q hq
    simp only [Obs.registered, List.getElem?_set_ne (Ne.symm hq)]
    cases hs : w.sptbl[q]? with
    | none => rfl
    | some r =>
      cases r with
      | none => rfl
      | some i =>
        have hqm : q < c.maxSma := by rw [← hlen]; exact (List.getElem?_eq_some_iff.mp hs).1
        have := hR.ao.tbl q hqm
        rw [hs] at this
        obtain ⟨_, z, hz, _⟩ := hR.ao.regOk q i (by simpa using this.symm)
        have hil : i < w.aos.length := by rw [hR.ao.aos.1]; exact (List.getElem?_eq_some_iff.mp hz).1
        simp [List.getElem?_append_left hil]

/-! ### C127: whose subscription it is -/

/-- Has object `ao` itself subscribed to channel `ch`: what its own last call about the channel says. -/
def ownSub (ch ao : Nat) (ops : List Op) : Bool :=
  ops.foldl (fun b op => match op with
    | .subscribe k i => if k = ch ∧ i = ao then true else b
    | .unsubscribe k i => if k = ch ∧ i = ao then false else b
    | .unsubscribeAll i => if i = ao then false else b
    | _ => b) false

/-- `op` is a call about the subscriptions of `ao`. -/
def SubCall (ao : Nat) (op : Op) : Prop :=
  (∃ ch, op = .subscribe ch ao) ∨ (∃ ch, op = .unsubscribe ch ao) ∨ op = .unsubscribeAll ao

/-- Objects have no subscription left when they are terminated, and none is changed on their behalf afterwards. -/
structure Tidy (ops : List Op) : Prop where
  term : ∀ pre ao, pre ++ [.terminate ao] <+: ops → ∀ ch, ownSub ch ao pre = false
  call : ∀ pre ao op, SubCall ao op → pre ++ [op] <+: ops → .terminate ao ∉ pre

theorem ownSub_snoc (ch ao : Nat) (ops : List Op) (op : Op) : ownSub ch ao (ops ++ [op]) = (match op with
    | .subscribe k i => if k = ch ∧ i = ao then true else ownSub ch ao ops
    | .unsubscribe k i => if k = ch ∧ i = ao then false else ownSub ch ao ops
    | .unsubscribeAll i => if i = ao then false else ownSub ch ao ops
    | _ => ownSub ch ao ops) := by
  simp only [ownSub, List.foldl_append, List.foldl_cons, List.foldl_nil]

/-- In a tidy history, the subscriptions of a priority are those of the object registered there. -/
structure Owned (pre : List Op) (a : Spec.Abs) : Prop where
  un : ∀ ch p, a.reg p = none → a.sub ch p = false
  own : ∀ ch p i, a.reg p = some i → a.sub ch p = ownSub ch i pre
  new : ∀ ch i, a.aos.length ≤ i → ownSub ch i pre = false
  live : ∀ i p, (a.aos.map (·.prio))[i]? = some p → .terminate i ∉ pre → a.reg p = some i

theorem owned_step {w : World} {a a1 : Spec.Abs} {op : Op} {o : Out} {pre : List Op} (hR : R c w a) (hs : Spec.step c a op = .ok (a1, o))
    (hl : Spec.Legal c a op) (ht : Tidy (pre ++ [op])) (h : Owned pre a) : Owned (pre ++ [op]) a1 := by
  have hb := books hR hs
  have hlen : a1.aos.length = a.aos.length + (Obs.activations [op]).length := by
    have := congrArg List.length hb.prio
    simpa using this
  have regOk : ∀ p i, a.reg p = some i → (a.aos.map (·.prio))[i]? = some p := by
    intro p i hr
    obtain ⟨_, y, hy, hyp⟩ := hR.ao.regOk p i hr
    simp [hy, hyp]
  have lenOk : ∀ p i, a.reg p = some i → i < a.aos.length := by
    intro p i hr
    obtain ⟨_, y, hy, _⟩ := hR.ao.regOk p i hr
    exact (List.getElem?_eq_some_iff.mp hy).1
  have plain : Obs.activations [op] = [] → (∀ prio reg, Obs.registry [op] prio reg = reg) →
      (∀ ch p prio b, Obs.subscribed ch p [op] prio b = b) → (∀ ch i, ownSub ch i (pre ++ [op]) = ownSub ch i pre) →
      (∀ i, op ≠ .terminate i) → Owned (pre ++ [op]) a1 := by
    intro h1 h2 h3 h4 h5
    refine ⟨fun ch p hp => ?_, fun ch p i hp => ?_, fun ch i hi => ?_, fun i p hi hn => ?_⟩
    · rw [hb.reg, h2] at hp; rw [hb.sub, h3]; exact h.un ch p hp
    · rw [hb.reg, h2] at hp; rw [hb.sub, h3, h4]; exact h.own ch p i hp
    · rw [hlen, h1] at hi; rw [h4]; exact h.new ch i hi
    · rw [hb.prio, h1, List.append_nil] at hi
      rw [hb.reg, h2]
      exact h.live i p hi fun hh => hn (List.mem_append_left _ hh)
  have subCase : ∀ ao, SubCall ao op → (∀ prio reg, Obs.registry [op] prio reg = reg) → Obs.activations [op] = [] →
      (∀ i, op ≠ .terminate i) → ao < a.aos.length →
      (∀ ch i, i ≠ ao → ownSub ch i (pre ++ [op]) = ownSub ch i pre) →
      (∀ ch p, (a.aos.map (·.prio))[ao]? ≠ some p → Obs.subscribed ch p [op] (a.aos.map (·.prio)) (a.sub ch p) = a.sub ch p) →
      (∀ ch p, (a.aos.map (·.prio))[ao]? = some p → a.sub ch p = ownSub ch ao pre →
        Obs.subscribed ch p [op] (a.aos.map (·.prio)) (a.sub ch p) = ownSub ch ao (pre ++ [op])) → Owned (pre ++ [op]) a1 := by
    intro ao hc h2 h1 h5 hlt h4 h6 h7
    have hnt := ht.call pre ao op hc (List.prefix_refl _)
    obtain ⟨q, hq⟩ : ∃ q, (a.aos.map (·.prio))[ao]? = some q := ⟨_, List.getElem?_eq_getElem (by simpa using hlt)⟩
    have hreg := h.live ao q hq hnt
    refine ⟨fun ch p hp => ?_, fun ch p i hp => ?_, fun ch i hi => ?_, fun i p hi hn => ?_⟩
    · rw [hb.reg, h2] at hp
      rw [hb.sub, h6 ch p (fun hh => by rw [hq] at hh; cases hh; rw [hreg] at hp; cases hp)]
      exact h.un ch p hp
    · rw [hb.reg, h2] at hp
      rw [hb.sub]
      by_cases hi : i = ao
      · subst hi
        exact h7 ch p (regOk p i hp) (h.own ch p i hp)
      · rw [h6 ch p (fun hh => by rw [hq] at hh; cases hh; rw [hreg] at hp; cases hp; exact hi rfl), h4 ch i hi]
        exact h.own ch p i hp
    · rw [hlen, h1] at hi
      simp only [List.length_nil, Nat.add_zero] at hi
      rw [h4 ch i (by omega)]; exact h.new ch i hi
    · rw [hb.prio, h1, List.append_nil] at hi
      rw [hb.reg, h2]
      exact h.live i p hi fun hh => hn (List.mem_append_left _ hh)
  cases op with
  | activate p mem n =>
    have hnone : a.reg p = none := by
      simp only [Spec.step] at hs
      split at hs
      · cases hs
      · rename_i hc
        by_cases hr : a.reg p = none
        · exact hr
        · exact absurd (.inr (.inr hr)) hc
    refine ⟨fun ch q hq => ?_, fun ch q i hq => ?_, fun ch i hi => ?_, fun i q hi hn => ?_⟩
    · rw [hb.reg] at hq; rw [hb.sub]
      simp only [Obs.registry, Obs.subscribed] at hq ⊢
      split at hq
      · cases hq
      · exact h.un ch q hq
    · rw [hb.reg] at hq; rw [hb.sub, ownSub_snoc]
      simp only [Obs.registry, Obs.subscribed] at hq ⊢
      split at hq
      · rename_i hqp
        cases hq
        subst hqp
        rw [h.un ch q hnone, h.new ch _ (by simp)]
      · exact h.own ch q i hq
    · rw [ownSub_snoc]; rw [hlen] at hi; exact h.new ch i (by omega)
    · rw [hb.prio] at hi
      rw [hb.reg]
      simp only [Obs.registry, Obs.activations] at hi ⊢
      by_cases hil : i < (a.aos.map (·.prio)).length
      · rw [List.getElem?_append_left hil] at hi
        have := h.live i q hi fun hh => hn (List.mem_append_left _ hh)
        rw [if_neg (fun hqp => by subst hqp; rw [hnone] at this; cases this)]
        exact this
      · rw [List.getElem?_append_right (by omega)] at hi
        have h0 : i - (a.aos.map (·.prio)).length = 0 := by
          cases hk : i - (a.aos.map (·.prio)).length with
          | zero => rfl
          | succ k => rw [hk] at hi; simp at hi
        rw [h0] at hi
        simp only [List.getElem?_cons_zero, Option.some.injEq] at hi
        rw [if_pos hi.symm]
        congr 1
        omega
  | terminate ao =>
    obtain ⟨x, hx, hreg, _⟩ := hl
    have hP : (a.aos.map (·.prio))[ao]? = some x.prio := by simp [hx]
    refine ⟨fun ch q hq => ?_, fun ch q i hq => ?_, fun ch i hi => ?_, fun i q hi hn => ?_⟩
    · rw [hb.reg] at hq; rw [hb.sub]
      simp only [Obs.registry, Obs.subscribed, hP, Option.some.injEq] at hq ⊢
      split at hq
      · rename_i hqx
        subst hqx
        rw [h.own ch _ ao hreg]
        exact ht.term pre ao (List.prefix_refl _) ch
      · exact h.un ch q hq
    · rw [hb.reg] at hq; rw [hb.sub, ownSub_snoc]
      simp only [Obs.registry, Obs.subscribed, hP, Option.some.injEq] at hq ⊢
      split at hq
      · cases hq
      · exact h.own ch q i hq
    · rw [ownSub_snoc]; rw [hlen] at hi; exact h.new ch i (by omega)
    · rw [hb.prio] at hi
      rw [hb.reg]
      simp only [Obs.registry, Obs.activations, List.append_nil, hP, Option.some.injEq] at hi ⊢
      have h1 := h.live i q hi fun hh => hn (List.mem_append_left _ hh)
      rw [if_neg (fun hqp => by
        subst hqp
        rw [hreg] at h1
        cases h1
        exact hn (by simp))]
      exact h1
  | subscribe k ao =>
    refine subCase ao (.inl ⟨k, rfl⟩) (fun _ _ => rfl) rfl (by simp) hl ?_ ?_ ?_
    · intro ch i hi; rw [ownSub_snoc]; simp only []; rw [if_neg (fun hh => hi hh.2.symm)]
    · intro ch p hp; simp only [Obs.subscribed]; rw [if_neg (fun hh => hp hh.2)]
    · intro ch p hp he; rw [ownSub_snoc]; simp [Obs.subscribed, hp, he]
  | unsubscribe k ao =>
    refine subCase ao (.inr (.inl ⟨k, rfl⟩)) (fun _ _ => rfl) rfl (by simp) hl ?_ ?_ ?_
    · intro ch i hi; rw [ownSub_snoc]; simp only []; rw [if_neg (fun hh => hi hh.2.symm)]
    · intro ch p hp; simp only [Obs.subscribed]; rw [if_neg (fun hh => hp hh.2)]
    · intro ch p hp he; rw [ownSub_snoc]; simp [Obs.subscribed, hp, he]
  | unsubscribeAll ao =>
    refine subCase ao (.inr (.inr rfl)) (fun _ _ => rfl) rfl (by simp) hl ?_ ?_ ?_
    · intro ch i hi; rw [ownSub_snoc]; simp only []; rw [if_neg (fun hh => hi hh.symm)]
    · intro ch p hp; simp only [Obs.subscribed]; rw [if_neg hp]
    · intro ch p hp he; rw [ownSub_snoc]; simp [Obs.subscribed, hp]
  | _ => exact plain rfl (fun _ _ => rfl) (fun _ _ _ _ => rfl) (fun _ _ => by rw [ownSub_snoc]) (by simp)

theorem Tidy.left {xs ys : List Op} (h : Tidy (xs ++ ys)) : Tidy xs :=
  ⟨fun pre ao hp => h.term pre ao (hp.trans (List.prefix_append _ _)),
    fun pre ao op hc hp => h.call pre ao op hc (hp.trans (List.prefix_append _ _))⟩

theorem owned_run (h : Run c slots hdr ops outs w) (ht : Tidy ops) {a : Spec.Abs} 
    (hr : runOps (Spec.step c) (Spec.init fun e => (hdr e).sig) ops = (outs, .ok a)) : Owned ops a := by
  have key := run_induct (c := c) h.env.wf (P := fun ops _ a a' => ∀ pre, Tidy (pre ++ ops) → Owned pre a → Owned (pre ++ ops) a')
    (fun a pre _ hO => by simpa using hO)
    (fun w a op o a1 ops outs a2 hR hl hs ih pre hT hO => by
      have e : pre ++ op :: ops = pre ++ [op] ++ ops := by simp
      rw [e] at hT ⊢
      exact ih _ hT (owned_step hR hs hl hT.left hO))
    ops _ _ _ _ (R_init h.env) h.legal hr
  refine key [] ht ⟨fun _ _ _ => rfl, fun ch p i hp => ?_, fun _ _ _ => rfl, fun i p hp => ?_⟩
  · cases hp
  · simp [Spec.init] at hp

/-- **C127** (partial: histories in which objects have no subscription left when they are terminated, and no subscription is changed on
behalf of a terminated object). A publication reaches exactly the registered objects that have themselves subscribed to the channel,
except the sender; nobody else's queue changes. -/
theorem published_to_own_subscribers_partial (h : Run c slots hdr ops outs w) (ht : Tidy ops) {ch e : Nat} {s : Option Nat}
    (hl : Allowed c hdr ops (.publish ch e s)) {w' : World} {o : Out} (hs : step c w (.publish ch e s) = .ok (w', o))
    {i : Nat} {x x' : Ao} (hx : w.aos[i]? = some x) (hx' : w'.aos[i]? = some x') :
    Obs.contents x'.q = Obs.contents x.q ++
      (if Obs.registry ops [] (fun _ => none) x.prio = some i ∧ ownSub ch i ops = true ∧ s ≠ some i then [e] else []) := by
  obtain ⟨_, _, _, k⟩ := publish_delivers h hl hs
  rw [(k i x x' hx hx').2]
  congr 1
  obtain ⟨a, hR, hr, hb⟩ := h.full
  have hreg : a.reg = Obs.registry ops [] (fun _ => none) := hb.reg
  by_cases hri : Obs.registry ops [] (fun _ => none) x.prio = some i
  · have h1 := (owned_run h ht hr).own ch x.prio i (by rw [hreg]; exact hri)
    have h2 : a.sub ch x.prio = Obs.subscribed ch x.prio ops [] false := hb.sub ch x.prio
    rw [← h1, h2]
  · simp [hri]

theorem subscribed_append (ch p : Nat) : ∀ (xs ys : List Op) (prio : List Nat) (b : Bool), Obs.subscribed ch p (xs ++ ys) prio b =
    Obs.subscribed ch p ys (prio ++ Obs.activations xs) (Obs.subscribed ch p xs prio b) := by
  intro xs
  induction xs with
  | nil => intro ys prio b; simp [Obs.subscribed, Obs.activations]
  | cons op xs ih =>
    intro ys prio b
    rw [List.cons_append, subscribed_cons, ih, activations_cons op xs, subscribed_cons ch p op xs, List.append_assoc]

/-- An object that does not exist yet has not subscribed to anything. -/
theorem ownSub_new (h : Run c slots hdr ops outs w) {ch i : Nat} (hi : w.aos.length ≤ i) : ownSub ch i ops = false := by
  obtain ⟨a, hR, hr, _⟩ := h.full
  have key := run_induct (c := c) h.env.wf (P := fun ops _ a a' => ∀ pre, (∀ i, a.aos.length ≤ i → ownSub ch i pre = false) →
      ∀ i, a'.aos.length ≤ i → ownSub ch i (pre ++ ops) = false)
    (fun a pre h0 i hi => by simpa using h0 i hi)
    (fun w a op o a1 ops outs a2 hR hl hs ih pre h0 i hi => by
      have e : pre ++ op :: ops = pre ++ [op] ++ ops := by simp
      rw [e]
      refine ih _ (fun j hj => ?_) i hi
      have hlen : a.aos.length ≤ a1.aos.length := by
        have := congrArg List.length (books hR hs).prio
        simp only [List.length_map, List.length_append] at this
        omega
      have h0' := h0 j (by omega)
      rw [ownSub_snoc]
      cases op <;> try exact h0'
      case subscribe k ao => 
        have : ao < a.aos.length := hl
        simp only []; rw [if_neg (by omega)]; exact h0'
      case unsubscribe k ao => simp only []; split <;> first | rfl | exact h0'
      case unsubscribeAll ao => simp only []; split <;> first | rfl | exact h0')
    ops _ _ _ _ (R_init h.env) h.legal hr [] (fun _ _ => rfl)
  exact key i (by rw [← hR.ao.aos.1]; exact hi)

/-- **C127 (negation).** Subscriptions belong to the priority, not to the object, and terminating does not cancel them: an object that
is activated at the priority of a terminated one receives what that one had subscribed to, although it never subscribed. -/
theorem inherits_subscriptions (h : Run c slots hdr ops outs w) {p ao n ch : Nat} {mem : List Nat} {x : Ao}
    (hreg : Obs.registry ops [] (fun _ => none) p = some ao) (hx : w.aos[ao]? = some x)
    (hpend : Obs.contents x.q = []) (hn : n ≠ 0) (hm : n ≤ mem.length) (hw : n < c.qW)
    (hsub : Obs.subscribed ch p ops [] false = true) :
    ∃ w', Run c slots hdr (ops ++ [.terminate ao] ++ [.activate p mem n]) (outs ++ [.unit] ++ [.num w.aos.length]) w' ∧
      ownSub ch w.aos.length (ops ++ [.terminate ao] ++ [.activate p mem n]) = false ∧
      ∀ e s, Allowed c hdr (ops ++ [.terminate ao] ++ [.activate p mem n]) (.publish ch e s) → s ≠ some w.aos.length →
        ∀ w'' o, step c w' (.publish ch e s) = .ok (w'', o) →
          ∃ y, w''.aos[w.aos.length]? = some y ∧ Obs.contents y.q = [e] := by
  obtain ⟨w', hr, ⟨y, hy, hyc⟩, _⟩ := activated_again_partial h hreg hx hpend hn hm hw
  refine ⟨w', hr, by rw [ownSub_snoc, ownSub_snoc]; exact ownSub_new h (Nat.le_refl _), fun e s hl hne w'' o hs => ?_⟩
  obtain ⟨a, hR, _, hb⟩ := h.full
  obtain ⟨a', hR', _, hb'⟩ := hr.full
  have hrg : a.reg = Obs.registry ops [] (fun _ => none) := hb.reg
  obtain ⟨hpm, _⟩ := hR.ao.regOk p ao (by rw [hrg]; exact hreg)
  obtain ⟨_, hlen, _, k⟩ := publish_delivers hr hl hs
  have hpr : Obs.activations ops = a.aos.map (·.prio) := by have := hb.prio; simpa [Spec.init] using this.symm
  have hla : (Obs.activations ops).length = w.aos.length := by rw [hpr, hR.ao.aos.1]; simp
  have hreg' : Obs.registry (ops ++ [.terminate ao] ++ [.activate p mem n]) [] (fun _ => none) p = some w.aos.length := by
    rw [List.append_assoc, registry_append]
    simp [Obs.registry, hla]
  have hsub' : Obs.subscribed ch p (ops ++ [.terminate ao] ++ [.activate p mem n]) [] false = true := by
    rw [List.append_assoc, subscribed_append]
    simp [Obs.subscribed, hsub]
  have hrg' : a'.reg p = some w.aos.length := by
    have : a'.reg = _ := hb'.reg
    rw [this]; exact hreg'
  have htbl := hR'.ao.tbl p hpm
  rw [hrg'] at htbl
  simp only [Obs.registered, htbl] at hy
  have hylt : w.aos.length < w'.aos.length := (List.getElem?_eq_some_iff.mp hy).1
  have hz : w''.aos[w.aos.length]? = some (w''.aos[w.aos.length]'(by omega)) := List.getElem?_eq_getElem (by omega)
  refine ⟨_, hz, ?_⟩
  obtain ⟨z, hz', hzp⟩ := (hR'.ao.regOk p _ hrg').2
  have hyp : y.prio = p := by rw [(hR'.ao.aos.2 _ y z hy hz').1, hzp]
  rw [(k _ y _ hy hz).2, hyc, hyp, if_pos ⟨hreg', hsub', hne⟩]
  rfl

/-- **C127 (negation).** And the other way round: a call that unsubscribes a terminated object unsubscribes the object that has its
priority now, which then does not receive what it subscribed to. -/
theorem unsubscribed_by_terminated (h : Run c slots hdr ops outs w) {ao i ch : Nat} {x y : Ao} (hne : ao ≠ i)
    (hx : w.aos[ao]? = some x) (hy : w.aos[i]? = some y) (hp : x.prio = y.prio)
    (hch : ch < c.maxChan) (hown : ownSub ch i ops = true) :
    ∃ w1, Run c slots hdr (ops ++ [.unsubscribe ch ao]) (outs ++ [.unit]) w1 ∧ w1.aos[i]? = some y ∧
      ownSub ch i (ops ++ [.unsubscribe ch ao]) = true ∧
      ∀ e s, Allowed c hdr (ops ++ [.unsubscribe ch ao]) (.publish ch e s) → ∀ w2 o, step c w1 (.publish ch e s) = .ok (w2, o) →
        ∃ y', w2.aos[i]? = some y' ∧ Obs.contents y'.q = Obs.contents y.q := by
  obtain ⟨a, hR, hr, hb⟩ := h.full
  have halt : ao < a.aos.length := by rw [← hR.ao.aos.1]; exact (List.getElem?_eq_some_iff.mp hx).1
  have hl : Allowed c hdr ops (.unsubscribe ch ao) := (allowed_iff h hr).mpr halt
  have hsp : Spec.step c a (.unsubscribe ch ao) =
      .ok ({ a with sub := fun h p => if h = ch ∧ p = a.aos[ao].prio then false else a.sub h p }, .unit) := by
    simp only [Spec.step, List.getElem?_eq_getElem halt]
    rw [if_neg (by omega)]
  have hsim := (sim_step h.env.wf hR _ (show Spec.Legal c a (.unsubscribe ch ao) from halt)).1
  rw [hsp] at hsim
  rcases hst : step c w (.unsubscribe ch ao) with ⟨w1, o1⟩ | _ | _ <;> rw [hst] at hsim <;> simp only [StepRel] at hsim
  obtain ⟨hR1, rfl⟩ := hsim
  have haos : w1.aos = w.aos := by
    simp only [step, subscribe] at hst
    revert hst
    cases assertIf c.assertEn (decide (ch < c.maxChan)) with
    | assert => simp [Res.map', Res.bind]
    | ub => simp [Res.map', Res.bind]
    | ok _ =>
      simp only [Res.bind'_ok]
      split
      · rename_i x' g' h1 h2
        simp only [Bool.false_eq_true, if_false]
        cases RdyGrp.setUnready c.assertEn c.maxSma g' x'.prio with
        | ok g2 =>
          simp only [Res.bind'_ok, Res.map', Res.ok.injEq, Prod.mk.injEq, and_true]
          rintro rfl; rfl
        | assert => simp [Res.map', Res.bind]
        | ub => simp [Res.map', Res.bind]
      · simp [Res.map']
  have r1 := h.next hl hst
  have hy1 : w1.aos[i]? = some y := by rw [haos]; exact hy
  refine ⟨w1, r1, hy1, ?_, fun e s hl2 w2 o hs => ?_⟩
  · rw [ownSub_snoc]
    simp only []
    rw [if_neg (fun hh => hne hh.2)]
    exact hown
  · obtain ⟨_, hlen, _, k⟩ := publish_delivers r1 hl2 hs
    have hilt : i < w1.aos.length := (List.getElem?_eq_some_iff.mp hy1).1
    have hz : w2.aos[i]? = some (w2.aos[i]'(by omega)) := List.getElem?_eq_getElem (by omega)
    refine ⟨_, hz, ?_⟩
    rw [(k i y _ hy1 hz).2]
    have hpr : Obs.activations ops = a.aos.map (·.prio) := by have := hb.prio; simpa [Spec.init] using this.symm
    have hap : a.aos[ao].prio = y.prio := by
      rw [← (hR.ao.aos.2 ao x _ hx (List.getElem?_eq_getElem halt)).1, hp]
    have : Obs.subscribed ch y.prio (ops ++ [.unsubscribe ch ao]) [] false = false := by
      rw [subscribed_append]
      simp [Obs.subscribed, hpr, List.getElem?_eq_getElem halt, hap]
    rw [this]
    simp

end

/-! ### The hypotheses are met -/

namespace Demo
open Verif.Fwk.Spec

/-- Object 1 (priority 1, subscribed to channels 0 and 1) is terminated. -/
def gone : List Op := setup ++ [.terminate 1]

/-- Its priority is given to a new object, number 2. -/
def replaced : List Op := gone ++ [.activate 1 [0, 0] 2]

/-- The tidy way: the object unsubscribes first, and the new one subscribes itself. -/
def tidy : List Op := setup ++ [.unsubscribeAll 1, .terminate 1, .activate 1 [0, 0] 2, .subscribe 1 2]

/-- C125: posting to object 1 after its termination. -/
example : ∃ w, Run cfg slots hdr gone (outs gone) w ∧ runOps (step cfg) w [.postFifo 1 900, .select] = ([.unit], .ub) := by
  obtain ⟨w, h, hR⟩ := mk (ops := gone) (by decide +kernel)
  obtain ⟨x, hx, hp, hq⟩ := hR.ao.aos.get (i := 1) rfl
  refine ⟨w, h, post_to_terminated_crashes h (hR.ph.trans (by decide +kernel)) hx ?_ (by decide) ?_ ?_⟩
  · rw [hp]; simp only [Taken]; decide +kernel
  · obtain ⟨qa, h5, h6⟩ := hq
    rw [h5.nel, h5.qty, h6]; decide +kernel
  · intro q y hq hy
    rw [hp] at hq
    obtain ⟨i, z, h1, h2, _⟩ := (registered_eq hR q).1 y hy
    have hq0 : q = 0 := by have : q < 1 := hq; omega
    subst hq0
    exact absurd (show (none : Option Nat) = some i from h1) (by simp)

/-- C125: posting to object 1 after object 2 got its priority. -/
example : ∃ w, Run cfg slots hdr replaced (outs replaced) w ∧
    runOps (step cfg) w [.postFifo 1 900, .select, .fetch] = ([.unit, .chose 2], .assert) := by
  obtain ⟨w, h, hR⟩ := mk (ops := replaced) (by decide +kernel)
  obtain ⟨x, hx, hp, hq⟩ := hR.ao.aos.get (i := 1) rfl
  obtain ⟨y, hy, _, hqy⟩ := hR.ao.aos.get (i := 2) rfl
  refine ⟨w, h, post_to_replaced_asserts h (hR.ph.trans (by decide +kernel)) hx ?_ (by decide) hy ?_ (by decide) ?_ ?_⟩
  · rw [hp]; decide +kernel
  · rw [contents_eq hqy]
  · obtain ⟨qa, h5, h6⟩ := hq
    rw [h5.nel, h5.qty, h6]; decide +kernel
  · intro q z hq hz
    rw [hp] at hq
    obtain ⟨i, z', h1, h2, _⟩ := (registered_eq hR q).1 z hz
    have hq0 : q = 0 := by have : q < 1 := hq; omega
    subst hq0
    exact absurd (show (none : Option Nat) = some i from h1) (by simp)

/-- C125: a publication to channel 1 after the termination of its subscriber. -/
example : ∃ w, Run cfg slots hdr gone (outs gone) w ∧ step cfg w (.publish 1 900 none) = .assert := by
  obtain ⟨w, h, hR⟩ := mk (ops := gone) (by decide +kernel)
  obtain ⟨x, hx, hp, hq⟩ := hR.ao.aos.get (i := 1) rfl
  have hl : Allowed cfg hdr gone (.publish 1 900 none) := by
    obtain ⟨r, hr⟩ := Option.isSome_iff_exists.mp (show (res gone).isSome = true by decide +kernel)
    obtain ⟨_, hrun⟩ := check_ok hr
    have e1 : outs gone = r.1 := by simp [outs, hr]
    have e2 : fin gone = r.2 := by simp [fin, hr]
    refine (allowed_iff (a := fin gone) h ?_).mpr (legalB_iff (by decide +kernel))
    rw [e1, e2]; exact hrun
  refine ⟨w, h, publish_to_terminated_asserts_partial h hl hx ?_ ?_⟩
  · rw [hp]; simp only [Taken]; decide +kernel
  · rw [hp]; decide +kernel

/-- C126: an event is waiting for object 1 when it is terminated. -/
example : ∃ w, Run cfg slots hdr (setup ++ [.postFifo 1 900]) (outs (setup ++ [.postFifo 1 900])) w ∧
    runOps (step cfg) w [.terminate 1, .activate 1 [0, 0] 2, .select, .fetch] = ([.unit, .num 2, .chose 2], .assert) := by
  obtain ⟨w, h, hR⟩ := mk (ops := setup ++ [.postFifo 1 900]) (by decide +kernel)
  obtain ⟨x, hx, hp, hq⟩ := hR.ao.aos.get (i := 1) rfl
  have hlen : w.aos.length = 2 := by rw [hR.ao.aos.1]; decide +kernel
  refine ⟨w, h, ?_⟩
  have := activated_again_with_pending_asserts (p := 1) (n := 2) (mem := [0, 0]) h (hR.ph.trans (by decide +kernel)) (by decide +kernel) hx
    (by rw [contents_eq hq]; decide +kernel)
    (by
      intro q z hq hz
      obtain ⟨i, z', h1, h2, _⟩ := (registered_eq hR q).1 z hz
      have hq0 : q = 0 := by omega
      subst hq0
      exact absurd (show (none : Option Nat) = some i from h1) (by simp)) (by decide)
  rw [hlen] at this
  exact this

/-- C126, C127: nothing is waiting for object 1; the new object inherits its subscription to channel 1. -/
example : ∃ w x, Run cfg slots hdr setup (outs setup) w ∧ Obs.registry setup [] (fun _ => none) 1 = some 1 ∧ w.aos[1]? = some x ∧
    Obs.contents x.q = [] ∧ Obs.subscribed 1 1 setup [] false = true ∧
    (outs (replaced ++ [.publish 1 900 none])).getLast? = some (.num 1) ∧
    ((fin (replaced ++ [.publish 1 900 none])).aos.map (·.q.items)) = [[], [], [900]] := by
  obtain ⟨w, h, hR⟩ := mk (ops := setup) (by decide +kernel)
  obtain ⟨x, hx, hp, hq⟩ := hR.ao.aos.get (i := 1) rfl
  exact ⟨w, x, h, by decide +kernel, hx, by rw [contents_eq hq], by decide +kernel, by decide +kernel, by decide +kernel⟩

/-- Boolean form of `Tidy`. -/
def tidyB (ops : List Op) : Bool :=
  (List.range ops.length).all fun k => match ops[k]? with
    | some (.terminate ao) => (List.range 8).all fun ch => !ownSub ch ao (ops.take k)
    | some (.subscribe ch ao) => decide (ch < 8) && !(ops.take k).any fun o => match o with | .terminate i => i == ao | _ => false
    | some (.unsubscribe _ ao) => !(ops.take k).any fun o => match o with | .terminate i => i == ao | _ => false
    | some (.unsubscribeAll ao) => !(ops.take k).any fun o => match o with | .terminate i => i == ao | _ => false
    | _ => true

theorem ownSub_big (ch ao : Nat) : ∀ (ops : List Op), (∀ k i, Op.subscribe k i ∈ ops → k < 8) → 8 ≤ ch → ownSub ch ao ops = false := by
  intro ops
  suffices ∀ (l : List Op), (∀ k i, Op.subscribe k i ∈ l.reverse → k < 8) → 8 ≤ ch → ownSub ch ao l.reverse = false by
    intro h1 h2
    have := this ops.reverse (by simpa using h1) h2
    simpa using this
  intro l
  induction l with
  | nil => intros; rfl
  | cons op l ih =>
    intro h1 h2
    rw [List.reverse_cons] at h1 ⊢
    have ih' := ih (fun k i hk => h1 k i (List.mem_append_left _ hk)) h2
    rw [ownSub_snoc]
    cases op <;> try exact ih'
    case subscribe k i =>
      have := h1 k i (by simp)
      simp only []
      rw [if_neg (by omega)]; exact ih'
    case unsubscribe k i => simp only []; split <;> first | rfl | exact ih'
    case unsubscribeAll i => simp only []; split <;> first | rfl | exact ih'

theorem tidyB_sound {ops : List Op} (h : tidyB ops = true) : Tidy ops := by
  have at_ : ∀ pre op, pre ++ [op] <+: ops → ops[pre.length]? = some op ∧ ops.take pre.length = pre ∧ pre.length < ops.length := by
    rintro pre op ⟨t, rfl⟩
    simp
  have nt : ∀ (pre : List Op) ao, (!pre.any fun o => match o with | .terminate i => i == ao | _ => false) = true → Op.terminate ao ∉ pre := by
    intro pre ao hh hm
    simp only [Bool.not_eq_true', List.any_eq_false] at hh
    have := hh _ hm
    simp at this
  have all := List.all_eq_true.mp h
  have small : ∀ k i, Op.subscribe k i ∈ ops → k < 8 := by
    intro k i hm
    obtain ⟨j, hj, he⟩ := List.getElem_of_mem hm
    have := all j (List.mem_range.mpr hj)
    rw [List.getElem?_eq_getElem hj, he] at this
    simp only [Bool.and_eq_true, decide_eq_true_eq] at this
    exact this.1
  refine ⟨fun pre ao hp ch => ?_, fun pre ao op hc hp => ?_⟩
  · obtain ⟨h1, h2, h3⟩ := at_ pre _ hp
    have := all _ (List.mem_range.mpr h3)
    rw [h1] at this
    simp only [h2] at this
    by_cases hch : ch < 8
    · simpa using List.all_eq_true.mp this ch (List.mem_range.mpr hch)
    · exact ownSub_big ch ao pre (fun k i hm => small k i (hp.subset (List.mem_append_left _ hm))) (by omega)
  · obtain ⟨h1, h2, h3⟩ := at_ pre _ hp
    have := all _ (List.mem_range.mpr h3)
    rw [h1] at this
    rcases hc with ⟨ch, rfl⟩ | ⟨ch, rfl⟩ | rfl
    · simp only [h2, Bool.and_eq_true] at this
      exact nt pre ao this.2
    · simp only [h2] at this
      exact nt pre ao this
    · simp only [h2] at this
      exact nt pre ao this

/-- C127: a tidy history in which an object is terminated and replaced; the publication reaches the new object, which has subscribed. -/
example : ∃ w w' x x', Run cfg slots hdr tidy (outs tidy) w ∧ Tidy tidy ∧ Allowed cfg hdr tidy (.publish 1 900 none) ∧
    step cfg w (.publish 1 900 none) = .ok (w', .num 1) ∧ w.aos[2]? = some x ∧ w'.aos[2]? = some x' ∧ ownSub 1 2 tidy = true ∧
    ownSub 1 1 tidy = false ∧ Obs.contents x'.q = [900] := by
  have ht : Tidy tidy := tidyB_sound (by decide +kernel)
  obtain ⟨w, h, hR⟩ := mk (ops := tidy) (by decide +kernel)
  have hl : Allowed cfg hdr tidy (.publish 1 900 none) := allowed (by decide +kernel)
  obtain ⟨x, hx, hp, hq⟩ := hR.ao.aos.get (i := 2) rfl
  obtain ⟨w', hs⟩ := (publish_ok_iff h hl).1 (by
    have e : subs cfg tidy 1 = [1] := by decide +kernel
    rw [e]
    intro p hp
    simp only [List.mem_singleton] at hp
    subst hp
    refine ⟨2, x, by decide +kernel, hx, .inr ?_⟩
    obtain ⟨qa, h5, h6⟩ := hq
    rw [h5.nel, h5.qty, h6]; decide +kernel)
  have e : (subs cfg tidy 1).length = 1 := by decide +kernel
  rw [e] at hs
  obtain ⟨_, hlen, _⟩ := publish_delivers h hl hs
  have hlt : 2 < w.aos.length := (List.getElem?_eq_some_iff.mp hx).1
  have hx' : w'.aos[2]? = some (w'.aos[2]'(by omega)) := List.getElem?_eq_getElem (by omega)
  refine ⟨w, w', x, _, h, ht, hl, hs, hx, hx', by decide +kernel, by decide +kernel, ?_⟩
  rw [published_to_own_subscribers_partial h ht hl hs hx hx', contents_eq hq, if_pos ⟨by rw [hp]; decide +kernel, by decide +kernel, by simp⟩]
  decide +kernel

/-- C127: object 2 has replaced object 1 and subscribed to channel 1; then somebody unsubscribes object 1. -/
example : ∃ w x y, Run cfg slots hdr tidy (outs tidy) w ∧ w.aos[1]? = some x ∧ w.aos[2]? = some y ∧ x.prio = y.prio ∧
    1 < cfg.maxChan ∧ ownSub 1 2 tidy = true ∧
    (outs (tidy ++ [.unsubscribe 1 1] ++ [.publish 1 900 none])).getLast? = some (.num 0) := by
  obtain ⟨w, h, hR⟩ := mk (ops := tidy) (by decide +kernel)
  obtain ⟨x, hx, hp, hq⟩ := hR.ao.aos.get (i := 1) rfl
  obtain ⟨y, hy, hp2, _⟩ := hR.ao.aos.get (i := 2) rfl
  exact ⟨w, x, y, h, hx, hy, by rw [hp, hp2], by decide, by decide +kernel, by decide +kernel⟩

end Demo

end Verif.Fwk
