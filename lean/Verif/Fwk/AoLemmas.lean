import Verif.Fwk.EvtLemmas
import Verif.Queue.Lemmas
import Verif.RdyGrp.Props
/-
Queues, registry, ready group, subscriptions and pool tables: how the concrete structures represent the abstract ones.
-/
namespace Verif.Fwk
open Verif Verif.Fwk.Spec

/-! ### Queues -/

/-- `q` stores the items of `y`. -/
def QRep (c : Cfg) (s : Bool) (q : Queue.Queue) (y : AQ) : Prop :=
  ∃ qa, Queue.Rep c.qc s y.cap q qa ∧ qa.items = y.items

theorem QRep.le {c : Cfg} {s : Bool} {q : Queue.Queue} {y : AQ} (h : QRep c s q y) : y.items.length ≤ y.cap := by
  obtain ⟨qa, h, hi⟩ := h; rw [← hi]; exact h.le

theorem QRep.num {c : Cfg} {s : Bool} {q : Queue.Queue} {y : AQ} (h : QRep c s q y) : Queue.getNum q = y.items.length := by
  obtain ⟨qa, h, hi⟩ := h; rw [← hi]; exact h.qty

theorem qrep_init (c : Cfg) (s : Bool) (mem : List Nat) (n : Nat) (h : n ≤ mem.length) (hw : n < c.qW) :
    QRep c s (Queue.init mem n s) ⟨n, []⟩ := ⟨_, Queue.rep_init c.qc s n mem h hw, rfl⟩

/-- Put at the front or at the back. -/
def qputC (front : Bool) (c : Queue.Cfg) (q : Queue.Queue) (e : Nat) : Res (Queue.Queue × Queue.Sync) :=
  if front then Queue.putLifo c q e else Queue.putFifo c q e

theorem qput_sync {front : Bool} {c : Queue.Cfg} {q q' : Queue.Queue} {e : Nat} {s : Queue.Sync}
    (h : qputC front c q e = .ok (q', s)) (hr : q.qty < q.nelems) : s = if q.sma then .ready else .none := by
  have hn : ¬ q.qty ≥ q.nelems := by omega
  cases front
  · simp only [qputC, Bool.false_eq_true, if_false, Queue.putFifo, hn, Res.bind_eq_ok, Res.pure_eq, Res.ok.injEq,
      Prod.mk.injEq] at h
    obtain ⟨_, _, _, _, _, _, _, h⟩ := h
    exact h.symm
  · simp only [qputC, if_true, Queue.putLifo, hn, if_false, Res.bind_eq_ok, Res.pure_eq] at h
    obtain ⟨_, _, _, _, h⟩ := h
    generalize (if (q.pout == 0) = true then q.pend else q.pout) = po at h
    by_cases hz : (po == 0) = true
    · rw [if_pos hz] at h; cases h
    · rw [if_neg hz] at h
      simp only [Res.bind_eq_ok, Res.ok.injEq, Prod.mk.injEq] at h
      obtain ⟨_, _, _, h⟩ := h
      exact h.symm

theorem qput_rel {c : Cfg} {s : Bool} {q : Queue.Queue} {y : AQ} {e : Nat} {front : Bool} (hen : c.assertEn = true)
    (he : e ≠ 0) (h : QRep c s q y) :
    (y.items.length = y.cap → qputC front c.qc q e = .assert) ∧
    (y.items.length ≠ y.cap → ∃ q', qputC front c.qc q e = .ok (q', if s then .ready else .none) ∧
      QRep c s q' { y with items := if front then e :: y.items else y.items ++ [e] }) := by
  obtain ⟨qa, hr, hi⟩ := h
  have hstep : StepRel (Queue.Rep c.qc s y.cap) ((qputC front c.qc q e).map' fun r => (r.1, Queue.Out.unit))
      (Queue.Spec.put true y.cap qa e (if front then e :: qa.items else qa.items ++ [e])) := by
    cases front
    · have := Queue.rep_putFifo hr e
      simp only [Queue.step, Queue.Spec.step, show c.qc.assertEn = true from hen] at this
      simpa [qputC] using this
    · have := Queue.rep_putLifo hr e
      simp only [Queue.step, Queue.Spec.step, show c.qc.assertEn = true from hen] at this
      simpa [qputC] using this
  constructor
  · intro hf
    have hc : (true && (e == 0 || qa.items.length == y.cap)) = true := by simp [hi, hf]
    rw [Queue.Spec.put, if_pos hc] at hstep
    cases hq : qputC front c.qc q e with
    | ok r => rw [hq] at hstep; simp only [Res.map', StepRel] at hstep
    | assert => rfl
    | ub => rw [hq] at hstep; simp only [Res.map', StepRel] at hstep
  · intro hf
    have hc : ¬ (true && (e == 0 || qa.items.length == y.cap)) = true := by simp [hi, hf, he]
    have hc2 : ¬ (qa.items.length == y.cap) = true := by simp [hi, hf]
    rw [Queue.Spec.put, if_neg hc, if_neg hc2] at hstep
    cases hq : qputC front c.qc q e with
    | ok r =>
      obtain ⟨q', sy⟩ := r
      rw [hq] at hstep; simp only [Res.map', StepRel] at hstep
      have hlt : q.qty < q.nelems := by
        have h1 := hr.qty; have h2 := hr.nel; have h3 := hr.le
        rw [hi] at h1 h3
        omega
      have hs := qput_sync hq hlt
      rw [hr.sma] at hs
      subst hs
      refine ⟨q', rfl, _, hstep.1, ?_⟩
      simp [Queue.Spec.store, hi]
    | assert => rw [hq] at hstep; simp only [Res.map', StepRel] at hstep
    | ub => rw [hq] at hstep; simp only [Res.map', StepRel] at hstep

theorem qget_cons {c : Cfg} {s : Bool} {q : Queue.Queue} {y : AQ} {e : Nat} {rest : List Nat} (hen : c.assertEn = true)
    (h : QRep c s q y) (hi : y.items = e :: rest) :
    ∃ q', Queue.get c.qc q = .ok (q', e, if s && rest.isEmpty then .unready else .none) ∧
      QRep c s q' { y with items := rest } := by
  obtain ⟨qa, hr, hqa⟩ := h
  rw [hi] at hqa
  have hstep := Queue.rep_get hr (.inl hen)
  simp only [Queue.step, Queue.Spec.step, hqa] at hstep
  cases hq : Queue.get c.qc q with
  | ok r =>
    obtain ⟨q', e', sy⟩ := r
    rw [hq] at hstep; simp only [Res.map', StepRel, Queue.Out.ptr.injEq] at hstep
    obtain ⟨hrep, rfl⟩ := hstep
    refine ⟨q', ?_, _, hrep, rfl⟩
    have hqty : q.qty = rest.length + 1 := by rw [hr.qty, hqa]; rfl
    have hqty' : q'.qty = rest.length := hrep.qty
    simp only [Queue.get, Res.bind_eq_ok] at hq
    obtain ⟨_, _, hq⟩ := hq
    have hne : ¬ (!q.sma && q.qty == 0) = true := by simp [hqty]
    rw [if_neg hne] at hq
    simp only [Res.bind_eq_ok, Res.pure_eq, Res.ok.injEq, Prod.mk.injEq] at hq
    obtain ⟨_, _, hq1, _, hq3⟩ := hq
    have hq1' := congrArg Queue.Queue.qty hq1
    simp only [hqty'] at hq1'
    rw [hq1', hr.sma] at hq3
    rw [← hq3]
    have : (rest.length == 0) = rest.isEmpty := by cases rest <;> rfl
    rw [this]
  | assert => rw [hq] at hstep; simp only [Res.map', StepRel] at hstep
  | ub => rw [hq] at hstep; simp only [Res.map', StepRel] at hstep

theorem qget_nil {c : Cfg} {q : Queue.Queue} {y : AQ} (h : QRep c false q y) (hi : y.items = []) :
    ∃ q', Queue.get c.qc q = .ok (q', 0, .none) ∧ QRep c false q' y := by
  obtain ⟨qa, hr, hqa⟩ := h
  rw [hi] at hqa
  have h0 : q.qty = 0 := by rw [hr.qty, hqa]; rfl
  have hs : q.sma = false := hr.sma
  refine ⟨{ q with info := { q.info with nempty := q.info.nempty + 1 } }, by simp [Queue.get, h0, hs],
    { qa with empties := qa.empties + 1 }, ?_, by rw [hi]; exact hqa⟩
  refine { hr with info := ?_ }
  simp [hr.info, Queue.Spec.counters, Queue.bv_succ]

/-! ### Lists related element by element -/

/-- Same length, related elements at the same index. -/
def Rel2 {α β : Type} (R : α → β → Prop) (l : List α) (m : List β) : Prop :=
  l.length = m.length ∧ ∀ (i : Nat) x y, l[i]? = some x → m[i]? = some y → R x y

theorem Rel2.get {α β : Type} {R : α → β → Prop} {l : List α} {m : List β} (h : Rel2 R l m) {i : Nat} {y : β}
    (hy : m[i]? = some y) : ∃ x, l[i]? = some x ∧ R x y := by
  have hlt : i < l.length := by rw [h.1]; exact (List.getElem?_eq_some_iff.mp hy).1
  exact ⟨l[i], List.getElem?_eq_getElem hlt, h.2 i _ y (List.getElem?_eq_getElem hlt) hy⟩

theorem Rel2.get_none {α β : Type} {R : α → β → Prop} {l : List α} {m : List β} (h : Rel2 R l m) {i : Nat}
    (hy : m[i]? = none) : l[i]? = none := by
  rw [List.getElem?_eq_none_iff] at hy ⊢; rw [h.1]; exact hy

theorem Rel2.set {α β : Type} {R : α → β → Prop} {l : List α} {m : List β} (h : Rel2 R l m) {i : Nat} {x : α} {y : β}
    (hxy : R x y) : Rel2 R (l.set i x) (m.set i y) := by
  refine ⟨by simp [h.1], ?_⟩
  intro j x' y' hx hy
  by_cases hj : j = i
  · subst hj
    have h1 := (List.getElem?_eq_some_iff.mp hx).1
    have h2 := (List.getElem?_eq_some_iff.mp hy).1
    rw [List.length_set] at h1 h2
    rw [List.getElem?_set_self h1] at hx
    rw [List.getElem?_set_self h2] at hy
    cases hx; cases hy; exact hxy
  · rw [List.getElem?_set_ne (Ne.symm hj)] at hx hy
    exact h.2 j x' y' hx hy

theorem Rel2.snoc {α β : Type} {R : α → β → Prop} {l : List α} {m : List β} (h : Rel2 R l m) {x : α} {y : β}
    (hxy : R x y) : Rel2 R (l ++ [x]) (m ++ [y]) := by
  refine ⟨by simp [h.1], ?_⟩
  intro j x' y' hx hy
  rw [List.getElem?_append] at hx hy
  rw [h.1] at hx
  split at hx
  · rename_i hj
    rw [if_pos hj] at hy
    exact h.2 j x' y' hx hy
  · rename_i hj
    rw [if_neg hj] at hy
    have h1 := (List.getElem?_eq_some_iff.mp hx).1
    have hz : j - m.length = 0 := by simp at h1; omega
    rw [hz] at hx hy
    simp at hx hy
    subst hx hy; exact hxy

/-! ### Registry, active objects and ready group -/

/-- Representation of the registered active objects and of who is ready. -/
structure AoRel (c : Cfg) (sptbl : List (Option Nat)) (aos : List Ao) (rdy : RdyGrp.Grp) (reg : Nat → Option Nat)
    (aaos : List AAo) : Prop where
  len : sptbl.length = c.maxSma
  tbl : ∀ p, p < c.maxSma → sptbl[p]? = some (reg p)
  regOk : ∀ p i, reg p = some i → p < c.maxSma ∧ ∃ x, aaos[i]? = some x ∧ x.prio = p
  prioOk : ∀ x ∈ aaos, x.prio < c.maxSma
  aos : Rel2 (fun (x : Ao) (y : AAo) => x.prio = y.prio ∧ QRep c true x.q y.q) aos aaos
  rdyInv : RdyGrp.Inv c.maxSma rdy
  rdyBit : ∀ p, RdyGrp.bit rdy p = true ↔ ∃ i x, reg p = some i ∧ aaos[i]? = some x ∧ x.q.items ≠ []

theorem pending_iff (a : Abs) (p : Nat) :
    pending a p = true ↔ ∃ i x, a.reg p = some i ∧ a.aos[i]? = some x ∧ x.q.items ≠ [] := by
  unfold pending
  cases hr : a.reg p with
  | none => simp
  | some i =>
    cases hx : a.aos[i]? with
    | none => simp [hx]
    | some x => simp [hx]

variable {c : Cfg} {sptbl : List (Option Nat)} {aos : List Ao} {rdy : RdyGrp.Grp} {reg : Nat → Option Nat} {aaos : List AAo}

/-- Posting to a registered active object: the effect on queues and ready set. -/
theorem AoRel.put (h : AoRel c sptbl aos rdy reg aaos) (hm : c.maxSma ≤ 64) (hen : c.assertEn = true) {ao e : Nat}
    {y : AAo} (hy : aaos[ao]? = some y) (hreg : reg y.prio = some ao) (he : e ≠ 0) (front : Bool) :
    ∃ x, aos[ao]? = some x ∧ x.prio = y.prio ∧
      (y.q.items.length = y.q.cap → qputC front c.qc x.q e = .assert) ∧
      (y.q.items.length ≠ y.q.cap → ∃ q' s g, qputC front c.qc x.q e = .ok (q', s) ∧ applySync c rdy x.prio s = .ok g ∧
        AoRel c sptbl (aos.set ao { x with q := q' }) g reg
          (aaos.set ao { y with q := { y.q with items := if front then e :: y.q.items else y.q.items ++ [e] } })) := by
  obtain ⟨x, hx, hpr, hq⟩ := h.aos.get hy
  obtain ⟨h1, h2⟩ := qput_rel (front := front) hen he hq
  refine ⟨x, hx, hpr, h1, fun hne => ?_⟩
  obtain ⟨q', hput, hrep⟩ := h2 hne
  have hpm : x.prio < c.maxSma := by rw [hpr]; exact h.prioOk y (List.mem_of_getElem? hy)
  obtain ⟨g, hg, hginv, hgbit⟩ := RdyGrp.setReady_ok (en := c.assertEn) hm h.rdyInv hpm
  have hlt : ao < aaos.length := (List.getElem?_eq_some_iff.mp hy).1
  refine ⟨q', .ready, g, by simpa using hput, hg, ?_⟩
  generalize hit : (if front then e :: y.q.items else y.q.items ++ [e]) = items at hrep ⊢
  have hitne : items ≠ [] := by rw [← hit]; split <;> simp
  constructor
  · exact h.len
  · exact h.tbl
  · intro p i hpi
    obtain ⟨hp1, z, hz, hzp⟩ := h.regOk p i hpi
    refine ⟨hp1, ?_⟩
    by_cases hi : i = ao
    · subst hi
      rw [hy] at hz; cases hz
      exact ⟨_, List.getElem?_set_self hlt, hzp⟩
    · exact ⟨z, by rw [List.getElem?_set_ne (Ne.symm hi)]; exact hz, hzp⟩
  · intro z hz
    rcases List.mem_or_eq_of_mem_set hz with h3 | rfl
    · exact h.prioOk z h3
    · exact h.prioOk y (List.mem_of_getElem? hy)
  · exact h.aos.set ⟨hpr, hrep⟩
  · exact hginv
  · intro p
    rw [hgbit, Bool.or_eq_true, decide_eq_true_eq, h.rdyBit]
    constructor
    · rintro (rfl | ⟨i, z, h3, h4, h5⟩)
      · rw [hpr]; exact ⟨ao, _, hreg, List.getElem?_set_self hlt, hitne⟩
      · by_cases hi : i = ao
        · subst hi; exact ⟨i, _, h3, List.getElem?_set_self hlt, hitne⟩
        · exact ⟨i, z, h3, by rw [List.getElem?_set_ne (Ne.symm hi)]; exact h4, h5⟩
    · rintro ⟨i, z, h3, h4, h5⟩
      by_cases hi : i = ao
      · subst hi
        obtain ⟨_, z', hz', hzp⟩ := h.regOk p i h3
        rw [hy] at hz'; cases hz'
        exact .inl (by rw [hpr, hzp])
      · rw [List.getElem?_set_ne (Ne.symm hi)] at h4
        exact .inr ⟨i, z, h3, h4, h5⟩

/-- Taking the front event of an active object. -/
theorem AoRel.get (h : AoRel c sptbl aos rdy reg aaos) (hm : c.maxSma ≤ 64) (hen : c.assertEn = true) {ao e : Nat}
    {rest : List Nat} {y : AAo} (hy : aaos[ao]? = some y) (hreg : reg y.prio = some ao) (hi : y.q.items = e :: rest) :
    ∃ x q' s g, aos[ao]? = some x ∧ Queue.get c.qc x.q = .ok (q', e, s) ∧ applySync c rdy x.prio s = .ok g ∧
        AoRel c sptbl (aos.set ao { x with q := q' }) g reg
          (aaos.set ao { y with q := { y.q with items := rest } }) := by
  obtain ⟨x, hx, hpr, hq⟩ := h.aos.get hy
  obtain ⟨q', hget, hrep⟩ := qget_cons hen hq hi
  have hpm : x.prio < c.maxSma := by rw [hpr]; exact h.prioOk y (List.mem_of_getElem? hy)
  have hlt : ao < aaos.length := (List.getElem?_eq_some_iff.mp hy).1
  have hbitset : ∀ p, (∃ i z, reg p = some i ∧ (aaos.set ao { y with q := { y.q with items := rest } })[i]? = some z ∧ z.q.items ≠ []) ↔
      ((p ≠ y.prio ∧ RdyGrp.bit rdy p = true) ∨ (p = y.prio ∧ rest ≠ [])) := by
    intro p
    rw [h.rdyBit]
    constructor
    · rintro ⟨i, z, h3, h4, h5⟩
      by_cases hia : i = ao
      · subst hia
        rw [List.getElem?_set_self hlt] at h4
        cases h4
        obtain ⟨_, z', hz', hzp⟩ := h.regOk p i h3
        rw [hy] at hz'; cases hz'
        exact .inr ⟨hzp.symm, h5⟩
      · rw [List.getElem?_set_ne (Ne.symm hia)] at h4
        refine .inl ⟨?_, i, z, h3, h4, h5⟩
        rintro rfl
        rw [hreg] at h3; cases h3; exact hia rfl
    · rintro (⟨h1, i, z, h3, h4, h5⟩ | ⟨rfl, h1⟩)
      · refine ⟨i, z, h3, ?_, h5⟩
        rw [List.getElem?_set_ne]; exact h4
        rintro rfl
        obtain ⟨_, z', hz', hzp⟩ := h.regOk p _ h3
        rw [hy] at hz'; cases hz'
        exact h1 hzp.symm
      · exact ⟨ao, _, hreg, List.getElem?_set_self hlt, h1⟩
  have hmain : ∀ g, RdyGrp.Inv c.maxSma g →
      (∀ p, RdyGrp.bit g p = true ↔ ((p ≠ y.prio ∧ RdyGrp.bit rdy p = true) ∨ (p = y.prio ∧ rest ≠ []))) →
      AoRel c sptbl (aos.set ao { x with q := q' }) g reg (aaos.set ao { y with q := { y.q with items := rest } }) := by
    intro g hginv hgbit
    constructor
    · exact h.len
    · exact h.tbl
    · intro p i hpi
      obtain ⟨hp1, z, hz, hzp⟩ := h.regOk p i hpi
      refine ⟨hp1, ?_⟩
      by_cases hia : i = ao
      · subst hia
        rw [hy] at hz; cases hz
        exact ⟨_, List.getElem?_set_self hlt, hzp⟩
      · exact ⟨z, by rw [List.getElem?_set_ne (Ne.symm hia)]; exact hz, hzp⟩
    · intro z hz
      rcases List.mem_or_eq_of_mem_set hz with h3 | rfl
      · exact h.prioOk z h3
      · exact h.prioOk y (List.mem_of_getElem? hy)
    · exact h.aos.set ⟨hpr, hrep⟩
    · exact hginv
    · intro p; rw [hbitset]; exact hgbit p
  cases hrest : rest with
  | nil =>
    subst hrest
    obtain ⟨g, hg, hginv, hgbit⟩ := RdyGrp.setUnready_ok (en := c.assertEn) hm h.rdyInv hpm
    refine ⟨x, q', .unready, g, hx, by simpa using hget, hg, hmain g hginv ?_⟩
    intro p
    rw [hgbit, hpr]
    simp
  | cons r rs =>
    subst hrest
    refine ⟨x, q', .none, rdy, hx, by simpa using hget, rfl, hmain rdy h.rdyInv ?_⟩
    intro p
    by_cases hp : p = y.prio
    · subst hp
      simp only [ne_eq, not_true_eq_false, false_and, true_and, false_or, reduceCtorEq, not_false_iff, iff_true]
      rw [h.rdyBit]
      exact ⟨ao, y, hreg, hy, by rw [hi]; simp⟩
    · simp [hp]

/-- Activating a new active object. -/
theorem AoRel.activate (h : AoRel c sptbl aos rdy reg aaos) {p n : Nat} {mem : List Nat} (hp : p < c.maxSma)
    (hr : reg p = none) (hmem : n ≤ mem.length) (hw : n < c.qW) :
    AoRel c (sptbl.set p (some aaos.length)) (aos ++ [{ prio := p, q := Queue.init mem n true }]) rdy
      (fun x => if x = p then some aaos.length else reg x) (aaos ++ [⟨p, n, []⟩]) := by
  constructor
  · rw [List.length_set]; exact h.len
  · intro p' hp'
    by_cases hpp : p' = p
    · subst hpp; simp only [if_true]; rw [List.getElem?_set_self (by rw [h.len]; exact hp')]
    · simp only [hpp, if_false]; rw [List.getElem?_set_ne (Ne.symm hpp)]; exact h.tbl p' hp'
  · intro p' i hpi
    by_cases hpp : p' = p
    · subst hpp
      simp only [if_true, Option.some.injEq] at hpi
      subst hpi
      exact ⟨hp, ⟨p', n, []⟩, by simp, rfl⟩
    · simp only [hpp, if_false] at hpi
      obtain ⟨h1, x, h2, h3⟩ := h.regOk p' i hpi
      exact ⟨h1, x, by rw [List.getElem?_append_left (List.getElem?_eq_some_iff.mp h2).1]; exact h2, h3⟩
  · intro x hx
    simp only [List.mem_append, List.mem_singleton] at hx
    rcases hx with hx | rfl
    · exact h.prioOk x hx
    · exact hp
  · exact h.aos.snoc ⟨rfl, qrep_init c true mem n hmem hw⟩
  · exact h.rdyInv
  · intro p'
    rw [h.rdyBit]
    constructor
    · rintro ⟨i, x, h1, h2, h3⟩
      refine ⟨i, x, ?_, by rw [List.getElem?_append_left (List.getElem?_eq_some_iff.mp h2).1]; exact h2, h3⟩
      rw [if_neg (by rintro rfl; rw [hr] at h1; cases h1)]
      exact h1
    · rintro ⟨i, x, h1, h2, h3⟩
      by_cases hpp : p' = p
      · subst hpp
        simp only [if_true, Option.some.injEq] at h1
        subst h1
        simp at h2
        subst h2
        exact absurd rfl h3
      · simp only [hpp, if_false] at h1
        obtain ⟨_, z, h4, _⟩ := h.regOk p' i h1
        rw [List.getElem?_append_left (List.getElem?_eq_some_iff.mp h4).1] at h2
        exact ⟨i, x, h1, h2, h3⟩

/-- Terminating an active object whose queue is empty. -/
theorem AoRel.terminate (h : AoRel c sptbl aos rdy reg aaos) {ao : Nat} {y : AAo} (hy : aaos[ao]? = some y)
    (hreg : reg y.prio = some ao) (hi : y.q.items = []) :
    AoRel c (sptbl.set y.prio none) aos rdy (fun x => if x = y.prio then none else reg x) aaos := by
  constructor
  · rw [List.length_set]; exact h.len
  · intro p' hp'
    by_cases hpp : p' = y.prio
    · subst hpp; simp only [if_true]; rw [List.getElem?_set_self (by rw [h.len]; exact hp')]
    · simp only [hpp, if_false]; rw [List.getElem?_set_ne (Ne.symm hpp)]; exact h.tbl p' hp'
  · intro p' i hpi
    by_cases hpp : p' = y.prio
    · simp [hpp] at hpi
    · simp only [hpp, if_false] at hpi; exact h.regOk p' i hpi
  · exact h.prioOk
  · exact h.aos
  · exact h.rdyInv
  · intro p'
    rw [h.rdyBit]
    constructor
    · rintro ⟨i, x, h1, h2, h3⟩
      refine ⟨i, x, ?_, h2, h3⟩
      rw [if_neg]; exact h1
      rintro rfl
      rw [hreg] at h1; cases h1
      rw [hy] at h2; cases h2
      exact h3 hi
    · rintro ⟨i, x, h1, h2, h3⟩
      by_cases hpp : p' = y.prio
      · simp [hpp] at h1
      · simp only [hpp, if_false] at h1; exact ⟨i, x, h1, h2, h3⟩

/-! ### Counting references -/

theorem flatMap_set_perm {α : Type} (f : α → List Nat) {l : List α} {i : Nat} {x y : α} (hx : l[i]? = some x)
    {d d' : List Nat} (hp : (f y ++ d).Perm (f x ++ d')) : ((l.set i y).flatMap f ++ d).Perm (l.flatMap f ++ d') := by
  induction l generalizing i with
  | nil => simp at hx
  | cons a l ih =>
    cases i with
    | zero =>
      simp only [List.getElem?_cons_zero, Option.some.injEq] at hx
      subst hx
      simp only [List.set_cons_zero, List.flatMap_cons, List.append_assoc]
      have h1 : (f y ++ (l.flatMap f ++ d)).Perm (f y ++ (d ++ l.flatMap f)) := List.perm_append_comm.append_left _
      have h2 : (f a ++ (d' ++ l.flatMap f)).Perm (f a ++ (l.flatMap f ++ d')) := List.perm_append_comm.append_left _
      refine h1.trans (List.Perm.trans ?_ h2)
      rw [← List.append_assoc, ← List.append_assoc]
      exact hp.append_right _
    | succ i =>
      simp only [List.getElem?_cons_succ] at hx
      simp only [List.set_cons_succ, List.flatMap_cons, List.append_assoc]
      exact (ih hx).append_left _

theorem flatMap_set_add {α : Type} (f : α → List Nat) {l : List α} {i e : Nat} {x y : α} (hx : l[i]? = some x)
    (hp : (f y).Perm (e :: f x)) : ((l.set i y).flatMap f).Perm (e :: l.flatMap f) := by
  have := flatMap_set_perm f hx (d := []) (d' := [e]) (by
    rw [List.append_nil]; exact hp.trans (by simpa using (List.perm_append_singleton e (f x)).symm))
  rw [List.append_nil] at this
  exact this.trans (List.perm_append_singleton _ _)

theorem flatMap_set_sub {α : Type} (f : α → List Nat) {l : List α} {i e : Nat} {x y : α} (hx : l[i]? = some x)
    (hp : (f x).Perm (e :: f y)) : (l.flatMap f).Perm (e :: (l.set i y).flatMap f) := by
  have := flatMap_set_perm f hx (d := [e]) (d' := []) (by
    rw [List.append_nil]; exact ((List.perm_append_singleton e (f y)).trans hp.symm))
  rw [List.append_nil] at this
  exact this.symm.trans (List.perm_append_singleton _ _)

end Verif.Fwk
