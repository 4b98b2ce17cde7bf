import Verif.Fwk.Demo
/-
`rkh_queue_deplete` on the event queue of an active object and on deferred queues, mixed with all other operations of the framework.
-/
namespace Verif.Fwk.Deplete
open Verif Verif.Fwk Verif.Fwk.Spec

/-! ### Model -/

/-- An operation of the framework, or `rkh_queue_deplete` on the queue of the object `ao` or on the deferred queue `i`. -/
inductive DOp where
  | op (o : Op)
  | depleteAo (ao : Nat)
  | depleteDq (i : Nat)

/-- `rkh_queue_deplete` (rkhqueue.c:302-319) on the queue of an active object; `cbRKHSmaSetUnready` is `rkh_sma_setUnready`. -/
def depleteAo (c : Cfg) (w : World) (ao : Nat) : Res World :=
  match w.aos[ao]? with
  | none => .ub
  | some a =>
    (applySync c w.rdy a.prio (Queue.deplete a.q).2).bind fun g =>
    .ok { w with aos := w.aos.set ao { a with q := (Queue.deplete a.q).1 }, rdy := g }

/-- `rkh_queue_deplete` (rkhqueue.c:302-319) on a deferred queue. -/
def depleteDq (w : World) (i : Nat) : Res World :=
  match w.dqs[i]? with
  | none => .ub
  | some q => .ok { w with dqs := w.dqs.set i (Queue.deplete q).1 }

/-- One operation. -/
def stepD (c : Cfg) (w : World) : DOp → Res (World × Out)
  | .op o => step c w o
  | .depleteAo ao => (depleteAo c w ao).map' fun w => (w, .unit)
  | .depleteDq i => (depleteDq w i).map' fun w => (w, .unit)

/-! ### Specification -/

/-- The queue is emptied; its references are held by nobody in particular from now on (they are kept with the reservations). -/
def specD (c : Cfg) (a : Abs) : DOp → Res (Abs × Out)
  | .op o => Spec.step c a o
  | .depleteAo ao =>
    match a.aos[ao]? with
    | none => .ub
    | some x => .ok ({ a with aos := a.aos.set ao { x with q := { x.q with items := [] } }, resv := x.q.items ++ a.resv }, .unit)
  | .depleteDq i =>
    match a.dqs[i]? with
    | none => .ub
    | some q => .ok ({ a with dqs := a.dqs.set i { q with items := [] }, resv := q.items ++ a.resv }, .unit)

/-- Contract: the queue of a registered object is not depleted between its selection and `rkh_sma_get`, nor inside `rkh_sma_recall` for it. -/
def LegalD (c : Cfg) (a : Abs) : DOp → Prop
  | .op o => Legal c a o
  | .depleteAo ao => Registered a ao ∧ a.ph ≠ .fetch ao ∧ ∀ e, .rc3 ao e ∉ a.conts
  | .depleteDq i => i < a.dqs.length

/-- Every operation of the history respects the contract in the state it is executed in. -/
def LegalRunD (c : Cfg) : Abs → List DOp → Prop
  | _, [] => True
  | a, op :: ops => LegalD c a op ∧ ∀ a' o, specD c a op = .ok (a', o) → LegalRunD c a' ops

/-- A history `ops` that respects the contract, started on the initialised framework, returned `outs` and led to `w`. -/
structure RunD (c : Cfg) (slots : List MemPool.Pool) (hdr : Nat → Evt) (ops : List DOp) (outs : List Out) (w : World) : Prop where
  env : Env c slots hdr
  legal : LegalRunD c (Spec.init fun e => (hdr e).sig) ops
  run : runOps (stepD c) (initW c slots hdr) ops = (outs, .ok w)

/-- The events a depletion throws away. -/
def thrown (w : World) : DOp → List Nat
  | .op _ => []
  | .depleteAo ao => match w.aos[ao]? with | some x => Obs.contents x.q | none => []
  | .depleteDq i => match w.dqs[i]? with | some q => Obs.contents q | none => []

/-- The events thrown away by the depletions of a history that begins in `w`. -/
def lost (c : Cfg) : World → List DOp → List Nat
  | _, [] => []
  | w, op :: ops => thrown w op ++ (match stepD c w op with | .ok r => lost c r.1 ops | _ => [])

/-- How often `e` was given back with RKH_FWK_GC. -/
def gcs (e : Nat) (ops : List DOp) : Nat := ops.countP fun op => match op with | .op (.gc x) => x == e | _ => false

/-- How often `e` was reserved. -/
def reserves (e : Nat) (ops : List DOp) : Nat := ops.countP fun op => match op with | .op (.reserve x) => x == e | _ => false

variable {c : Cfg} {slots : List MemPool.Pool} {hdr : Nat → Evt} {w : World} {a : Abs}

/-! ### Simulation -/

theorem qrep_deplete {s : Bool} {q : Queue.Queue} {y : AQ} (h : QRep c s q y) (hen : c.assertEn = true) :
    QRep c s (Queue.deplete q).1 { y with items := [] } ∧ (Queue.deplete q).2 = if s then .unready else .none := by
  obtain ⟨qa, hr, hi⟩ := h
  have := Queue.rep_step (c := c.qc) (.inl hen) .deplete hr
  simp only [Queue.step, Queue.Spec.step, StepRel] at this
  refine ⟨⟨_, this.1, rfl⟩, ?_⟩
  simp only [Queue.deplete, hr.sma]

theorem _root_.Verif.Fwk.AoRel.deplete {sptbl : List (Option Nat)} {aos : List Ao} {rdy : RdyGrp.Grp} {reg : Nat → Option Nat} {aaos : List AAo}
    (h : AoRel c sptbl aos rdy reg aaos) (hm : c.maxSma ≤ 64) (hen : c.assertEn = true) {ao : Nat} {y : AAo} (hy : aaos[ao]? = some y)
    (hreg : reg y.prio = some ao) :
    ∃ x g, aos[ao]? = some x ∧ Obs.contents x.q = y.q.items ∧ applySync c rdy x.prio (Queue.deplete x.q).2 = .ok g ∧
      AoRel c sptbl (aos.set ao { x with q := (Queue.deplete x.q).1 }) g reg (aaos.set ao { y with q := { y.q with items := [] } }) := by
  obtain ⟨x, hx, hpr, hq⟩ := h.aos.get hy
  obtain ⟨hrep, hs⟩ := qrep_deplete hq hen
  have hpm : x.prio < c.maxSma := by rw [hpr]; exact h.prioOk y (List.mem_of_getElem? hy)
  have hlt : ao < aaos.length := (List.getElem?_eq_some_iff.mp hy).1
  obtain ⟨g, hg, hginv, hgbit⟩ := RdyGrp.setUnready_ok (en := c.assertEn) hm h.rdyInv hpm
  refine ⟨x, g, hx, contents_eq hq, by rw [hs]; exact hg, ?_⟩
  constructor
  · exact h.len
  · exact h.tbl
  · intro p i hpi
    obtain ⟨hp1, z, hz, hzp⟩ := h.regOk p i hpi
    refine ⟨hp1, ?_⟩
    by_cases hia : i = ao
    · subst hia
      rw [hy] at hz; cases hz
      exact ⟨_, List.getElem?_set_self hlt, hzp⟩
    · exact ⟨z, by rw [List.getElem?_set_ne (Ne.symm hia)]; exact hz, hzp⟩
  · intro z hz
    rcases List.mem_or_eq_of_mem_set hz with h3 | rfl
    · exact h.prioOk z h3
    · exact h.prioOk y (List.mem_of_getElem? hy)
  · exact h.aos.set ⟨hpr, hrep⟩
  · exact hginv
  · intro p
    rw [hgbit, hpr]
    have hb := h.rdyBit p
    constructor
    · intro hh
      have h1 : p ≠ y.prio ∧ RdyGrp.bit rdy p = true := by simpa [and_comm] using hh
      obtain ⟨i, z, h3, h4, h5⟩ := hb.mp h1.2
      refine ⟨i, z, h3, ?_, h5⟩
      rw [List.getElem?_set_ne]; exact h4
      rintro rfl
      obtain ⟨_, z', hz', hzp⟩ := h.regOk p _ h3
      rw [hy] at hz'; cases hz'
      exact h1.1 hzp.symm
    · rintro ⟨i, z, h3, h4, h5⟩
      by_cases hia : i = ao
      · subst hia
        rw [List.getElem?_set_self hlt] at h4
        cases h4
        exact absurd rfl h5
      · rw [List.getElem?_set_ne (Ne.symm hia)] at h4
        have h6 : p ≠ y.prio := by
          rintro rfl
          rw [hreg] at h3; cases h3; exact hia rfl
        have h7 := hb.mpr ⟨i, z, h3, h4, h5⟩
        simp [h6, h7]

theorem simD (wf : Wf c) (h : R c w a) (op : DOp) (hl : LegalD c a op) : StepRel (R c) (stepD c w op) (specD c a op) ∧ specD c a op ≠ .ub := by
  cases op with
  | op o => exact sim_step wf h o hl
  | depleteAo ao =>
    obtain ⟨⟨y, hy, hreg⟩, hph, hnr⟩ := hl
    obtain ⟨x, g, hx, _, hs, hrel⟩ := h.ao.deplete wf.sma wf.en hy hreg
    have hlt : ao < a.aos.length := (List.getElem?_eq_some_iff.mp hy).1
    simp only [stepD, specD, depleteAo, hx, hy, hs, Res.bind'_ok, Res.map', StepRel, and_true, ne_eq, reduceCtorEq, not_false_iff]
    refine { h with ao := hrel, ev := ?_, fetchOk := ?_, rc3Ok := ?_ }
    · refine h.ev.perm ?_
      unfold holders
      have h1 := flatMap_set_perm (fun x : AAo => x.q.items) (l := a.aos) (i := ao) (y := { y with q := { y.q with items := [] } }) hy (d := y.q.items) (d' := []) (by simp)
      rw [List.append_nil] at h1
      simp only [List.append_assoc]
      refine List.Perm.trans ?_ (h1.append_right _)
      simp only [List.append_assoc]
      refine List.Perm.append_left _ ?_
      rw [← List.append_assoc, ← List.append_assoc y.q.items]
      exact List.perm_append_comm.append_right _
    · intro ao' hao
      obtain ⟨z, hz, hzr, hzi⟩ := h.fetchOk ao' hao
      refine ⟨z, ?_, hzr, hzi⟩
      rw [List.getElem?_set_ne (by rintro rfl; exact hph hao)]; exact hz
    · intro o x hx
      obtain ⟨z, hz, hzi⟩ := h.rc3Ok o x hx
      refine ⟨z, ?_, hzi⟩
      rw [List.getElem?_set_ne (by rintro rfl; exact hnr x hx)]; exact hz
  | depleteDq i =>
    have hy : a.dqs[i]? = some a.dqs[i] := List.getElem?_eq_getElem hl
    obtain ⟨q, hq, hrep⟩ := h.dq.get hy
    simp only [stepD, specD, depleteDq, hq, hy, Res.map', StepRel, and_true, ne_eq, reduceCtorEq, not_false_iff]
    refine { h with dq := h.dq.set (qrep_deplete hrep wf.en).1, ev := ?_ }
    refine h.ev.perm ?_
    unfold holders
    have h1 := flatMap_set_perm (fun x : AQ => x.items) (l := a.dqs) (i := i) (y := { a.dqs[i] with items := [] }) hy (d := a.dqs[i].items) (d' := []) (by simp)
    rw [List.append_nil] at h1
    simp only [List.append_assoc]
    refine List.Perm.append_left _ ?_
    refine List.Perm.trans ?_ (h1.append_right _)
    simp

/-- What the specification does to the reservations. -/
theorem resv_step (h : R c w a) {op : DOp} {o : Out} {a' : Abs} (hl : LegalD c a op) (hs : specD c a op = .ok (a', o)) {e : Nat} (he : c.static e = false) :
    a'.resv.count e + gcs e [op] = a.resv.count e + reserves e [op] + (thrown w op).count e := by
  cases op with
  | op p =>
    have hb := (books h hs).resv
    rw [hb]
    simp only [thrown, List.count_nil, Nat.add_zero, gcs, reserves, List.countP_cons, List.countP_nil, Nat.zero_add]
    cases p <;> simp only [Obs.reservations, Bool.false_eq_true, if_false, Nat.add_zero, beq_iff_eq]
    case reserve x => rw [List.count_cons]; simp only [beq_iff_eq]
    case gc x =>
      by_cases hx : x = e
      · subst hx
        have hm : x ∈ a.resv := by
          rcases hl.2 with h1 | h1
          · rw [he] at h1; cases h1
          · exact h1
        have := List.count_pos_iff.mpr hm
        rw [List.count_erase_self, if_pos rfl]; omega
      · rw [List.count_erase_of_ne (Ne.symm hx), if_neg hx, Nat.add_zero]
  | depleteAo ao =>
    simp only [specD] at hs
    cases hy : a.aos[ao]? with
    | none => rw [hy] at hs; cases hs
    | some y =>
      rw [hy] at hs
      simp only [Res.ok.injEq, Prod.mk.injEq] at hs
      obtain ⟨rfl, _⟩ := hs
      obtain ⟨x, hx, _, hq⟩ := h.ao.aos.get hy
      simp only [thrown, hx, contents_eq hq, List.count_append, gcs, reserves, List.countP_cons, List.countP_nil]
      simp; omega
  | depleteDq i =>
    simp only [specD] at hs
    cases hy : a.dqs[i]? with
    | none => rw [hy] at hs; cases hs
    | some y =>
      rw [hy] at hs
      simp only [Res.ok.injEq, Prod.mk.injEq] at hs
      obtain ⟨rfl, _⟩ := hs
      obtain ⟨x, hx, hq⟩ := h.dq.get hy
      simp only [thrown, hx, contents_eq hq, List.count_append, gcs, reserves, List.countP_cons, List.countP_nil]
      simp; omega

/-- Whole histories. -/
theorem runD_sim (wf : Wf c) : ∀ (ops : List DOp) (w : World) (a : Abs), R c w a → LegalRunD c a ops →
    (runOps (stepD c) w ops).1 = (runOps (specD c) a ops).1 ∧ FinRel (R c) (runOps (stepD c) w ops).2 (runOps (specD c) a ops).2 ∧
    (runOps (specD c) a ops).2 ≠ .ub ∧
    ∀ a' e, (runOps (specD c) a ops).2 = .ok a' → c.static e = false →
      a'.resv.count e + gcs e ops = a.resv.count e + reserves e ops + (lost c w ops).count e := by
  intro ops
  induction ops with
  | nil => intro w a h _; exact ⟨rfl, h, by simp [runOps], by rintro a' e he hs; simp only [runOps, Res.ok.injEq] at he; subst he; simp [gcs, reserves, lost]⟩
  | cons op ops ih =>
    intro w a h hl
    obtain ⟨h1, h2⟩ := simD wf h op hl.1
    have hl2 := hl.2
    simp only [runOps]
    rcases hf : stepD c w op with ⟨s', o⟩ | _ | _ <;> rcases hg : specD c a op with ⟨t', o'⟩ | _ | _ <;>
      rw [hf, hg] at h1 <;> simp only [StepRel] at h1
    · obtain ⟨hr, rfl⟩ := h1
      obtain ⟨k1, k2, k3, k4⟩ := ih s' t' hr (hl2 t' o hg)
      refine ⟨by simp [k1], k2, k3, ?_⟩
      intro a' e he hs
      have g1 := k4 a' e he hs
      have g2 := resv_step h hl.1 hg hs
      have e1 : gcs e (op :: ops) = gcs e [op] + gcs e ops := by unfold gcs; rw [← List.countP_append]; rfl
      have e2 : reserves e (op :: ops) = reserves e [op] + reserves e ops := by unfold reserves; rw [← List.countP_append]; rfl
      rw [e1, e2, lost, hf, List.count_append]
      simp only
      omega
    · exact ⟨rfl, trivial, by simp, by simp⟩
    · exact absurd hg h2

theorem RunD.abs {ops : List DOp} {outs : List Out} (h : RunD c slots hdr ops outs w) :
    ∃ a, runOps (specD c) (Spec.init fun e => (hdr e).sig) ops = (outs, .ok a) ∧ R c w a ∧
      ∀ e, c.static e = false → a.resv.count e + gcs e ops = reserves e ops + (lost c (initW c slots hdr) ops).count e := by
  obtain ⟨h1, h2, _, h4⟩ := runD_sim h.env.wf ops _ _ (R_init h.env) h.legal
  rw [h.run] at h1 h2
  rcases hx : runOps (specD c) (Spec.init fun e => (hdr e).sig) ops with ⟨o, r⟩
  rw [hx] at h1 h2 h4
  simp only at h1 h2 h4
  subst h1
  cases r with
  | ok a => exact ⟨a, rfl, h2, fun e he => by simpa [Spec.init] using h4 a e rfl he⟩
  | assert => exact h2.elim
  | ub => exact h2.elim

/-! ### Results -/

/-- **C170.** Histories with depletions (within the contract) do exactly what the specification says: the same results, the same assertion
failures, never undefined behaviour. -/
theorem with_depletions_refines (h : Env c slots hdr) {ops : List DOp} (hl : LegalRunD c (Spec.init fun e => (hdr e).sig) ops) :
    (runOps (stepD c) (initW c slots hdr) ops).1 = (runOps (specD c) (Spec.init fun e => (hdr e).sig) ops).1 ∧
    FinRel (R c) (runOps (stepD c) (initW c slots hdr) ops).2 (runOps (specD c) (Spec.init fun e => (hdr e).sig) ops).2 ∧
    (runOps (stepD c) (initW c slots hdr) ops).2 ≠ .ub := by
  obtain ⟨h1, h2, h3, _⟩ := runD_sim h.wf ops _ _ (R_init h) hl
  refine ⟨h1, h2, ?_⟩
  intro hu
  rw [hu] at h2
  revert h2
  cases hx : (runOps (specD c) (Spec.init fun e => (hdr e).sig) ops).2 <;> simp_all [FinRel]

/-- **C170.** The reference counter of every allocated event, after any history with depletions: the places that hold it, plus the reservations made,
plus the references thrown away by depletions, minus the collections asked for. -/
theorem reference_count_with_depletions {ops : List DOp} {outs : List Out} (h : RunD c slots hdr ops outs w) {i e : Nat} (ha : Obs.Allocated c w i e) :
    (w.hdr e).nref + gcs e ops = (Obs.references w []).count e + reserves e ops + (lost c (initW c slots hdr) ops).count e := by
  obtain ⟨a, _, hR, hc⟩ := h.abs
  have hu := (allocated_iff hR i e).mp ha
  have := hc e (hR.ev.nostat i e (.inl hu))
  have hh := hR.ev.hdrU i e hu
  have h1 : (w.hdr e).nref = (holders a).count e := by rw [hh]
  have h2 := references_eq hR
  unfold Obs.references at h2 ⊢
  rw [h1, ← h2]
  simp only [List.count_append, List.count_nil] at this ⊢
  omega

theorem legalRunD_append {ops ops2 : List DOp} {a : Abs} (h : LegalRunD c a (ops ++ ops2)) : LegalRunD c a ops ∧
    ∀ outs a', runOps (specD c) a ops = (outs, .ok a') → LegalRunD c a' ops2 := by
  induction ops generalizing a with
  | nil => exact ⟨trivial, by intro outs a' hr; simp only [runOps, Prod.mk.injEq, Res.ok.injEq] at hr; rw [← hr.2]; exact h⟩
  | cons op ops ih =>
    refine ⟨⟨h.1, fun a' o hs => (ih (h.2 a' o hs)).1⟩, ?_⟩
    intro outs a' hr
    simp only [runOps] at hr
    rcases hg : specD c a op with ⟨t', o'⟩ | _ | _ <;> rw [hg] at hr <;> simp only [Prod.mk.injEq, reduceCtorEq, and_false] at hr
    exact (ih (h.2 _ _ hg)).2 _ _ (Prod.ext rfl hr.2)

theorem lost_append (ops ops2 : List DOp) {outs : List Out} {w w1 : World} (h : runOps (stepD c) w ops = (outs, .ok w1)) :
    lost c w (ops ++ ops2) = lost c w ops ++ lost c w1 ops2 := by
  induction ops generalizing w outs with
  | nil => simp only [runOps, Prod.mk.injEq, Res.ok.injEq] at h; rw [h.2]; rfl
  | cons op ops ih =>
    simp only [runOps] at h
    simp only [List.cons_append, lost]
    rcases hg : stepD c w op with ⟨t', o'⟩ | _ | _ <;> rw [hg] at h <;> simp only [Prod.mk.injEq, reduceCtorEq, and_false] at h
    simp only [ih (Prod.ext rfl h.2), List.append_assoc]

theorem runs_split {S X Y : Type} {f : S → X → Res (S × Y)} : ∀ (as bs : List X) (s s2 : S) (outs : List Y), runOps f s (as ++ bs) = (outs, .ok s2) →
    ∃ outs1 s1 outs2, outs = outs1 ++ outs2 ∧ runOps f s as = (outs1, .ok s1) ∧ runOps f s1 bs = (outs2, .ok s2) := by
  intro as
  induction as with
  | nil => intro bs s s2 outs h; exact ⟨[], s, outs, rfl, rfl, h⟩
  | cons x as ih =>
    intro bs s s2 outs h
    simp only [List.cons_append, runOps] at h ⊢
    rcases hf : f s x with ⟨s', o⟩ | _ | _ <;> rw [hf] at h <;> simp only [Prod.mk.injEq, reduceCtorEq, and_false] at h
    obtain ⟨o1, s1, o2, h1, h2, h3⟩ := ih bs s' s2 _ (Prod.ext rfl h.2)
    refine ⟨o :: o1, s1, o2, ?_, by simp [h2], h3⟩
    rw [← h.1]; exact congrArg (o :: ·) h1

theorem runs_length {S X Y : Type} {f : S → X → Res (S × Y)} : ∀ {as : List X} {s s2 : S} {outs : List Y}, runOps f s as = (outs, .ok s2) → outs.length = as.length := by
  intro as
  induction as with
  | nil => intro s s2 outs h; simp only [runOps, Prod.mk.injEq] at h; rw [← h.1]; rfl
  | cons x as ih =>
    intro s s2 outs h
    simp only [runOps] at h
    rcases hf : f s x with ⟨s', o⟩ | _ | _ <;> rw [hf] at h <;> simp only [Prod.mk.injEq, reduceCtorEq, and_false] at h
    rw [← h.1, List.length_cons, List.length_cons, ih (Prod.ext rfl h.2)]

/-- A prefix of a history. -/
theorem RunD.prefix {ops ops2 : List DOp} {outs : List Out} (h : RunD c slots hdr (ops ++ ops2) outs w) :
    ∃ outs1 w1 outs2, outs = outs1 ++ outs2 ∧ RunD c slots hdr ops outs1 w1 ∧ runOps (stepD c) w1 ops2 = (outs2, .ok w) := by
  obtain ⟨o1, w1, o2, h1, h2, h3⟩ := runs_split _ _ _ _ _ h.run
  exact ⟨o1, w1, o2, h1, ⟨h.env, (legalRunD_append h.legal).1, h2⟩, h3⟩

/-- As long as fewer collections were asked for than references were thrown away, a thrown away dynamic event stays allocated. -/
theorem thrown_stays {ops ops2 : List DOp} {outs outs2 : List Out} {w w2 : World} (h : RunD c slots hdr ops outs w)
    (h2 : RunD c slots hdr (ops ++ ops2) (outs ++ outs2) w2) {e : Nat} (he : c.static e = false)
    (hg : gcs e ops2 < (lost c w ops2).count e) : ∃ i, Obs.Allocated c w2 i e := by
  obtain ⟨a, _, hR, hc⟩ := h.abs
  obtain ⟨a2, _, hR2, hc2⟩ := h2.abs
  have g1 := hc e he
  have g2 := hc2 e he
  rw [lost_append ops ops2 h.run, List.count_append] at g2
  have e1 : gcs e (ops ++ ops2) = gcs e ops + gcs e ops2 := by unfold gcs; rw [← List.countP_append]
  have e2 : reserves e (ops ++ ops2) = reserves e ops + reserves e ops2 := by unfold reserves; rw [← List.countP_append]
  have : 0 < a2.resv.count e := by omega
  have hm : e ∈ holders a2 := by
    unfold holders
    simp only [List.mem_append]
    exact .inl (.inl (.inr (List.count_pos_iff.mp this)))
  rcases (hR2.ev.hold e hm).2 with h1 | ⟨i, hi⟩
  · rw [he] at h1; cases h1
  · exact ⟨i, (allocated_iff hR2 i e).mpr hi⟩

/-- **C169 refuted, in general.** A dynamic event that is in the queue when it is depleted is lost: whatever happens later, unless somebody asks the
collector to take it (RKH_FWK_GC), its block is never given back to its pool and no allocation ever returns it again. -/
theorem depleted_event_is_lost {ops ops2 : List DOp} {outs outs2 : List Out} {o : Out} {d : DOp} {w2 : World} (h : RunD c slots hdr ops outs w)
    (h2 : RunD c slots hdr (ops ++ d :: ops2) (outs ++ o :: outs2) w2) {e : Nat} (he : c.static e = false) (hm : e ∈ thrown w d)
    (hg : DOp.op (.gc e) ∉ ops2) : (∃ i, Obs.Allocated c w2 i e) ∧ ∀ (k n sg : Nat), ops2[k]? = some (DOp.op (.alloc n sg)) → outs2[k]? ≠ some (Out.evt e) := by
  have hgc : ∀ l : List DOp, (∀ x ∈ l, x ∈ ops2) → gcs e (d :: l) = 0 := by
    intro l hl
    unfold gcs
    rw [List.countP_eq_zero]
    intro x hx
    rw [List.mem_cons] at hx
    rcases hx with rfl | hx
    · cases x with
      | op o => simp [thrown] at hm
      | _ => simp
    · cases x with
      | op o =>
        cases o <;> simp
        rintro rfl
        exact hg (hl _ hx)
      | _ => simp
  have hlost : ∀ l : List DOp, 0 < (lost c w (d :: l)).count e := by
    intro l
    rw [lost, List.count_append]
    have := List.count_pos_iff.mpr hm
    omega
  refine ⟨thrown_stays h h2 he (by rw [hgc _ (fun _ h => h)]; exact hlost _), ?_⟩
  intro k n sg hk ho
  have hkl : k < ops2.length := (List.getElem?_eq_some_iff.mp hk).1
  have hsplit : ops2 = ops2.take k ++ .op (.alloc n sg) :: ops2.drop (k + 1) := by
    rw [List.getElem?_eq_getElem hkl, Option.some.injEq] at hk
    rw [← hk, List.getElem_cons_drop, List.take_append_drop]
  have h3 := h2
  rw [hsplit] at h3
  have hassoc : ops ++ d :: (ops2.take k ++ .op (.alloc n sg) :: ops2.drop (k + 1)) = (ops ++ d :: ops2.take k) ++ .op (.alloc n sg) :: ops2.drop (k + 1) := by simp
  rw [hassoc] at h3
  obtain ⟨outs1, w1, outsr, he1, hr1, hrun⟩ := h3.prefix
  have hlen : outs1.length = ops.length + (k + 1) := by
    have := runs_length hr1.run
    rw [this]; simp; omega
  have hlen0 : outs.length = ops.length := runs_length h.run
  have hlen2 : outs2.length = ops2.length := by
    have := runs_length h2.run
    simp at this; omega
  have hout : outs1 = outs ++ o :: outs2.take k := by
    have t1 : (outs1 ++ outsr).take (ops.length + (k + 1)) = outs1 := by
      rw [List.take_append_of_le_length (by omega), List.take_of_length_le (by omega)]
    have t2 : (outs ++ o :: outs2).take (ops.length + (k + 1)) = outs ++ o :: outs2.take k := by
      rw [← hlen0, List.take_length_add_append]; simp
    rw [← t1, ← he1, t2]
  rw [hout] at hr1
  obtain ⟨i, hi⟩ := thrown_stays h hr1 he (by rw [hgc _ (fun _ h => List.mem_of_mem_take h)]; exact hlost _)
  obtain ⟨a1, _, hR1, _⟩ := hr1.abs
  have hu := (allocated_iff hR1 i e).mp hi
  obtain ⟨_, hleg⟩ := legalRunD_append h3.legal
  simp only [runOps] at hrun
  rcases hst : stepD c w1 (.op (.alloc n sg)) with ⟨w3, o3⟩ | _ | _ <;> rw [hst] at hrun <;> simp only [Prod.mk.injEq, reduceCtorEq, and_false] at hrun
  have ho3 : o3 = .evt e := by
    have h5 : (outs ++ o :: outs2)[ops.length + (k + 1)]? = some (.evt e) := by
      rw [← hlen0, List.getElem?_append_right (by omega)]
      simpa using ho
    rw [he1, List.getElem?_append_right (by omega), hlen, ← hrun.1] at h5
    simpa using h5
  subst ho3
  have hs := sim_step h.env.wf hR1 (.alloc n sg) trivial
  simp only [stepD] at hst
  rw [Sim, hst] at hs
  rcases hsp : Spec.step c a1 (.alloc n sg) with ⟨a3, o4⟩ | _ | _ <;> rw [hsp] at hs <;> simp only [StepRel, false_and] at hs
  obtain ⟨⟨hR3, rfl⟩, _⟩ := hs
  simp only [Spec.step] at hsp
  split at hsp
  · cases hsp
  · rename_i j hj
    split at hsp
    · cases hsp
    · rename_i P hP
      split at hsp
      · cases hsp
      · rename_i b rest hb
        simp only [Res.ok.injEq, Prod.mk.injEq, Out.evt.injEq] at hsp
        obtain ⟨_, rfl⟩ := hsp
        have hij := hR1.ev.disj i j b (.inl hu) (.inr ⟨P, hP, by rw [hb]; simp⟩)
        subst hij
        obtain ⟨P', hP', hmem⟩ := hu
        rw [hP] at hP'; cases hP'
        have := hR1.ev.poolND i P hP
        rw [hb, List.nodup_append] at this
        exact this.2.2 b (by simp) b hmem rfl

/-- **C169, what remains true.** Depleting the queue of a registered object empties it and takes the object out of the ready set; nothing else changes:
no other queue, no reference counter, no pool, no subscription. Static events need nothing more. -/
theorem deplete_partial {ops : List DOp} {outs : List Out} {o : Out} {ao : Nat} {w' : World} (h : RunD c slots hdr ops outs w)
    (h2 : RunD c slots hdr (ops ++ [.depleteAo ao]) (outs ++ [o]) w') :
    ∃ x x', w.aos[ao]? = some x ∧ Obs.contents x'.q = [] ∧ w' = { w with aos := w.aos.set ao x', rdy := w'.rdy } ∧ x'.prio = x.prio ∧
      ∀ p, RdyGrp.bit w'.rdy p = true ↔ ∃ y, Obs.registered w' p = some y ∧ Obs.contents y.q ≠ [] := by
  obtain ⟨a, ha, hR, _⟩ := h.abs
  obtain ⟨a', ha', hR', _⟩ := h2.abs
  have hl := (legalRunD_append h2.legal).2 _ _ ha
  obtain ⟨⟨y, hy, hreg⟩, _, _⟩ := hl.1
  obtain ⟨x, g, hx, _, hs, _⟩ := hR.ao.deplete h.env.wf.sma h.env.wf.en hy hreg
  obtain ⟨o1, w1, o2, _, hp, hrun⟩ := runs_split _ _ _ _ _ h2.run
  rw [h.run] at hp
  simp only [Prod.mk.injEq, Res.ok.injEq] at hp
  obtain ⟨_, rfl⟩ := hp
  simp only [runOps, stepD, depleteAo, hx, hs, Res.bind'_ok, Res.map', Prod.mk.injEq, Res.ok.injEq] at hrun
  obtain ⟨_, rfl⟩ := hrun
  refine ⟨x, { x with q := (Queue.deplete x.q).1 }, hx, rfl, rfl, rfl, ?_⟩
  intro p
  obtain ⟨h1, h2⟩ := registered_eq hR' p
  rw [hR'.ao.rdyBit]
  constructor
  · rintro ⟨i, y, hr, hy, hi⟩
    obtain ⟨x, y', hx, hy', _, hc⟩ := h2 i hr
    rw [hy] at hy'; cases hy'
    exact ⟨x, hx, by rw [hc]; exact hi⟩
  · rintro ⟨x, hx, hc⟩
    obtain ⟨i, y, hr, hy, _, hc'⟩ := h1 x hx
    exact ⟨i, y, hr, hy, by rw [← hc']; exact hc⟩

/-- **C171 refuted.** If an interrupt handler depletes the queue of the object that the scheduler has just chosen, the assertion in `rkh_sma_get` fails:
in every reachable state. -/
theorem deplete_after_selection_fails {ops : List DOp} {outs : List Out} {ao : Nat} (h : RunD c slots hdr ops outs w) (hph : w.ph = .fetch ao) :
    (runOps (stepD c) w [.depleteAo ao, .op .fetch]).2 = .assert := by
  obtain ⟨a, ha, hR, _⟩ := h.abs
  obtain ⟨y, hy, hreg, _⟩ := hR.fetchOk ao (by rw [← hR.ph]; exact hph)
  obtain ⟨x, g, hx, _, hs, _⟩ := hR.ao.deplete h.env.wf.sma h.env.wf.en hy hreg
  obtain ⟨_, _, hq⟩ := hR.ao.aos.get hy
  have hlt : ao < w.aos.length := (List.getElem?_eq_some_iff.mp hx).1
  have hsma : x.q.sma = true := by
    obtain ⟨x', hx', _, qa, hr, _⟩ := hR.ao.aos.get hy
    rw [hx] at hx'; cases hx'
    exact hr.sma
  have hen : c.qc.assertEn = true := h.env.en
  have s1 : stepD c w (.depleteAo ao) = .ok ({ w with aos := w.aos.set ao { x with q := (Queue.deplete x.q).1 }, rdy := g }, .unit) := by
    simp only [stepD, depleteAo, hx, hs, Res.bind'_ok, Res.map']
  have hget : Queue.get c.qc (Queue.deplete x.q).1 = .assert := by
    simp [Queue.get, Queue.deplete, hsma, hen, assertIf]
  simp only [runOps]
  rw [s1]
  simp only [stepD, step, hph, smaGet, List.getElem?_set_self hlt, hget, Res.bind'_assert, Res.map']

/-- **C171 refuted, with assertions compiled out.** The scheduler then dispatches whatever is in the first place of the queue's memory, and the queue
takes itself for one with `2^w - 1` elements. -/
theorem deplete_after_selection_unchecked {ao e : Nat} {x : Ao} (hen : c.assertEn = false) (hph : w.ph = .fetch ao) (hx : w.aos[ao]? = some x)
    (hsma : x.q.sma = true) (hmem : x.q.mem[0]? = some e) (hW : 1 < c.qW) (hm : c.maxSma ≤ 64) (hp : x.prio < c.maxSma) (hinv : RdyGrp.Inv c.maxSma w.rdy) :
    ∃ w' x', runOps (stepD c) w [.depleteAo ao, .op .fetch] = ([.unit, .dispatch ao e], .ok w') ∧ w'.aos[ao]? = some x' ∧ Queue.getNum x'.q = c.qW - 1 := by
  obtain ⟨g, hg, _⟩ := RdyGrp.setUnready_ok (en := c.assertEn) hm hinv hp
  have hlt : ao < w.aos.length := (List.getElem?_eq_some_iff.mp hx).1
  have hen' : c.qc.assertEn = false := hen
  have hWq : c.qc.W = c.qW := rfl
  have h2 : ¬ c.qW - 1 = 0 := by omega
  have h3 : (c.qW - 1) % c.qW = c.qW - 1 := Nat.mod_eq_of_lt (by omega)
  have s1 : stepD c w (.depleteAo ao) = .ok ({ w with aos := w.aos.set ao { x with q := (Queue.deplete x.q).1 }, rdy := g }, .unit) := by
    have hs : applySync c w.rdy x.prio (Queue.deplete x.q).2 = .ok g := by simp only [Queue.deplete, hsma, if_true, applySync, hg]
    simp only [stepD, depleteAo, hx, hs, Res.bind'_ok, Res.map']
  have hget : ∃ q', Queue.get c.qc (Queue.deplete x.q).1 = .ok (q', e, .none) ∧ q'.qty = c.qW - 1 := by
    simp [Queue.get, Queue.deplete, hsma, hen', assertIf, Queue.rd, hmem, hWq, h3, h2]
  obtain ⟨q', hget, hqty⟩ := hget
  refine ⟨{ w with aos := (w.aos.set ao { x with q := (Queue.deplete x.q).1 }).set ao { x with q := q' }, rdy := g, ph := .run ao e }, { x with q := q' }, ?_, ?_, hqty⟩
  · simp only [runOps]
    rw [s1]
    simp only [stepD, step, hph, smaGet, List.getElem?_set_self hlt, hget, Res.bind'_ok, Res.map', applySync, hen, assertIf, Bool.false_and, Bool.false_eq_true, if_false]
  · simp [hlt]

theorem legalRunD_snoc {ops : List DOp} {op : DOp} {a : Abs} (h : LegalRunD c a ops)
    (h2 : ∀ outs a', runOps (specD c) a ops = (outs, .ok a') → LegalD c a' op) : LegalRunD c a (ops ++ [op]) := by
  induction ops generalizing a with
  | nil => exact ⟨h2 [] a rfl, fun _ _ _ => trivial⟩
  | cons o ops ih =>
    refine ⟨h.1, fun a' o' hs => ih (h.2 a' o' hs) ?_⟩
    intro outs a'' hr
    exact h2 (o' :: outs) a'' (by simp [runOps, hs, hr])

theorem runs_snoc {S X Y : Type} {f : S → X → Res (S × Y)} {x : X} {s2 s3 : S} {y : Y} (hf : f s2 x = .ok (s3, y)) : ∀ (as : List X) (s : S) (outs : List Y),
    runOps f s as = (outs, .ok s2) → runOps f s (as ++ [x]) = (outs ++ [y], .ok s3) := by
  intro as
  induction as with
  | nil =>
    intro s outs h
    simp only [runOps, Prod.mk.injEq, Res.ok.injEq] at h
    obtain ⟨rfl, rfl⟩ := h
    simp [runOps, hf]
  | cons a as ih =>
    intro s outs h
    simp only [List.cons_append, runOps] at h ⊢
    rcases hg : f s a with ⟨s', o⟩ | _ | _ <;> rw [hg] at h <;> simp only [Prod.mk.injEq, reduceCtorEq, and_false] at h
    obtain ⟨h1, h2⟩ := h
    have h3 := ih s' _ (Prod.ext rfl h2)
    simp only [h3, ← h1, List.cons_append]

/-- **C171, what remains true.** In every reachable state in which the object is not the one the scheduler has selected without having fetched its event
yet, and no recall for it is under way, depleting the queue of a registered object is possible and the history goes on within the contract. -/
theorem deplete_any_time_partial {ops : List DOp} {outs : List Out} {ao : Nat} {x : Ao} (h : RunD c slots hdr ops outs w) (hx : w.aos[ao]? = some x)
    (hreg : w.sptbl[x.prio]? = some (some ao)) (hph : w.ph ≠ .fetch ao) (hrc : ∀ e, Cont.rc3 ao e ∉ w.conts) :
    ∃ w', RunD c slots hdr (ops ++ [.depleteAo ao]) (outs ++ [.unit]) w' := by
  obtain ⟨a, ha, hR, _⟩ := h.abs
  have hlen := hR.ao.aos.1
  have hlt : ao < a.aos.length := by rw [← hlen]; exact (List.getElem?_eq_some_iff.mp hx).1
  have hy : a.aos[ao]? = some a.aos[ao] := List.getElem?_eq_getElem hlt
  obtain ⟨x', hx', hpr, _⟩ := hR.ao.aos.get hy
  rw [hx] at hx'; cases hx'
  have hr : a.reg a.aos[ao].prio = some ao := by
    have hp : x.prio < c.maxSma := by rw [hpr]; exact hR.ao.prioOk _ (List.mem_of_getElem? hy)
    have := hR.ao.tbl x.prio hp
    rw [hreg] at this
    rw [← hpr]
    exact (Option.some.inj this).symm
  have hl : LegalD c a (.depleteAo ao) := ⟨⟨_, hy, hr⟩, by rw [← hR.ph]; exact hph, by rw [← hR.conts]; exact hrc⟩
  obtain ⟨z, g, hz, _, hs, _⟩ := hR.ao.deplete h.env.wf.sma h.env.wf.en hy hr
  rw [hx] at hz; cases hz
  have s1 : stepD c w (.depleteAo ao) = .ok ({ w with aos := w.aos.set ao { x with q := (Queue.deplete x.q).1 }, rdy := g }, .unit) := by
    simp only [stepD, depleteAo, hx, hs, Res.bind'_ok, Res.map']
  refine ⟨_, h.env, legalRunD_snoc h.legal ?_, runs_snoc s1 _ _ _ h.run⟩
  intro o a' hr'
  rw [ha] at hr'
  cases hr'
  exact hl

end Verif.Fwk.Deplete

/-! ### A concrete case -/

namespace Verif.Fwk.Deplete.Demo
open Verif Verif.Fwk Verif.Fwk.Spec Verif.Fwk.Demo

/-- Boolean sufficient condition for `LegalD`. -/
def legalDB (a : Abs) : DOp → Bool
  | .op o => legalB a o
  | .depleteAo ao => regB a ao && a.ph != .fetch ao && a.conts.all fun t => match t with | .rc3 o _ => o != ao | _ => true
  | .depleteDq i => decide (i < a.dqs.length)

theorem legalDB_iff {a : Abs} {op : DOp} (h : legalDB a op = true) : LegalD cfg a op := by
  cases op with
  | op o => exact legalB_iff h
  | depleteAo ao =>
    simp only [legalDB, Bool.and_eq_true] at h
    refine ⟨regB_iff h.1.1, by simpa using h.1.2, fun e he => ?_⟩
    have := List.all_eq_true.mp h.2 _ he
    simp at this
  | depleteDq i => simpa [legalDB, LegalD] using h

/-- Check the contract and execute the specification. -/
def checkD (a : Abs) : List DOp → Option (List Out × Abs)
  | [] => some ([], a)
  | op :: ops =>
    if legalDB a op then
      match specD cfg a op with
      | .ok (a', o) => (checkD a' ops).map fun r => (o :: r.1, r.2)
      | _ => none
    else none

theorem checkD_ok : ∀ {ops : List DOp} {a : Abs} {r : List Out × Abs}, checkD a ops = some r →
    LegalRunD cfg a ops ∧ runOps (specD cfg) a ops = (r.1, .ok r.2) := by
  intro ops
  induction ops with
  | nil => intro a r h; simp only [checkD, Option.some.injEq] at h; subst h; exact ⟨trivial, rfl⟩
  | cons op ops ih =>
    intro a r h
    simp only [checkD] at h
    split at h
    · rename_i hl
      split at h
      · rename_i a' o hs
        simp only [Option.map_eq_some_iff] at h
        obtain ⟨r', hr', rfl⟩ := h
        obtain ⟨h1, h2⟩ := ih hr'
        refine ⟨⟨legalDB_iff hl, fun a'' o' hs' => ?_⟩, ?_⟩
        · rw [hs] at hs'; cases hs'; exact h1
        · simp [runOps, hs, h2]
      · cases h
    · cases h

/-- Result of the specification on a history. -/
def resD (ops : List DOp) : Option (List Out × Abs) := checkD (Spec.init fun e => (hdr e).sig) ops

/-- The final abstract state. -/
def finD (ops : List DOp) : Abs := ((resD ops).getD ([], Spec.init fun e => (hdr e).sig)).2

/-- The results. -/
def outsD (ops : List DOp) : List Out := ((resD ops).getD ([], Spec.init fun e => (hdr e).sig)).1

/-- Every history accepted by the check is a run of the code. -/
theorem mkD {ops : List DOp} (h : (resD ops).isSome = true) :
    ∃ w, RunD cfg slots hdr ops (outsD ops) w ∧ R cfg w (finD ops) := by
  obtain ⟨r, hr⟩ := Option.isSome_iff_exists.mp h
  obtain ⟨hl, hrun⟩ := checkD_ok hr
  have e1 : outsD ops = r.1 := by simp [outsD, hr]
  have e2 : finD ops = r.2 := by simp [finD, hr]
  obtain ⟨h1, h2, _⟩ := with_depletions_refines env hl
  rw [hrun] at h1 h2
  rw [e1, e2]
  rcases hx : runOps (stepD cfg) (initW cfg slots hdr) ops with ⟨o, s⟩
  rw [hx] at h1 h2
  simp only at h1 h2
  subst h1
  cases s with
  | ok w => exact ⟨w, ⟨env, hl, hx⟩, h2⟩
  | assert => exact h2.elim
  | ub => exact h2.elim

/-- Object 0 gets two events, a dynamic one and a static one; object 1 a dynamic one, which is also deferred. -/
def d1 : List DOp := (setup ++ [Op.alloc 10 5, Op.postFifo 0 1000, Op.postFifo 0 900, Op.alloc 10 6, Op.postFifo 1 1016, Op.defer 0 1016]).map DOp.op

/-- Both queues are depleted, the three free blocks are taken, and one more is asked for: the pool is empty. -/
def d2 : List DOp := [.depleteDq 0, .op (.alloc 10 7), .op (.alloc 10 8)]

example : outsD (d1 ++ .depleteAo 0 :: d2) = [.num 0, .num 1, .num 0, .unit, .unit, .unit, .unit, .evt 1000, .unit, .unit, .evt 1016, .unit, .unit,
    .unit, .unit, .evt 1032, .evt 1048] := by decide +kernel

/-- C169, C170: the hypotheses of `depleted_event_is_lost`, `reference_count_with_depletions` and `deplete_partial` are met: the event 1000 is thrown away
with the queue of object 0 and stays allocated. -/
example : ∃ w w2 i, RunD cfg slots hdr d1 (outsD d1) w ∧ RunD cfg slots hdr (d1 ++ .depleteAo 0 :: d2) (outsD d1 ++ .unit :: [.unit, .evt 1032, .evt 1048]) w2 ∧
    1000 ∈ thrown w (.depleteAo 0) ∧ Obs.Allocated cfg w2 i 1000 ∧ (w2.hdr 1000).nref = 1 ∧ 1000 ∉ Obs.references w2 [] := by
  obtain ⟨w, h, hR⟩ := mkD (ops := d1) (by decide +kernel)
  obtain ⟨w2, h2, hR2⟩ := mkD (ops := d1 ++ .depleteAo 0 :: d2) (by decide +kernel)
  have h2' : RunD cfg slots hdr (d1 ++ .depleteAo 0 :: d2) (outsD d1 ++ .unit :: [.unit, .evt 1032, .evt 1048]) w2 := by
    have e : outsD d1 ++ .unit :: [.unit, .evt 1032, .evt 1048] = outsD (d1 ++ .depleteAo 0 :: d2) := by decide +kernel
    rw [e]; exact h2
  have hm : 1000 ∈ thrown w (.depleteAo 0) := by
    have hy : (finD d1).aos[0]? = some ⟨3, ⟨2, [1000, 900]⟩⟩ := by decide +kernel
    obtain ⟨x, hx, _, hq⟩ := hR.ao.aos.get hy
    simp only [thrown, hx, contents_eq hq]
    decide
  obtain ⟨⟨i, hi⟩, _⟩ := depleted_event_is_lost h h2' (by decide) hm (by simp [d2])
  refine ⟨w, w2, i, h, h2', hm, hi, ?_, ?_⟩
  · have hu := (allocated_iff hR2 i 1000).mp hi
    rw [hR2.ev.hdrU i 1000 hu]
    show List.count 1000 (holders (finD (d1 ++ .depleteAo 0 :: d2))) = 1
    decide +kernel
  · unfold Obs.references
    rw [contents_aos hR2, contents_dqs hR2, hR2.ph, hR2.conts]
    decide +kernel

/-- C171: object 1 has been selected; before its event is fetched its queue is depleted: assertion. -/
example : ∃ w, RunD cfg slots hdr (d1 ++ [.op .select]) (outsD (d1 ++ [.op .select])) w ∧ w.ph = .fetch 1 ∧
    (runOps (stepD cfg) w [.depleteAo 1, .op .fetch]).2 = .assert := by
  obtain ⟨w, h, hR⟩ := mkD (ops := d1 ++ [.op .select]) (by decide +kernel)
  have hph : w.ph = .fetch 1 := hR.ph.trans (by decide +kernel)
  exact ⟨w, h, hph, deplete_after_selection_fails h hph⟩

/-- C171: in the same state the queue of object 0 may be depleted. -/
example : ∃ w w', RunD cfg slots hdr (d1 ++ [.op .select]) (outsD (d1 ++ [.op .select])) w ∧
    RunD cfg slots hdr (d1 ++ [.op .select] ++ [.depleteAo 0]) (outsD (d1 ++ [.op .select]) ++ [.unit]) w' := by
  obtain ⟨w, h, hR⟩ := mkD (ops := d1 ++ [.op .select]) (by decide +kernel)
  have hy : (finD (d1 ++ [.op .select])).aos[0]? = some ⟨3, ⟨2, [1000, 900]⟩⟩ := by decide +kernel
  obtain ⟨x, hx, hp, _⟩ := hR.ao.aos.get hy
  have hp : x.prio = 3 := hp
  obtain ⟨w', h'⟩ := deplete_any_time_partial h hx (by rw [hp, hR.ao.tbl 3 (by decide)]; decide +kernel)
    (by rw [hR.ph]; decide +kernel) (by rw [hR.conts]; intro e; have : (finD (d1 ++ [.op .select])).conts = [] := by decide +kernel
                                        rw [this]; simp)
  exact ⟨w, w', h, h'⟩

end Verif.Fwk.Deplete.Demo
