import Verif.Fwk.TraceRecs
import Verif.Fwk.Demo
/-
Properties C101-C104: what a host learns from the trace records of the framework, for every history that respects the
contract and every interleaving of interrupts with functions that have left their critical section but not yet written their
record.
-/
namespace Verif.Fwk.Trace
open Verif Verif.Fwk

variable {c : Cfg} {slots : List MemPool.Pool} {hdr : Nat → Evt} {tops : List TOp} {os : List (Out × List Rec)} {t : TWorld}

/-- The signals waiting in a queue, next one first. -/
def signals (w : World) (q : Queue.Queue) : List Nat := (Obs.contents q).map fun e => (w.hdr e).sig

/-- Allocations from pool `i` whose record has not been written. -/
def unrecorded (t : TWorld) (i : Nat) : Nat := t.pend.countP fun p => match p with | .ae _ _ j => j == i | _ => false

/-- Blocks of pool `i` that were declared recycled and are about to be put back. -/
def returning (w : World) (i : Nat) : Nat := w.conts.countP fun t => match t with | .put j _ => j == i | _ => false

/-- One more step of a traced history. -/
structure TNext (c : Cfg) (slots : List MemPool.Pool) (hdr : Nat → Evt) (tops : List TOp) (os : List (Out × List Rec)) (t : TWorld)
    (top : TOp) (o : Out) (rs : List Rec) (t' : TWorld) : Prop where
  before : TRun c slots hdr tops os t
  legal : Spec.LegalRun c (Spec.init fun e => (hdr e).sig) (opsOf (tops ++ [top]))
  step : tstep c t top = .ok (t', o, rs)

/-! ### C101: queues and registry -/

theorem pend_gets {ao e : Nat} : PRec.get ao e ∈ t.pend ↔ (ao, e) ∈ getsOf t.pend := by
  unfold getsOf
  rw [List.mem_filterMap]
  constructor
  · intro h; exact ⟨_, h, rfl⟩
  · rintro ⟨p, hp, h⟩
    cases p <;> simp at h
    obtain ⟨rfl, rfl⟩ := h
    exact hp

/-- **C101.** A host that reads the trace, using the number of waiting events in each record to notice that an event was taken
before its record arrived, is never contradicted. It knows who is registered at each priority and, in order, the signals
waiting for every active object; while the record of a fetch is still to come, it knows in addition exactly which signal was
taken, or still has that one signal in front. -/
theorem host_knows_the_queues (h : TRun c slots hdr tops os t) :
    ∃ v, Host.init.readAll (records os) = some v ∧
      (∀ p, v.reg p = Obs.registry (opsOf tops) [] (fun _ => none) p) ∧
      ∀ (ao : Nat) (x : Ao), t.w.aos[ao]? = some x →
        ((∀ e, PRec.get ao e ∉ t.pend) → v.taken ao = none ∧ v.q ao = signals t.w x.q) ∧
        (∀ e, PRec.get ao e ∈ t.pend → (t.w.ph = .run ao e ∨ .thr ao e ∈ t.w.conts) ∧
          ((v.taken ao = none ∧ v.q ao = (t.w.hdr e).sig :: signals t.w x.q) ∨
           (v.taken ao = some (t.w.hdr e).sig ∧ v.q ao = signals t.w x.q))) := by
  obtain ⟨v, a, h1, hR, t1, _⟩ := h.host
  obtain ⟨a', hR', hrun, hb⟩ := h.erase.full
  obtain ⟨_, a'', hrun', hR'', h', h2, t1', _⟩ := run_follow h.env.wf _ _ _ _ _ _ (R_init h.env) (T1_init _) (T2_init _) h.legal h.run
  rw [hrun] at hrun'
  cases hrun'
  rw [h1] at h2
  cases h2
  have hreg : a'.reg = Obs.registry (opsOf tops) [] (fun _ => none) := hb.reg
  refine ⟨v, h1, fun p => by rw [t1'.reg, hreg], ?_⟩
  intro ao x hx
  have hlt : ao < a'.aos.length := by rw [← hR'.ao.aos.1]; exact (List.getElem?_eq_some_iff.mp hx).1
  have hy := List.getElem?_eq_getElem hlt
  obtain ⟨_, hq⟩ := hR'.ao.aos.2 ao x _ hx hy
  have hsig : signals t.w x.q = a'.aos[ao].q.items.map a'.sig := by
    unfold signals
    rw [contents_eq hq]
    exact List.map_congr_left fun e he => hdr_sig hR' (items_held hy he)
  have hv := t1'.q ao _ hy
  constructor
  · intro hno
    have : (getsOf t.pend).lookup ao = none := by
      cases hlk : (getsOf t.pend).lookup ao with
      | none => rfl
      | some e => exact absurd (pend_gets.mpr (mem_of_lookup hlk)) (hno e)
    rw [this] at hv
    rw [hsig]; exact hv
  · intro e he
    have hm := pend_gets.mp he
    have hb := (t1'.gets ao e hm).1
    rw [lookup_of_mem t1'.nd hm] at hv
    rw [hsig, hdr_sig hR' (busy_held hb)]
    exact ⟨hb.imp hR'.ph.trans (by rw [hR'.conts]; exact id), hv⟩

/-- Tracing changes nothing: the operations of a traced history do what they do without tracing. -/
theorem tracing_is_transparent (h : TRun c slots hdr tops os t) : Run c slots hdr (opsOf tops) (outsOf tops os) t.w := h.erase

/-- Writing all pending records, the newest first, always succeeds. -/
theorem flush_ok (c : Cfg) : ∀ (pend : List PRec) (w : World),
    ∃ os, runOps (tstep c) ⟨w, pend⟩ (List.replicate pend.length (.emit 0)) = (os, .ok ⟨w, []⟩) := by
  intro pend
  induction pend with
  | nil => intro w; exact ⟨[], rfl⟩
  | cons p pend ih =>
    intro w
    obtain ⟨os, ho⟩ := ih w
    exact ⟨(.unit, emitRec w p) :: os, by simp [List.replicate_succ, runOps, tstep, ho]⟩

theorem opsOf_emits (n : Nat) (l : List TOp) : opsOf (List.replicate n (.emit 0) ++ l) = opsOf l := by
  induction n with
  | zero => rfl
  | succ n ih => rw [List.replicate_succ, List.cons_append]; exact ih

/-- Every history of the framework can be traced: with the records written at once it is a traced history. -/
theorem every_history_is_traced {ops : List Op} {outs : List Out} {w : World} (h : Run c slots hdr ops outs w) :
    ∃ tops os, opsOf tops = ops ∧ TRun c slots hdr tops os ⟨w, []⟩ := by
  have key : ∀ (ops : List Op) (w0 : World) (a : Spec.Abs) (outs : List Out) (w : World), R c w0 a → Spec.LegalRun c a ops →
      runOps (step c) w0 ops = (outs, .ok w) →
      ∃ tops os, opsOf tops = ops ∧ runOps (tstep c) ⟨w0, []⟩ tops = (os, .ok ⟨w, []⟩) := by
    intro ops
    induction ops with
    | nil =>
      intro w0 a outs w _ _ hr
      simp only [runOps, Prod.mk.injEq, Res.ok.injEq] at hr
      obtain ⟨_, rfl⟩ := hr
      exact ⟨[], [], rfl, rfl⟩
    | cons op ops ih =>
      intro w0 a outs w hR hl hr
      simp only [runOps] at hr
      rcases hx : step c w0 op with ⟨w1, o⟩ | _ | _ <;> rw [hx] at hr <;> simp only [Prod.mk.injEq, reduceCtorEq, and_false] at hr
      obtain ⟨_, hr⟩ := hr
      obtain ⟨hsim, _⟩ := sim_step h.env.wf hR op hl.1
      rw [hx] at hsim
      rcases hs : Spec.step c a op with ⟨a', o'⟩ | _ | _ <;> rw [hs] at hsim <;> simp only [StepRel] at hsim
      obtain ⟨hR1, rfl⟩ := hsim
      obtain ⟨tops, os, h1, h2⟩ := ih w1 a' (runOps (step c) w1 ops).1 w hR1 (hl.2 a' o hs) (by rw [← hr])
      have he := tact_erase hR op
      rw [hx, Res.map'_eq_ok] at he
      obtain ⟨⟨w1', o', rs⟩, ht, heq⟩ := he
      simp only [Prod.mk.injEq] at heq
      obtain ⟨rfl, rfl⟩ := heq
      have hearly : early w0 [] op = false := by
        cases op <;> try rfl
        simp only [early]
        split <;> rfl
      have hstep : tstep c ⟨w0, []⟩ (.act op) = .ok (⟨w1', pendOf w0 w1' o' op⟩, o', rs) := by
        simp [tstep, hearly, ht, Res.map']
      obtain ⟨os1, hf⟩ := flush_ok c (pendOf w0 w1' o' op) w1'
      refine ⟨.act op :: (List.replicate (pendOf w0 w1' o' op).length (.emit 0) ++ tops), (o', rs) :: (os1 ++ os), ?_, ?_⟩
      · simp only [opsOf, opsOf_emits, h1]
      · have happ := runOps_append_ok (f := tstep c) (List.replicate (pendOf w0 w1' o' op).length (.emit 0)) tops
          ⟨w1', pendOf w0 w1' o' op⟩ ⟨w1', []⟩ (by rw [hf])
        rw [hf, h2] at happ
        simp only [runOps, hstep]
        rw [happ.1, happ.2]
  obtain ⟨tops, os, h1, h2⟩ := key ops _ _ _ _ (R_init h.env) h.legal h.run
  exact ⟨tops, os, h1, h.env, by rw [h1]; exact h.legal, h2⟩

/-! ### C102: events in use -/

/-- **C102.** Counting allocation and recycling records gives the number of events in use in every pool: it differs from the
real number only by the allocations not yet recorded and the blocks about to be put back. -/
theorem host_counts_events_in_use (h : TRun c slots hdr tops os t) :
    ∃ v, Host.init.readAll (records os) = some v ∧
      ∀ (i : Nat) (p : MemPool.Pool), (Obs.pools t.w)[i]? = some p →
        v.used i + unrecorded t i + returning t.w i = (p.nblocks : Int) - p.nfree := by
  obtain ⟨v, a, h1, hR, _, t2⟩ := h.host
  refine ⟨v, h1, fun i p hp => ?_⟩
  have h2 := used_len hR hp
  have h3 := t2.used i
  have e1 : unrecorded t i = aeCount t.pend i := rfl
  have e2 : returning t.w i = putCount a.conts i := by rw [returning, hR.conts]; rfl
  rw [e1, e2, h3]
  omega

/-! ### C103: the counter field of the records -/

/-- **C103 (exact).** The number of used blocks that an allocation or recycling record shows is the number the host has counted
up to and including that record, plus the *other* allocations not yet recorded and blocks about to be put back (in 8
bits). -/
theorem used_field_exact {top : TOp} {o : Out} {rs : List Rec} {t' : TWorld} (h : TNext c slots hdr tops os t top o rs t') :
    ∃ v, Host.init.readAll (records os) = some v ∧
      (∀ n sig i nref used, Rec.ae n sig i nref used ∈ rs → 0 < unrecorded t i ∧
        (used : Int) = ((v.used i + 1) + (unrecorded t i - 1) + returning t.w i) % 256) ∧
      (∀ sig i nref used, Rec.gcr sig i nref used ∈ rs →
        (used : Int) = ((v.used i - 1) + unrecorded t i + returning t.w i) % 256) := by
  obtain ⟨v, a, h1, hR, _, t2⟩ := h.before.host
  have wf := h.before.env.wf
  have e1 : ∀ i, unrecorded t i = aeCount t.pend i := fun _ => rfl
  have e2 : ∀ i, returning t.w i = putCount a.conts i := fun i => by rw [returning, hR.conts]; rfl
  have hs := h.step
  refine ⟨v, h1, ?_⟩
  cases top with
  | act op =>
    simp only [tstep] at hs
    split at hs
    · cases hs
    rw [Res.map'_eq_ok] at hs
    obtain ⟨⟨w', o', rs'⟩, hact, heq⟩ := hs
    simp only [Prod.mk.injEq] at heq
    obtain ⟨rfl, rfl, rfl⟩ := heq
    obtain ⟨k1, k2⟩ := act_kind hR hact
    constructor
    · intro n sig i nref used hm
      have := k1 _ hm
      cases this
    · intro sig i nref used hm
      obtain ⟨k, e, rfl, hk⟩ := k2 ⟨_, hm, rfl⟩
      have hrs : rs' = gcRec t.w w' e := by
        simp only [tact, Res.map'_eq_ok, Prod.mk.injEq] at hact
        obtain ⟨r, _, rfl, _, rfl⟩ := hact
        simp only [recsOf, hk]
      rw [hrs] at hm
      obtain ⟨f1, f2, _⟩ := gcr_field wf hR hk hm
      have := t2.used i
      rw [e1, e2]
      omega
  | emit k =>
    simp only [tstep] at hs
    cases hk : t.pend[k]? with
    | none => simp [hk] at hs
    | some p =>
      simp only [hk, Res.ok.injEq, Prod.mk.injEq] at hs
      obtain ⟨rfl, rfl, rfl⟩ := hs
      have hpm : p ∈ t.pend := List.mem_of_getElem? hk
      cases p with
      | act ao p n => simp [emitRec]
      | term ao p => simp [emitRec]
      | epreg n s e => simp [emitRec]
      | get ao e => simp only [emitRec]; cases t.w.aos[ao]? <;> simp
      | ae n e i =>
        rw [ae_field wf hR t2 hpm]
        refine ⟨?_, by simp⟩
        intro n' sig i' nref used hm
        simp only [List.mem_singleton, Rec.ae.injEq] at hm
        obtain ⟨rfl, rfl, rfl, rfl, rfl⟩ := hm
        have h2 := aeCount_erase (i := i') hk
        have h3 := t2.used i'
        simp only [if_true] at h2
        rw [e1, e2]
        refine ⟨by omega, ?_⟩
        omega

/-- The number of used blocks that the latest allocation or recycling record of pool `i` shows. -/
def shownUsed (i : Nat) : List Rec → Nat → Nat
  | [], u => u
  | .ae _ _ j _ v :: rs, u => shownUsed i rs (if j = i then v else u)
  | .gcr _ j _ v :: rs, u => shownUsed i rs (if j = i then v else u)
  | _ :: rs, u => shownUsed i rs u

/-- Never two operations in flight in pool `i`: at most one allocation without its record or block about to be put back. -/
def OneAtATime (c : Cfg) (i : Nat) (t0 : TWorld) (tops : List TOp) : Prop :=
  ∀ tops1 tops2 os1 t1, tops = tops1 ++ tops2 → runOps (tstep c) t0 tops1 = (os1, .ok t1) → unrecorded t1 i + returning t1.w i ≤ 1

theorem shown_append (i : Nat) (xs ys : List Rec) (u : Nat) : shownUsed i (xs ++ ys) u = shownUsed i ys (shownUsed i xs u) := by
  induction xs generalizing u with
  | nil => rfl
  | cons r xs ih => cases r <;> exact ih _

theorem shown_other {i : Nat} {rs : List Rec} (hk : ∀ r ∈ rs, r.isAe = false ∧ r.isGcr = false) {h h' : Host}
    (hr : h.readAll rs = some h') (u : Nat) : shownUsed i rs u = u ∧ h'.used = h.used := by
  induction rs generalizing h with
  | nil =>
    simp only [Host.readAll, Option.some.injEq] at hr
    subst hr; exact ⟨rfl, rfl⟩
  | cons r rs ih =>
    simp only [Host.readAll, Option.bind_eq_some_iff] at hr
    obtain ⟨h1, hr1, hr2⟩ := hr
    obtain ⟨k1, k2⟩ := ih (fun x hx => hk x (by simp [hx])) hr2
    have hkr := hk r (by simp)
    have hu : h1.used = h.used := by
      cases r <;> simp only [Host.read, Host.post] at hr1 <;>
        first
        | (exfalso; have k := hkr.1; simp [Rec.isAe] at k; done)
        | (exfalso; have k := hkr.2; simp [Rec.isGcr] at k; done)
        | ((repeat' split at hr1) <;> first | (cases hr1; rfl) | cases hr1)
    rw [k2, hu]
    refine ⟨?_, rfl⟩
    cases r <;> first | exact k1 | (exfalso; have k := hkr.1; simp [Rec.isAe] at k; done) | (exfalso; have k := hkr.2; simp [Rec.isGcr] at k; done)

theorem shown_run (wf : Wf c) (i : Nat) : ∀ (tops : List TOp) (t : TWorld) (a : Spec.Abs) (h : Host) (os : List (Out × List Rec)) (t' : TWorld) (u : Nat),
    R c t.w a → T1 h t.pend a → T2 h t.pend a → Spec.LegalRun c a (opsOf tops) → runOps (tstep c) t tops = (os, .ok t') →
    OneAtATime c i t tops → (u : Int) = h.used i % 256 →
    ∃ h', h.readAll (records os) = some h' ∧ (shownUsed i (records os) u : Int) = h'.used i % 256 := by
  intro tops
  induction tops with
  | nil =>
    intro t a h os t' u hR t1 t2 _ hr _ hu
    simp only [runOps, Prod.mk.injEq, Res.ok.injEq] at hr
    obtain ⟨rfl, rfl⟩ := hr
    exact ⟨h, rfl, hu⟩
  | cons top tops ih =>
    intro t a h os t' u hR t1 t2 hl hr hone hu
    simp only [runOps] at hr
    rcases hx : tstep c t top with ⟨t1', o, rs⟩ | _ | _ <;> rw [hx] at hr <;> simp only [Prod.mk.injEq, reduceCtorEq, and_false] at hr
    obtain ⟨hos, hr⟩ := hr
    have hrest : runOps (tstep c) t1' tops = ((runOps (tstep c) t1' tops).1, .ok t') := by rw [← hr]
    generalize (runOps (tstep c) t1' tops).1 = os' at hos hrest
    subst hos
    have hone' : OneAtATime c i t1' tops := by
      intro x y os1 t2' hxy hrun
      exact hone (top :: x) y ((o, rs) :: os1) t2' (by rw [hxy]; rfl) (by simp [runOps, hx, hrun])
    have hb := hone [] (top :: tops) [] t rfl rfl
    have hb' := hone [top] tops [(o, rs)] t1' rfl (by simp [runOps, hx])
    have e1 : ∀ (t : TWorld) i, unrecorded t i = aeCount t.pend i := fun _ _ => rfl
    have e2 : ∀ (w : World) i, returning w i = putCount w.conts i := fun _ _ => rfl
    have fin : ∀ (a1 : Spec.Abs) (h1 : Host), R c t1'.w a1 → h.readAll rs = some h1 → T1 h1 t1'.pend a1 → T2 h1 t1'.pend a1 →
        Spec.LegalRun c a1 (opsOf tops) → (shownUsed i rs u : Int) = h1.used i % 256 →
        ∃ h', h.readAll (records ((o, rs) :: os')) = some h' ∧ (shownUsed i (records ((o, rs) :: os')) u : Int) = h'.used i % 256 := by
      intro a1 h1 hR1 hrd t1a t2a hl1 hsh
      obtain ⟨h', k1, k2⟩ := ih t1' a1 h1 os' t' _ hR1 t1a t2a hl1 hrest hone' hsh
      refine ⟨h', ?_, ?_⟩
      · simp only [records, List.flatMap_cons]
        rw [readAll_append, hrd]; exact k1
      · simp only [records, List.flatMap_cons]
        rw [shown_append]; exact k2
    cases top with
    | act op =>
      obtain ⟨hl1, hl2⟩ := hl
      obtain ⟨h1, a1, h2, hR1, h', hrd, t1a, t2a⟩ := follow_act wf hR t1 t2 hl1 hx
      refine fin a1 h' hR1 hrd t1a t2a (hl2 a1 o h2) ?_
      simp only [tstep] at hx
      split at hx
      · cases hx
      rw [Res.map'_eq_ok] at hx
      obtain ⟨⟨w', o', rs'⟩, hact, heq⟩ := hx
      simp only [Prod.mk.injEq] at heq
      obtain ⟨rfl, rfl, rfl⟩ := heq
      obtain ⟨k1, k2⟩ := act_kind hR hact
      by_cases hg : ∃ r ∈ rs', r.isGcr = true
      · obtain ⟨k, e, rfl, hk⟩ := k2 hg
        have hrs : rs' = gcRec t.w w' e := by
          simp only [tact, Res.map'_eq_ok, Prod.mk.injEq] at hact
          obtain ⟨r, _, rfl, _, rfl⟩ := hact
          simp only [recsOf, hk]
        obtain ⟨r, hrm, hrg⟩ := hg
        have hr1 := hrm
        rw [hrs] at hr1
        cases r with
        | gcr sig j nref used =>
          obtain ⟨f1, f2, _⟩ := gcr_field wf hR hk hr1
          have hrs1 : rs' = [.gcr sig j nref used] := by
            rw [hrs]
            unfold gcRec at hr1 ⊢
            split at hr1
            · simp at hr1
            · rename_i hn
              simp only [hn, if_false]
              simp only [List.mem_singleton] at hr1
              rw [hr1]
          rw [hrs1] at hrd ⊢
          simp only [Host.readAll, Host.read, Option.bind_some, Option.some.injEq] at hrd
          subst hrd
          simp only [shownUsed]
          by_cases hj : j = i
          · subst hj
            simp only [if_true, upd]
            have q1 := t2.used j
            have q2 := t2a.used j
            simp only [upd, if_true] at q2
            rw [e1, e2] at hb hb'
            rw [hR.conts] at hb
            rw [hR1.conts] at hb'
            simp only at hb' q2
            -- the block is now about to be put back, so nothing else is in flight
            have hpc : putCount a1.conts j = putCount a.conts j + 1 ∧ aeCount (pendOf t.w w' o' (.resume k) ++ t.pend) j = aeCount t.pend j := by
              refine ⟨?_, rfl⟩
              have hul : usedLen a1 j = usedLen a j := by
                have hka : a.conts[k]? = some (.gc2 e) := by rw [← hR.conts]; exact hk
                simp only [Spec.step, hka, Spec.resumeCont, Res.map', Res.ok.injEq, Prod.mk.injEq] at h2
                obtain ⟨rfl, _⟩ := h2
                split <;> rfl
              have : aeCount (pendOf t.w w' o' (.resume k) ++ t.pend) j = aeCount t.pend j := rfl
              omega
            omega
          · simp only [hj, if_false, upd, Ne.symm hj]
            exact hu
        | _ => simp [Rec.isGcr] at hrg
      · have hno : ∀ r ∈ rs', r.isAe = false ∧ r.isGcr = false := by
          intro r hr
          refine ⟨k1 r hr, ?_⟩
          cases hb : r.isGcr with
          | false => rfl
          | true => exact absurd ⟨r, hr, hb⟩ hg
        obtain ⟨m1, m2⟩ := shown_other (i := i) hno hrd u
        rw [m1, m2]; exact hu
    | emit k =>
      obtain ⟨hw, h', hrd, t1a, t2a⟩ := follow_emit wf hR t1 t2 hx
      refine fin a h' (by rw [hw]; exact hR) hrd t1a t2a hl ?_
      simp only [tstep] at hx
      cases hk : t.pend[k]? with
      | none => simp [hk] at hx
      | some p =>
        simp only [hk, Res.ok.injEq, Prod.mk.injEq] at hx
        obtain ⟨rfl, rfl, rfl⟩ := hx
        have hpm : p ∈ t.pend := List.mem_of_getElem? hk
        cases p with
        | act ao p n =>
          obtain ⟨m1, m2⟩ := shown_other (i := i) (by simp [emitRec, Rec.isAe, Rec.isGcr]) hrd u
          rw [m1, m2]; exact hu
        | term ao p =>
          obtain ⟨m1, m2⟩ := shown_other (i := i) (by simp [emitRec, Rec.isAe, Rec.isGcr]) hrd u
          rw [m1, m2]; exact hu
        | epreg n s e =>
          obtain ⟨m1, m2⟩ := shown_other (i := i) (by simp [emitRec, Rec.isAe, Rec.isGcr]) hrd u
          rw [m1, m2]; exact hu
        | get ao e =>
          obtain ⟨m1, m2⟩ := shown_other (i := i) (by simp only [emitRec]; cases t.w.aos[ao]? <;> simp [Rec.isAe, Rec.isGcr]) hrd u
          rw [m1, m2]; exact hu
        | ae n e j =>
          rw [ae_field wf hR t2 hpm] at hrd ⊢
          simp only [Host.readAll, Host.read, Option.bind_some, Option.some.injEq] at hrd
          subst hrd
          simp only [shownUsed]
          by_cases hj : j = i
          · subst hj
            simp only [if_true, upd]
            have h2 := aeCount_erase (i := j) hk
            have h3 := t2.used j
            simp only [if_true] at h2
            rw [e1, e2, hR.conts] at hb
            omega
          · simp only [hj, if_false, upd, Ne.symm hj]
            exact hu

/-- **C103 (part that holds).** If in pool `i` never two operations are in flight at once — no interrupt allocates or recycles
between an operation on the pool and its record or its return of the block — then, whenever nothing is in flight, the
latest record of the pool shows the number of blocks in use (in 8 bits). -/
theorem shown_used_is_right_partial (h : TRun c slots hdr tops os t) {i : Nat} (hone : OneAtATime c i ⟨initW c slots hdr, []⟩ tops)
    {p : MemPool.Pool} (hp : (Obs.pools t.w)[i]? = some p) (hq : unrecorded t i = 0 ∧ returning t.w i = 0) :
    shownUsed i (records os) 0 = (p.nblocks - p.nfree) % 256 := by
  obtain ⟨v, a, h1, hR, _, t2⟩ := h.host
  obtain ⟨v', k1, k2⟩ := shown_run h.env.wf i _ _ _ _ _ _ 0 (R_init h.env) (T1_init _) (T2_init _) h.legal h.run hone (by simp [Host.init])
  rw [h1] at k1; cases k1
  have h2 := used_len hR hp
  have h3 := t2.used i
  have e1 : unrecorded t i = aeCount t.pend i := rfl
  have e2 : returning t.w i = putCount a.conts i := by rw [returning, hR.conts]; rfl
  rw [e1, e2] at hq
  rw [hq.1, hq.2] at h3
  omega

/-! ### C104: the fields of queue records -/

/-- What a queue record shows of event `e` and object `ao` is true at the moment `w`: signal, pool number, number of
references and number of waiting events. `refs` are all references that exist, `sg` the signals given at allocation. -/
structure Shows (c : Cfg) (w : World) (refs : List Nat) (sg : Nat → Nat) (ao e sig pool nref ne : Nat) : Prop where
  sig : sig = sg e
  waiting : ∃ x, w.aos[ao]? = some x ∧ ne = (Obs.contents x.q).length
  static : c.static e = true → pool = 0 ∧ nref = 0
  dynamic : ∀ i, Obs.Allocated c w i e → pool = i + 1 ∧ nref = refs.count e

/-- The signals given at allocation, by the history. -/
def sigs (hdr : Nat → Evt) (tops : List TOp) (os : List (Out × List Rec)) : Nat → Nat :=
  Obs.signal ((opsOf tops).zip (outsOf tops os)) fun e => (hdr e).sig

theorem opsOf_append (xs ys : List TOp) : opsOf (xs ++ ys) = opsOf xs ++ opsOf ys := by
  induction xs with
  | nil => rfl
  | cons x xs ih => cases x <;> simp [opsOf, ih]

/-- A further step gives a longer history. -/
theorem TNext.after {top : TOp} {o : Out} {rs : List Rec} {t' : TWorld} (h : TNext c slots hdr tops os t top o rs t') :
    TRun c slots hdr (tops ++ [top]) (os ++ [(o, rs)]) t' := by
  refine ⟨h.before.env, h.legal, ?_⟩
  have h1 := runOps_append_ok (f := tstep c) tops [top] ⟨initW c slots hdr, []⟩ t (by rw [h.before.run])
  rw [h.before.run] at h1
  simp only [runOps, h.step] at h1
  exact Prod.ext h1.1 h1.2

theorem shows_of (h : TRun c slots hdr tops os t) {a : Spec.Abs} (hR : R c t.w a)
    (ha : runOps (Spec.step c) (Spec.init fun e => (hdr e).sig) (opsOf tops) = (outsOf tops os, .ok a))
    {ao e : Nat} {x : Ao} (hx : t.w.aos[ao]? = some x) (he : e ∈ Spec.holders a) :
    Shows c t.w (refsAfter (opsOf tops) t.w) (sigs hdr tops os) ao e (t.w.hdr e).sig (t.w.hdr e).pool (t.w.hdr e).nref x.q.qty := by
  obtain ⟨a', hR', ha', hb⟩ := h.erase.full
  rw [ha] at ha'; cases ha'
  have hlt : ao < a.aos.length := by rw [← hR.ao.aos.1]; exact (List.getElem?_eq_some_iff.mp hx).1
  obtain ⟨_, hq⟩ := hR.ao.aos.2 ao x _ hx (List.getElem?_eq_getElem hlt)
  refine ⟨?_, ⟨x, hx, ?_⟩, ?_, ?_⟩
  · rw [hdr_sig hR he, hb.sig]; rfl
  · rw [contents_eq hq]; exact QRep.num hq
  · intro hs; rw [hR.ev.hdrS e hs]; exact ⟨rfl, rfl⟩
  · intro i hi
    have := (refcount_exact h.erase hi)
    exact ⟨this.2.1, this.1⟩

theorem TNext.parts {op : Op} {o : Out} {rs : List Rec} {t' : TWorld} (h : TNext c slots hdr tops os t (.act op) o rs t') :
    ∃ a a', R c t.w a ∧ R c t'.w a' ∧ Spec.Legal c a op ∧ Spec.step c a op = .ok (a', o) ∧ tact c t.w op = .ok (t'.w, o, rs) ∧
      runOps (Spec.step c) (Spec.init fun e => (hdr e).sig) (opsOf tops) = (outsOf tops os, .ok a) ∧
      runOps (Spec.step c) (Spec.init fun e => (hdr e).sig) (opsOf (tops ++ [.act op])) =
        (outsOf (tops ++ [.act op]) (os ++ [(o, rs)]), .ok a') := by
  have wf := h.before.env.wf
  obtain ⟨_, a, ha, hR, v, _, t1, t2⟩ := run_follow wf _ _ _ _ _ _ (R_init h.before.env) (T1_init _) (T2_init _) h.before.legal h.before.run
  obtain ⟨_, a', ha', hR', _⟩ := run_follow wf _ _ _ _ _ _ (R_init h.after.env) (T1_init _) (T2_init _) h.after.legal h.after.run
  have hl := h.legal
  rw [opsOf_append, legalRun_append] at hl
  have hl1 := (hl.2 _ _ ha).1
  obtain ⟨_, a1, hs, hR1, _⟩ := follow_act wf hR t1 t2 hl1 h.step
  have h1 := runOps_append_ok (f := Spec.step c) (opsOf tops) [op] (Spec.init fun e => (hdr e).sig) a (by rw [ha])
  have h2 : (runOps (Spec.step c) (Spec.init fun e => (hdr e).sig) (opsOf (tops ++ [.act op]))).2 = .ok a1 := by
    rw [opsOf_append]
    show (runOps (Spec.step c) _ (opsOf tops ++ [op])).2 = _
    rw [h1.2]
    simp [runOps, hs]
  rw [ha'] at h2
  simp only [Res.ok.injEq] at h2
  subst h2
  refine ⟨a, a', hR, hR', hl1, hs, ?_, ha, ha'⟩
  have hst := h.step
  simp only [tstep] at hst
  split at hst
  · cases hst
  rw [Res.map'_eq_ok] at hst
  obtain ⟨⟨w', o', rs'⟩, hact, heq⟩ := hst
  simp only [Prod.mk.injEq] at heq
  obtain ⟨rfl, rfl, rfl⟩ := heq
  exact hact

/-- **C104 (posts).** The record of a post shows the truth at that moment. -/
theorem post_record {front : Bool} {ao e : Nat} {o : Out} {rs : List Rec} {t' : TWorld}
    (h : TNext c slots hdr tops os t (.act (if front then .postLifo ao e else .postFifo ao e)) o rs t') :
    ∃ sig pool nref ne nmin, rs = [if front then .lifo ao sig pool nref ne nmin else .fifo ao sig pool nref ne nmin] ∧
      Shows c t'.w (refsAfter (opsOf (tops ++ [.act (if front then .postLifo ao e else .postFifo ao e)])) t'.w)
        (sigs hdr (tops ++ [.act (if front then .postLifo ao e else .postFifo ao e)]) (os ++ [(o, rs)])) ao e sig pool nref ne := by
  obtain ⟨a, a', hR, hR', hl, hs, hact, _, ha'⟩ := h.parts
  have hp : Spec.post front a ao e = .ok a' ∧ rs = postRec front t'.w ao e := by
    cases front <;> simp only [Bool.false_eq_true, if_true, if_false, Spec.step, tact, Res.map'_eq_ok, Prod.mk.injEq] at hs hact <;>
      obtain ⟨_, hp, rfl, _⟩ := hs <;> obtain ⟨r, _, h1, _, h2⟩ := hact <;> exact ⟨hp, by rw [← h2, ← h1]; rfl⟩
  obtain ⟨hp, hrs⟩ := hp
  obtain ⟨y, q, hy, rfl, hq, _⟩ := post_facts hp
  have hlt := (List.getElem?_eq_some_iff.mp hy).1
  obtain ⟨x, hx, _, _⟩ := hR'.ao.aos.get (i := ao) (by simp only; exact List.getElem?_set_self hlt)
  refine ⟨(t'.w.hdr e).sig, (t'.w.hdr e).pool, (t'.w.hdr e).nref, x.q.qty, x.q.nmin, ?_, ?_⟩
  · rw [hrs]
    unfold postRec
    rw [hx]
    cases front <;> rfl
  · refine shows_of h.after hR' ha' hx (items_held (ao := ao) (by simp only; exact List.getElem?_set_self hlt) ?_)
    subst hq
    cases front <;> simp

/-- **C104 (fetches).** The record of a fetch, whenever it is written, shows the truth at *that* moment. -/
theorem get_record {k ao e : Nat} {o : Out} {rs : List Rec} {t' : TWorld}
    (h : TNext c slots hdr tops os t (.emit k) o rs t') (hk : t.pend[k]? = some (.get ao e)) :
    ∃ sig pool nref ne nmin, rs = [.get ao sig pool nref ne nmin] ∧
      Shows c t'.w (refsAfter (opsOf tops) t'.w) (sigs hdr tops os) ao e sig pool nref ne := by
  have wf := h.before.env.wf
  obtain ⟨_, a, ha, hR, v, _, t1, t2⟩ := run_follow wf _ _ _ _ _ _ (R_init h.before.env) (T1_init _) (T2_init _) h.before.legal h.before.run
  have hs := h.step
  simp only [tstep, hk, Res.ok.injEq, Prod.mk.injEq] at hs
  obtain ⟨rfl, _, rfl⟩ := hs
  have hm := pend_gets.mp (List.mem_of_getElem? hk)
  obtain ⟨hb, hlt⟩ := t1.gets ao e hm
  obtain ⟨x, hx, _, _⟩ := hR.ao.aos.get (List.getElem?_eq_getElem hlt)
  refine ⟨(t.w.hdr e).sig, (t.w.hdr e).pool, (t.w.hdr e).nref, x.q.qty, x.q.nmin, ?_, ?_⟩
  · simp [emitRec, hx]
  · exact shows_of h.before hR ha hx (busy_held hb)

/-- **C104 (publish).** A publish writes one FIFO record per receiver, highest priority first. The `k`-th shows the receiver, the
signal, the pool number, the number of references at that moment (those before the publish, one for the publish itself and
one for each delivery so far) and the receiver's waiting events including the new one. -/
theorem publish_records {ch e : Nat} {s : Option Nat} {o : Out} {rs : List Rec} {t' : TWorld}
    (h : TNext c slots hdr tops os t (.act (.publish ch e s)) o rs t') :
    rs.length = (receivers c (opsOf tops) ch s).length ∧
    ∀ k p : Nat, (receivers c (opsOf tops) ch s)[k]? = some p →
      ∃ ao x nmin, Obs.registry (opsOf tops) [] (fun _ => none) p = some ao ∧ t.w.aos[ao]? = some x ∧
        rs[k]? = some (.fifo ao (sigs hdr tops os e) (t.w.hdr e).pool
          (if c.static e then 0 else (refsAfter (opsOf tops) t.w).count e + 2 + k) ((Obs.contents x.q).length + 1) nmin) := by
  obtain ⟨a, a', hR, hR', hl, hs, hact, ha, _⟩ := h.parts
  obtain ⟨a1, hR1, ha1, hb⟩ := h.before.erase.full
  rw [ha] at ha1; cases ha1
  simp only [tact, Res.map'_eq_ok, Prod.mk.injEq] at hact
  obtain ⟨⟨⟨w1, rs1⟩, n⟩, hp, h1, _, h2⟩ := hact
  simp only at h1 h2
  subst h1; subst h2
  obtain ⟨k1, k2⟩ := publish_recs h.before.env.wf hR hl hp
  have hreg : a.reg = Obs.registry (opsOf tops) [] (fun _ => none) := hb.reg
  have hrec : ((Spec.subscribers c.maxSma a ch).filter fun p => decide (a.reg p ≠ s)) = receivers c (opsOf tops) ch s := by
    rw [subs_eq hb ch, hreg]; rfl
  rw [hrec] at k1 k2
  refine ⟨k1, fun k p hk => ?_⟩
  obtain ⟨ao, y, nm, m1, m2, m3⟩ := k2 k p hk
  obtain ⟨x, hx, _, hq⟩ := hR.ao.aos.get m2
  refine ⟨ao, x, nm, by rw [← hreg]; exact m1, hx, ?_⟩
  have hrefs : (refsAfter (opsOf tops) t.w).count e = Spec.refs a e := by
    have : a.resv = Obs.reservations (opsOf tops) [] := hb.resv
    rw [refsAfter, ← this, references_eq hR]; rfl
  rw [m3, contents_eq hq, hrefs, hb.sig]
  rfl

/-- **C104 (collector).** When the collector finds other references left, its record shows how many; when it finds the last
one, its record shows the event's signal and pool. -/
theorem collect_record {k e : Nat} {o : Out} {rs : List Rec} {t' : TWorld}
    (h : TNext c slots hdr tops os t (.act (.resume k)) o rs t') (hk : t.w.conts[k]? = some (.gc2 e)) :
    ∃ i, Obs.Allocated c t.w i e ∧
      (1 < (refsAfter (opsOf tops) t.w).count e →
        rs = [.gc (sigs hdr tops os e) (i + 1) ((refsAfter (opsOf (tops ++ [.act (.resume k)])) t'.w).count e)] ∧
        (refsAfter (opsOf (tops ++ [.act (.resume k)])) t'.w).count e + 1 = (refsAfter (opsOf tops) t.w).count e) ∧
      ((refsAfter (opsOf tops) t.w).count e = 1 → ∃ used, rs = [.gcr (sigs hdr tops os e) i 1 used] ∧ returning t'.w i = returning t.w i + 1) := by
  obtain ⟨a, a', hR, hR', hl, hs, hact, ha, ha'⟩ := h.parts
  obtain ⟨a1, _, ha1, hb⟩ := h.before.erase.full
  rw [ha] at ha1; cases ha1
  obtain ⟨a2, _, ha2, hb'⟩ := h.after.erase.full
  rw [ha'] at ha2; cases ha2
  have wf := h.before.env.wf
  have hrefs : (refsAfter (opsOf tops) t.w).count e = Spec.refs a e := by
    have : a.resv = Obs.reservations (opsOf tops) [] := hb.resv
    rw [refsAfter, ← this, references_eq hR]; rfl
  have hrefs' : (refsAfter (opsOf (tops ++ [.act (.resume k)])) t'.w).count e = Spec.refs a' e := by
    have : a'.resv = Obs.reservations (opsOf (tops ++ [.act (.resume k)])) [] := hb'.resv
    rw [refsAfter, ← this, references_eq hR']; rfl
  have hka : a.conts[k]? = some (.gc2 e) := by rw [← hR.conts]; exact hk
  have htm : Cont.gc2 e ∈ a.conts := List.mem_of_getElem? hka
  have hold := hR.ev.hold e (by
    unfold Spec.holders
    simp only [List.mem_append, List.mem_map]
    exact .inr ⟨_, htm, rfl⟩)
  have hst := hR.gc2Ok e htm
  obtain ⟨i, hi⟩ := hold.2.resolve_left (by simp [hst])
  have hhdr := hR.ev.hdrU i e hi
  have hsg : sigs hdr tops os = a.sig := hb.sig.symm
  have hrs : rs = gcRec t.w t'.w e := by
    have hact := hact
    simp only [tact, Res.map'_eq_ok, Prod.mk.injEq] at hact
    obtain ⟨r, _, h1, _, h2⟩ := hact
    rw [← h2, ← h1]
    simp only [recsOf, hk]
  have hper := (holders_erase hka).count_eq e
  simp only [Cont.evt, List.count_cons_self] at hper
  have hper : Spec.refs a e = Spec.refs { a with conts := a.conts.eraseIdx k } e + 1 := hper
  simp only [Spec.step, hka, Spec.resumeCont, Res.map', Res.ok.injEq, Prod.mk.injEq] at hs
  obtain ⟨hs, _⟩ := hs
  have hcnt : (Spec.holders a).count e = Spec.refs a e := rfl
  refine ⟨i, (allocated_iff hR i e).mpr hi, ?_, ?_⟩
  · rw [hrefs, hrefs']
    intro hgt
    have hz : Spec.refs { a with conts := a.conts.eraseIdx k } e ≠ 0 := by omega
    simp only [hz, if_false] at hs
    subst hs
    refine ⟨?_, by omega⟩
    have hhdr' := hR'.ev.hdrU i e hi
    rw [hrs]
    unfold gcRec
    have hn : (t.w.hdr e).nref > 1 := by rw [hhdr]; exact hgt
    simp only [hn, if_true, hhdr', hsg]
    rfl
  · rw [hrefs]
    intro h1
    have hz : Spec.refs { a with conts := a.conts.eraseIdx k } e = 0 := by omega
    simp only [hz, if_true] at hs
    have hn : ¬ (t.w.hdr e).nref > 1 := by rw [hhdr]; simp only [hcnt]; omega
    have hidx : ((t.w.hdr e).pool + 255) % 256 = i := by
      rw [hhdr]; simp only
      obtain ⟨P, hP, _⟩ := hi
      have := (List.getElem?_eq_some_iff.mp hP).1
      have := wf.pool; have := hR.pl.le
      omega
    refine ⟨((usedIn t.w i) + 255) % 256, ?_, ?_⟩
    · rw [hrs]
      unfold gcRec
      rw [if_neg hn, hidx, hsg, hhdr]
      simp only [hcnt, h1]
    · show putCount t'.w.conts i = putCount t.w.conts i + 1
      have hstep : step c t.w (.resume k) = .ok (t'.w, o) := by
        rw [← tact_erase hR, hact]; rfl
      have hil : i < t.w.regs.length := by
        rw [hR.pl.regs]
        obtain ⟨P, hP, _⟩ := hi
        simpa using (List.getElem?_eq_some_iff.mp hP).1
      simp only [step, hk, resumeCont, gcSection, hn, if_false, hidx, hil, decide_true, assertIf_true, Res.bind'_ok, if_true, Res.map',
        Res.ok.injEq, Prod.mk.injEq] at hstep
      obtain ⟨hw', _⟩ := hstep
      rw [← hw']
      simp only [putCount_cons, if_true]
      have := putCount_erase (i := i) hk
      simp only at this
      omega

end Verif.Fwk.Trace
