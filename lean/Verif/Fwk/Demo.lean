import Verif.Fwk.Props2
/-
A concrete scenario showing that the hypotheses of the framework theorems are met, and what the theorems say there.
The contract of a concrete history is checked by evaluating `legalB`, which is proved to imply `Spec.Legal`.
-/
namespace Verif.Fwk.Demo
open Verif Verif.Fwk Verif.Fwk.Spec

/-- The demo configuration: 8 priorities, 2 pools, 2 channels, 4-byte pointers; 900 and 901 hold static events. -/
def cfg : Cfg :=
  { assertEn := true, maxSma := 8, maxPool := 2, maxChan := 2, qW := 256, mpc := ⟨4, 256, 65536, true⟩,
    static := fun e => e == 900 || e == 901, junk := fun _ => ⟨77, 13, 99⟩ }

/-- Uninitialised pool records. -/
def slots : List MemPool.Pool := [⟨5, 6, 7, 8, 9, 10, 11, fun _ => 0xAA#8, 3, 4⟩, ⟨5, 6, 7, 8, 9, 10, 11, fun _ => 0x55#8, 3, 4⟩]

/-- Header memory before anything happens: static events are clean, the rest is arbitrary. -/
def hdr : Nat → Evt := fun e => if e = 900 then ⟨21, 0, 0⟩ else if e = 901 then ⟨22, 0, 0⟩ else ⟨e, 200, 3⟩

theorem env : Env cfg slots hdr where
  en := rfl
  sma := by decide
  pool := by decide
  slots := rfl
  static := by
    intro e he
    simp only [cfg, Bool.or_eq_true, beq_iff_eq] at he
    rcases he with rfl | rfl <;> simp [hdr]

/-- Boolean form of `Registered`. -/
def regB (a : Abs) (ao : Nat) : Bool :=
  match a.aos[ao]? with
  | none => false
  | some x => a.reg x.prio == some ao

/-- Boolean form of `Usable`. -/
def usableB (a : Abs) (e : Nat) : Bool :=
  e != 0 && (cfg.static e || a.fresh.contains e || (decide (0 < refs a e) && a.conts.all fun t => match t with
    | .put _ x => x != e
    | _ => true))

/-- Boolean form of `Room`. -/
def roomB (a : Abs) (e n : Nat) : Bool := cfg.static e || decide (refs a e + n ≤ 255)

/-- Boolean form of `NoRecall`. -/
def noRecallB (a : Abs) : Bool := a.conts.all fun t => match t with
  | .rc2 _ _ => false
  | .rc3 _ _ => false
  | _ => true

/-- Boolean sufficient condition for `Legal`. -/
def legalB (a : Abs) : Op → Bool
  | .activate _ mem n => decide (n ≤ mem.length) && decide (n < 256)
  | .terminate ao => match a.aos[ao]? with
    | none => false
    | some x => a.reg x.prio == some ao && x.q.items.isEmpty
  | .newDefer mem n => decide (n ≤ mem.length) && decide (n < 256)
  | .regPool _ s n es => decide (es < 65536) && decide (n < 65536) && decide (901 < s) && decide (s + n < 256 ^ 4) && decide (4 ≤ n) &&
      decide ((es + 4) % 65536 > es) && decide (MemPool.roundUp 4 es ≤ n) && decide (n / MemPool.roundUp 4 es < 256) &&
      decide (MemPool.roundUp 4 es / 4 < 256) && a.pools.all fun P => decide (s + n ≤ P.start) || decide (P.start + P.size ≤ s)
  | .alloc _ _ => true
  | .postFifo ao e => regB a ao && usableB a e && roomB a e 1
  | .postLifo ao e => regB a ao && usableB a e && roomB a e 1
  | .defer i e => decide (i < a.dqs.length) && usableB a e && roomB a e 1
  | .recall ao i => regB a ao && decide (i < a.dqs.length)
  | .reserve e => usableB a e && roomB a e 1
  | .gc e => e != 0 && (cfg.static e || a.resv.contains e)
  | .subscribe _ ao => decide (ao < a.aos.length)
  | .unsubscribe _ ao => decide (ao < a.aos.length)
  | .unsubscribeAll ao => decide (ao < a.aos.length)
  | .publish ch e _ => decide (ch < 2) && usableB a e && roomB a e (1 + (subscribers 8 a ch).length)
  | .select => a.ph == .none && noRecallB a
  | .fetch => (match a.ph with | .fetch _ => true | _ => false) && noRecallB a
  | .done => (match a.ph with | .run _ _ => true | _ => false) && noRecallB a
  | .take ao => (match a.aos[ao]? with | none => false | some x => a.reg x.prio == some ao && !x.q.items.isEmpty) && a.ph != .fetch ao &&
      a.conts.all fun t => match t with | .rc3 o _ => o != ao | _ => true
  | .resume k => match a.conts[k]? with
    | none => false
    | some (.rc2 ao e) => regB a ao && roomB a e 1
    | some _ => true
  | .numUsed i => decide (i < a.pools.length)

theorem regB_iff {a : Abs} {ao : Nat} (h : regB a ao = true) : Registered a ao := by
  unfold regB at h
  split at h
  · cases h
  · exact ⟨_, ‹_›, by simpa using h⟩

theorem usableB_iff {a : Abs} {e : Nat} (h : usableB a e = true) : Usable cfg a e := by
  unfold usableB at h
  simp only [Bool.and_eq_true, bne_iff_ne, ne_eq, Bool.or_eq_true, List.contains_iff_mem, decide_eq_true_eq, List.all_eq_true] at h
  refine ⟨h.1, ?_⟩
  rcases h.2 with (h2 | h2) | ⟨h2, h3⟩
  · exact .inl h2
  · exact .inr (.inl h2)
  · refine .inr (.inr ⟨h2, fun i hi => ?_⟩)
    simpa using h3 _ hi

theorem roomB_iff {a : Abs} {e n : Nat} (h : roomB a e n = true) : Room cfg a e n := by
  unfold roomB at h
  simpa [Room] using h

theorem noRecallB_iff {a : Abs} (h : noRecallB a = true) : NoRecall a := by
  intro t ht
  have := List.all_eq_true.mp h t ht
  cases t <;> simp_all

theorem legalB_iff {a : Abs} {op : Op} (h : legalB a op = true) : Legal cfg a op := by
  cases op <;> simp only [legalB, Bool.and_eq_true, decide_eq_true_eq] at h
  case activate => exact h
  case terminate ao =>
    split at h
    · cases h
    · simp only [Bool.and_eq_true, beq_iff_eq, List.isEmpty_iff] at h
      exact ⟨_, ‹_›, h⟩
  case newDefer => exact h
  case regPool m s n es =>
    obtain ⟨⟨⟨⟨⟨⟨⟨⟨⟨h1, h2⟩, h3⟩, h4⟩, h5⟩, h6⟩, h7⟩, h8⟩, h9⟩, h10⟩ := h
    refine ⟨?_, ⟨h8, h9⟩, ?_, ?_⟩
    · exact ⟨by decide, by decide, h1, h2, by omega, h4, h5, h6, h7⟩
    · intro P hP
      simpa using List.all_eq_true.mp h10 P hP
    · intro e he
      simp only [cfg, Bool.or_eq_true, beq_iff_eq] at he
      omega
  case alloc => trivial
  case postFifo => exact ⟨regB_iff h.1.1, usableB_iff h.1.2, roomB_iff h.2⟩
  case postLifo => exact ⟨regB_iff h.1.1, usableB_iff h.1.2, roomB_iff h.2⟩
  case defer => exact ⟨h.1.1, usableB_iff h.1.2, roomB_iff h.2⟩
  case recall => exact ⟨regB_iff h.1, h.2⟩
  case reserve => exact ⟨usableB_iff h.1, roomB_iff h.2⟩
  case gc => simpa [Legal] using h
  case subscribe => exact h
  case unsubscribe => exact h
  case unsubscribeAll => exact h
  case publish => exact ⟨h.1.1, usableB_iff h.1.2, roomB_iff h.2⟩
  case select => exact ⟨by simpa using h.1, noRecallB_iff h.2⟩
  case fetch =>
    refine ⟨?_, noRecallB_iff h.2⟩
    have := h.1
    split at this
    · exact ⟨_, ‹_›⟩
    · cases this
  case done =>
    refine ⟨?_, noRecallB_iff h.2⟩
    have := h.1
    split at this
    · exact ⟨_, _, ‹_›⟩
    · cases this
  case take ao =>
    obtain ⟨⟨h1, h2⟩, h3⟩ := h
    refine ⟨?_, by simpa using h2, fun e he => ?_⟩
    · split at h1
      · cases h1
      · simp only [Bool.and_eq_true, beq_iff_eq, Bool.not_eq_true', List.isEmpty_eq_false_iff] at h1
        exact ⟨_, ‹_›, h1⟩
    · have := List.all_eq_true.mp h3 _ he
      simp at this
  case resume k =>
    split at h
    · cases h
    · rename_i ao e hc
      simp only [Bool.and_eq_true] at h
      refine ⟨_, hc, fun ao' e' he => ?_⟩
      cases he
      exact ⟨regB_iff h.1, roomB_iff h.2⟩
    · rename_i t hne hc
      refine ⟨t, hc, fun ao' e' he => ?_⟩
      subst he
      exact absurd rfl (hne ao' e')
  case numUsed => exact h

/-- Check the contract and execute the specification. -/
def check (a : Abs) : List Op → Option (List Out × Abs)
  | [] => some ([], a)
  | op :: ops =>
    if legalB a op then
      match Spec.step cfg a op with
      | .ok (a', o) => (check a' ops).map fun r => (o :: r.1, r.2)
      | _ => none
    else none

theorem check_ok : ∀ {ops : List Op} {a : Abs} {r : List Out × Abs}, check a ops = some r →
    LegalRun cfg a ops ∧ runOps (Spec.step cfg) a ops = (r.1, .ok r.2) := by
  intro ops
  induction ops with
  | nil => intro a r h; simp only [check, Option.some.injEq] at h; subst h; exact ⟨trivial, rfl⟩
  | cons op ops ih =>
    intro a r h
    simp only [check] at h
    split at h
    · rename_i hl
      split at h
      · rename_i a' o hs
        simp only [Option.map_eq_some_iff] at h
        obtain ⟨r', hr', rfl⟩ := h
        obtain ⟨h1, h2⟩ := ih hr'
        refine ⟨⟨legalB_iff hl, fun a'' o' hs' => ?_⟩, ?_⟩
        · rw [hs] at hs'; cases hs'; exact h1
        · simp [runOps, hs, h2]
      · cases h
    · cases h

/-- Result of the specification on a history. -/
def res (ops : List Op) : Option (List Out × Abs) := check (Spec.init fun e => (hdr e).sig) ops

/-- The final abstract state. -/
def fin (ops : List Op) : Abs := ((res ops).getD ([], Spec.init fun e => (hdr e).sig)).2

/-- The results. -/
def outs (ops : List Op) : List Out := ((res ops).getD ([], Spec.init fun e => (hdr e).sig)).1

/-- Every history accepted by the check is a run of the code. -/
theorem mk {ops : List Op} (h : (res ops).isSome = true) :
    ∃ w, Run cfg slots hdr ops (outs ops) w ∧ R cfg w (fin ops) := by
  obtain ⟨r, hr⟩ := Option.isSome_iff_exists.mp h
  obtain ⟨hl, hrun⟩ := check_ok hr
  have e1 : outs ops = r.1 := by simp [outs, hr]
  have e2 : fin ops = r.2 := by simp [fin, hr]
  obtain ⟨h1, h2, _⟩ := fwk_refines env hl
  rw [hrun] at h1 h2
  rw [e1, e2]
  rcases hx : runOps (step cfg) (initW cfg slots hdr) ops with ⟨o, s⟩
  rw [hx] at h1 h2
  simp only at h1 h2
  subst h1
  cases s with
  | ok w => exact ⟨w, ⟨env, hl, hx⟩, h2⟩
  | assert => exact h2.elim
  | ub => exact h2.elim

theorem allowed {ops : List Op} {op : Op} (h : (res (ops ++ [op])).isSome = true) : Allowed cfg hdr ops op := by
  obtain ⟨r, hr⟩ := Option.isSome_iff_exists.mp h
  exact (check_ok hr).1

/-- Two objects (priorities 3 and 1) with queues of 2 and 3, a deferred queue, a pool of four 16-byte blocks. -/
def setup : List Op :=
  [.activate 3 [0, 0] 2, .activate 1 [0, 0, 0] 3, .newDefer [0, 0] 2, .regPool (fun _ => 0xEE#8) 1000 64 13,
   .subscribe 0 0, .subscribe 0 1, .subscribe 1 1]

/-- Allocate, publish to both, post a static event. -/
def sc1 : List Op := setup ++ [.alloc 10 5, .publish 0 1000 none, .postFifo 1 900]

/-- Complete the publish, schedule the object with priority 1, whose handler defers the event. -/
def sc2 : List Op := sc1 ++ [.resume 0, .resume 0, .select, .fetch, .defer 0 1000]

/-- Complete the dispatch; the event is now waiting for object 0 and in the deferred queue. -/
def sc3 : List Op := sc2 ++ [.done, .resume 0, .resume 0]

/-- Recall it for object 1, and let both objects process everything. -/
def sc4 : List Op := sc3 ++ [.recall 1 0, .resume 0, .resume 0, .select, .fetch, .done, .resume 0, .resume 0,
  .select, .fetch, .done, .resume 0, .select, .fetch, .done, .resume 0]

/-- The last reference is being collected: next the block is returned. -/
def sc5 : List Op := sc4 ++ [.resume 0]

/-- Everything is returned. -/
def sc6 : List Op := sc5 ++ [.resume 0]

example : outs sc6 = [.num 0, .num 1, .num 0, .unit, .unit, .unit, .unit, .evt 1000, .num 2, .unit, .unit, .unit,
    .chose 1, .dispatch 1 1000, .unit, .unit, .unit, .unit, .evt 1000, .unit, .unit, .chose 1, .dispatch 1 1000, .unit, .unit, .unit,
    .chose 1, .dispatch 1 900, .unit, .unit, .chose 0, .dispatch 0 1000, .unit, .unit, .unit, .unit] := by decide +kernel

/-- C15, C16: object 1 (priority 1) is ready and selected although object 0 is ready as well. -/
example : ∃ w, Run cfg slots hdr (sc1 ++ [.resume 0, .resume 0]) (outs (sc1 ++ [.resume 0, .resume 0])) w ∧ w.ph = .none ∧
    RdyGrp.bit w.rdy 1 = true ∧ RdyGrp.bit w.rdy 3 = true ∧ RdyGrp.bit w.rdy 2 = false ∧
    ∃ w', step cfg w .select = .ok (w', .chose 1) := by
  obtain ⟨w, h, hR⟩ := mk (ops := sc1 ++ [.resume 0, .resume 0]) (by decide +kernel)
  have hph : w.ph = .none := hR.ph.trans (by decide +kernel)
  refine ⟨w, h, hph, (hR.ao.rdyBit 1).mpr ⟨1, _, rfl, rfl, by decide +kernel⟩, (hR.ao.rdyBit 3).mpr ⟨0, _, rfl, rfl, by decide +kernel⟩, ?_, ?_⟩
  · have := ready_iff_pending h 2
    cases hb : RdyGrp.bit w.rdy 2 with
    | false => rfl
    | true =>
      obtain ⟨i, x, h1, _⟩ := (hR.ao.rdyBit 2).mp hb
      exact absurd (show (none : Option Nat) = some i from h1) (by simp)
  · have hsim := (sim_select hR ⟨hR.ph.symm.trans hph, noRecallB_iff (by decide +kernel)⟩).1
    rw [show Spec.step cfg (fin (sc1 ++ [.resume 0, .resume 0])) .select =
      .ok ({ fin (sc1 ++ [.resume 0, .resume 0]) with ph := .fetch 1 }, .chose 1) from rfl] at hsim
    rcases hx : step cfg w .select with ⟨w', o⟩ | _ | _ <;> rw [hx] at hsim <;> simp only [StepRel] at hsim
    exact ⟨w', by rw [hsim.2]⟩

/-- C16 (fetch): a state between selection and fetch. -/
example : ∃ w, Run cfg slots hdr (sc1 ++ [.resume 0, .resume 0, .select]) (outs (sc1 ++ [.resume 0, .resume 0, .select])) w ∧
    w.ph = .fetch 1 := by
  obtain ⟨w, h, hR⟩ := mk (ops := sc1 ++ [.resume 0, .resume 0, .select]) (by decide +kernel)
  exact ⟨w, h, hR.ph.trans (by decide +kernel)⟩

/-- C18, C19, C20, C22: in the middle of the scenario the event is allocated, with three references (queue of object 0, deferred
queue, being dispatched). -/
example : ∃ w, Run cfg slots hdr sc2 (outs sc2) w ∧ Obs.Allocated cfg w 0 1000 ∧ (w.hdr 1000).nref = 3 ∧
    (refsAfter sc2 w).count 1000 = 3 := by
  obtain ⟨w, h, hR⟩ := mk (ops := sc2) (by decide +kernel)
  have ha : Obs.Allocated cfg w 0 1000 := (allocated_iff hR 0 1000).mpr ⟨_, rfl, by decide +kernel⟩
  have hr := (refcount_exact h ha).1
  have hh := hR.ev.hdrU 0 1000 ⟨_, rfl, by decide +kernel⟩
  have h3 : (w.hdr 1000).nref = 3 := by rw [hh]; decide +kernel
  exact ⟨w, h, ha, h3, by rw [← hr, h3]⟩

/-- C20: a collector that sees the last reference (hypothesis of `last_reference_recycles`). -/
example : ∃ w, Run cfg slots hdr sc4 (outs sc4) w ∧ w.conts[0]? = some (.gc2 1000) ∧ (refsAfter sc4 w).count 1000 = 1 := by
  obtain ⟨w, h, hR⟩ := mk (ops := sc4) (by decide +kernel)
  have ha : Obs.Allocated cfg w 0 1000 := (allocated_iff hR 0 1000).mpr ⟨_, rfl, by decide +kernel⟩
  have hh := hR.ev.hdrU 0 1000 ⟨_, rfl, by decide +kernel⟩
  refine ⟨w, h, by rw [hR.conts]; decide +kernel, ?_⟩
  rw [← (refcount_exact h ha).1, hh]; decide +kernel

/-- C20: a pending return (hypothesis of `pending_return`). -/
example : ∃ w, Run cfg slots hdr sc5 (outs sc5) w ∧ w.conts[0]? = some (.put 0 1000) := by
  obtain ⟨w, h, hR⟩ := mk (ops := sc5) (by decide +kernel)
  exact ⟨w, h, by rw [hR.conts]; decide +kernel⟩

/-- C20: at the end nothing is referenced and the pool is full (hypotheses of `pools_full_when_idle`). -/
example : ∃ w p, Run cfg slots hdr sc6 (outs sc6) w ∧ refsAfter sc6 w = [] ∧ Obs.fresh (sc6.zip (outs sc6)) [] = [] ∧
    (Obs.pools w)[0]? = some p ∧ p.nfree = 4 := by
  obtain ⟨w, h, hR⟩ := mk (ops := sc6) (by decide +kernel)
  obtain ⟨p, n, hp, _, _, hinv⟩ := pool_get hR (i := 0) rfl
  have h1 : refsAfter sc6 w = [] := by
    have e : Obs.reservations sc6 [] = (fin sc6).resv := by decide +kernel
    rw [refsAfter, e, references_eq hR]; decide +kernel
  refine ⟨w, p, h, h1, by decide +kernel, hp, ?_⟩
  rw [hinv.nfree]; decide +kernel

/-- C21: a static event is in a queue. -/
example : ∃ w, Run cfg slots hdr sc3 (outs sc3) w ∧ cfg.static 900 = true ∧ w.hdr 900 = ⟨21, 0, 0⟩ ∧ 900 ∈ refsAfter sc3 w := by
  obtain ⟨w, h, hR⟩ := mk (ops := sc3) (by decide +kernel)
  refine ⟨w, h, rfl, ?_, ?_⟩
  · have := hR.ev.hdrS 900 rfl
    rw [this]; decide +kernel
  · have e : Obs.reservations sc3 [] = (fin sc3).resv := by decide +kernel
    rw [refsAfter, e, references_eq hR]; decide +kernel

/-- C23: a request of 10 bytes is served from the pool with 16-byte blocks, which has blocks left. -/
example : ∃ w p b rest, Run cfg slots hdr sc1 (outs sc1) w ∧ (Obs.pools w)[0]? = some p ∧ 10 ≤ p.bsize % 256 ∧
    Obs.freeBlocks cfg p = b :: rest := by
  obtain ⟨w, h, hR⟩ := mk (ops := sc1) (by decide +kernel)
  obtain ⟨p, n, hp, _, _, hinv⟩ := pool_get hR (i := 0) rfl
  refine ⟨w, p, 1016, [1032, 1048], h, hp, ?_, ?_⟩
  · rw [hinv.bsize]; decide +kernel
  · rw [free_eq hinv]; decide +kernel

/-- C23 (defect): the only pool has 256-byte blocks, all free; no request can be served. -/
example : ∃ w, Run cfg slots hdr [.regPool (fun _ => 0#8) 1000 1024 254] (outs [.regPool (fun _ => 0#8) 1000 1024 254]) w ∧
    (∀ p ∈ Obs.pools w, 256 ∣ p.bsize ∧ p.nfree = 4) ∧ step cfg w (.alloc 1 7) = .assert := by
  obtain ⟨w, h, hR⟩ := mk (ops := [.regPool (fun _ => 0#8) 1000 1024 254]) (by decide +kernel)
  have hall : ∀ p ∈ Obs.pools w, 256 ∣ p.bsize ∧ p.nfree = 4 := by
    intro p hp
    obtain ⟨i, hi⟩ := List.mem_iff_getElem?.mp hp
    have hil : i < (Obs.pools w).length := (List.getElem?_eq_some_iff.mp hi).1
    rw [pools_length hR, show (fin [.regPool (fun _ => 0#8) 1000 1024 254]).pools.length = 1 by decide +kernel] at hil
    obtain rfl : i = 0 := by omega
    obtain ⟨p', n, hp', _, _, hinv⟩ := pool_get hR (i := 0) rfl
    rw [hi] at hp'; cases hp'
    rw [hinv.bsize, hinv.nfree]
    exact ⟨by decide +kernel, by decide +kernel⟩
  exact ⟨w, h, hall, large_blocks_never_served h (by decide) fun p hp => (hall p hp).1⟩

/-- C24: the deferred queue holds the event and object 1 has room (hypotheses of `recall_moves`). -/
example : ∃ w d x, Run cfg slots hdr sc3 (outs sc3) w ∧ Allowed cfg hdr sc3 (.recall 1 0) ∧ w.dqs[0]? = some d ∧
    w.aos[1]? = some x ∧ Obs.contents d = [1000] ∧ Obs.contents x.q = [900] ∧ x.q.qty ≠ x.q.nelems ∧ (refsAfter sc3 w).count 1000 < 255 := by
  obtain ⟨w, h, hR⟩ := mk (ops := sc3) (by decide +kernel)
  obtain ⟨d, hd, hdr⟩ := hR.dq.get (i := 0) rfl
  obtain ⟨x, hx, _, hxr⟩ := hR.ao.aos.get (i := 1) rfl
  refine ⟨w, d, x, h, allowed (by decide +kernel),
    hd, hx, ?_, ?_, ?_, ?_⟩
  · rw [contents_eq hdr]; decide +kernel
  · rw [contents_eq hxr]; decide +kernel
  · obtain ⟨qa, h5, h6⟩ := hxr
    rw [h5.nel, h5.qty, h6]; decide +kernel
  · have e : Obs.reservations sc3 [] = (fin sc3).resv := by decide +kernel
    rw [refsAfter, e, references_eq hR]; decide +kernel

/-- C25, C26, C27: a publish to two subscribers, one of them the sender (hypotheses of `publish_delivers`). -/
example : ∃ w w', Run cfg slots hdr (setup ++ [.alloc 10 5]) (outs (setup ++ [.alloc 10 5])) w ∧
    Allowed cfg hdr (setup ++ [.alloc 10 5]) (.publish 0 1000 (some 1)) ∧ subs cfg (setup ++ [.alloc 10 5]) 0 = [1, 3] ∧
    receivers cfg (setup ++ [.alloc 10 5]) 0 (some 1) = [3] ∧
    step cfg w (.publish 0 1000 (some 1)) = .ok (w', .num 2) ∧ Obs.Allocated cfg w 0 1000 := by
  obtain ⟨w, h, hR⟩ := mk (ops := setup ++ [.alloc 10 5]) (by decide +kernel)
  have hall : Allowed cfg hdr (setup ++ [.alloc 10 5]) (.publish 0 1000 (some 1)) := allowed (by decide +kernel)
  obtain ⟨a, hR2, hr, hb⟩ := h.full
  have hsub : subs cfg (setup ++ [.alloc 10 5]) 0 = [1, 3] := by decide +kernel
  have hct : ∀ p ∈ subs cfg (setup ++ [.alloc 10 5]) 0, CanReceive w (setup ++ [.alloc 10 5]) (some 1) p := by
    rw [hsub]
    intro p hp
    obtain ⟨x0, hx0, _, hx0r⟩ := hR.ao.aos.get (i := 0) rfl
    obtain ⟨x1, hx1, _, hx1r⟩ := hR.ao.aos.get (i := 1) rfl
    simp only [List.mem_cons, List.not_mem_nil, or_false] at hp
    rcases hp with rfl | rfl
    · exact ⟨1, x1, by decide +kernel, hx1, .inl rfl⟩
    · refine ⟨0, x0, by decide +kernel, hx0, .inr ?_⟩
      obtain ⟨qa, h5, h6⟩ := hx0r
      rw [h5.nel, h5.qty, h6]; decide +kernel
  obtain ⟨w', hs⟩ := (publish_ok_iff h hall).1 hct
  rw [hsub] at hs
  exact ⟨w, w', h, hall, hsub, by decide +kernel, hs, (allocated_iff hR 0 1000).mpr ⟨_, rfl, by decide +kernel⟩⟩

/-- C55: object 0 got and processed events, none of them by LIFO posts or recalls. -/
example : ∃ w x, Run cfg slots hdr sc6 (outs sc6) w ∧ w.aos[0]? = some x ∧
    (∀ op ∈ sc6, (∀ e, op ≠ .postLifo 0 e) ∧ ∀ i, op ≠ .recall 0 i) ∧ Obs.dispatched 0 (outs sc6) = [1000] := by
  obtain ⟨w, h, hR⟩ := mk (ops := sc6) (by decide +kernel)
  obtain ⟨x, hx, _, _⟩ := hR.ao.aos.get (i := 0) rfl
  refine ⟨w, x, h, hx, ?_, by decide +kernel⟩
  simp [sc6, sc5, sc4, sc3, sc2, sc1, setup]

end Verif.Fwk.Demo
