import Verif.Link.ReadLemmas
import Verif.Timer.TraceProps
import Verif.Queue.TraceProps
import Verif.MemPool.TraceProps
import Verif.Fwk.TraceProps
import Verif.SM.TraceProps
/-
Property C108: what a host knows from the received bytes alone.
-/
namespace Verif.Link
open Verif Verif.Trc Verif.Trc.Spec

variable {f : FCfg} {k : PCfg} {hz : Nat} {ts : BitVec 32} {mem : List Byte} {acts : List Act} {bytes : List Byte} {D : Dict}

/-- A program announces its configuration and then does `acts`: it executes trace points, controls the filters and fetches
bytes from the trace buffer, in any order and often enough that the buffer does not overflow. `bytes` is everything that was fetched,
including what is left in the end. -/
structure Channel (f : FCfg) (k : PCfg) (hz : Nat) (ts : BitVec 32) (mem : List Byte) (acts : List Act) (bytes : List Byte) : Prop where
  cfg : CfgOk k.cfg f
  ptr : k.ptr ≠ .b8 ∧ k.funPtr = k.ptr
  pools : k.maxEvtPool < 16
  announced : k.allEn || k.fwkEn
  buffer : mem.length = k.sz
  legal : ∀ x ∈ acts, ActOk f k x
  run : ∃ w0 outs w' d w'' n b,
    start k.cfg f mem = .ok w0 ∧
    runOps (step k.cfg f) w0 (calls k (.pt (.fwkTcfg hz) ts) ++ acts.flatMap (calls k)) = (outs, .ok w') ∧
    (∀ i, i ≤ (calls k (.pt (.fwkTcfg hz) ts) ++ acts.flatMap (calls k)).length →
      (wire k.cfg (emitted f On.none ((calls k (.pt (.fwkTcfg hz) ts) ++ acts.flatMap (calls k)).take i))).length ≤
        k.sz + ((outs.take i).flatMap readBytes).length) ∧
    d.length = k.sz ∧ step k.cfg f w' (.whole d k.sz) = .ok (w'', .buffer n b) ∧
    bytes = outs.flatMap readBytes ++ b.take n

/-- What comes out of the channel is the meaning of the trace points that passed the filters. -/
theorem Channel.host (ch : Channel f k hz ts mem acts bytes) :
    ∃ a, host (receive bytes) = some (a, meanings k 0#8 (shown f k On.none acts)) := by
  obtain ⟨w0, outs, w', d, w'', n, b, h1, h2, h3, h4, h5, rfl⟩ := ch.run
  obtain ⟨w0', outs', w1, g1, g2, g3⟩ := host_sees_what_the_program_did_partial ch.cfg ch.ptr ch.pools ch.announced mem ch.buffer hz ts acts ch.legal
  rw [h1] at g1
  cases g1
  rw [h2] at g2
  simp only [Prod.mk.injEq, Res.ok.injEq] at g2
  obtain ⟨rfl, rfl⟩ := g2
  obtain ⟨unread, a, e1, e2⟩ := g3 h3
  obtain ⟨w2, n', b', e3, e4⟩ := e1 d h4
  rw [h5] at e3
  simp only [Res.ok.injEq, Prod.mk.injEq, SOut.buffer.injEq] at e3
  obtain ⟨_, rfl, rfl⟩ := e3
  rw [← e4] at e2
  exact ⟨a, e2⟩

theorem meanings_read {α : Type} {read : Decoded → Option α} {of : Pt → Option α} (l : List (Pt × BitVec 32)) (n : Byte)
    (h : ∀ n, ∀ x ∈ l, read (meaning k n x.1 x.2) = of x.1) :
    (meanings k n l).filterMap read = (l.map Prod.fst).filterMap of := by
  induction l generalizing n with
  | nil => rfl
  | cons x l ih =>
    obtain ⟨p, t⟩ := x
    have h1 := h n (p, t) (by simp)
    have h2 := ih (n + 1#8) fun n x hx => h n x (by simp [hx])
    simp only [meanings, List.map_cons, List.filterMap_cons, h1, h2]

theorem shown_all {α : Type} {of : Pt → Option α} : ∀ (acts : List Act) (on : On),
    Unfiltered f k (fun p => (of p).isSome) on acts →
    ((shown f k on acts).map Prod.fst).filterMap of = (points acts).filterMap of := by
  intro acts
  induction acts with
  | nil => intros; rfl
  | cons x acts ih =>
    intro on h
    cases x with
    | ctl op => exact ih _ h
    | pt p ts =>
      have ih := ih on h.2
      simp only [shown, points, List.map_append, List.filterMap_append, ih]
      cases hp : of p with
      | none => split <;> simp [hp]
      | some r =>
        have := h.1 (by simp [hp])
        simp [this, hp]

theorem shown_mem : ∀ (acts : List Act) (on : On), ∀ x ∈ shown f k on acts, x.1 ∈ points acts := by
  intro acts
  induction acts with
  | nil => intro on x hx; cases hx
  | cons y acts ih =>
    intro on x hx
    cases y with
    | ctl op => exact ih _ x hx
    | pt p ts =>
      simp only [shown, List.mem_append] at hx
      rcases hx with hx | hx
      · split at hx
        · simp only [List.mem_singleton] at hx; subst hx; simp [points]
        · cases hx
      · simp only [points, List.mem_cons]; exact .inr (ih _ x hx)

/-- **C108.** Of any kind of record whose trace points are not filtered, a host finds in the bytes exactly the records the program
wrote, in order and with the same contents. -/
theorem bytes_tell_records (ch : Channel f k hz ts mem acts bytes) (hfit : ∀ p ∈ points acts, Fits k p) (hq : k.queLwmEn = true)
    (hm : k.mpLwmEn = true) :
    ∃ a ds, host (receive bytes) = some (a, ds) ∧
      (Unfiltered f k (fun p => (tmrOf p).isSome) On.none acts → ds.filterMap readTmr = (points acts).filterMap tmrOf) ∧
      (Unfiltered f k (fun p => (queOf p).isSome) On.none acts → ds.filterMap readQue = (points acts).filterMap queOf) ∧
      (Unfiltered f k (fun p => (mpOf p).isSome) On.none acts → ds.filterMap readMp = (points acts).filterMap mpOf) ∧
      (∀ D, Unfiltered f k (fun p => (fwkOf k D p).isSome) On.none acts → ds.filterMap (readFwk D) = (points acts).filterMap (fwkOf k D)) ∧
      (∀ D ao, Unfiltered f k (fun p => (smOf D ao p).isSome) On.none acts →
        ds.filterMap (readSm D ao) = (points acts).filterMap (smOf D ao)) := by
  obtain ⟨a, h⟩ := ch.host
  have ok : ∀ x ∈ shown f k On.none acts, PtOk x.1 ∧ Fits k x.1 := fun x hx =>
    ⟨(shown_ok acts On.none ch.legal x hx).1, hfit _ (shown_mem acts On.none x hx)⟩
  refine ⟨a, _, h, fun hu => ?_, fun hu => ?_, fun hu => ?_, fun D hu => ?_, fun D ao hu => ?_⟩
  all_goals rw [← shown_all acts On.none hu]; refine meanings_read _ _ fun n x hx => ?_
  · exact readTmr_meaning (ok x hx).1 (ok x hx).2
  · exact readQue_meaning hq (ok x hx).1 (ok x hx).2
  · exact readMp_meaning hm (ok x hx).1 (ok x hx).2
  · exact readFwk_meaning hq (ok x hx).1 (ok x hx).2
  · exact readSm_meaning (ok x hx).1 (ok x hx).2

theorem emitted_take (f : FCfg) : ∀ (ops : List Op) (on : On) (i : Nat), ∃ l, emitted f on ops = emitted f on (ops.take i) ++ l := by
  intro ops
  induction ops with
  | nil => intro on i; exact ⟨[], by simp [emitted]⟩
  | cons op ops ih =>
    intro on i
    cases i with
    | zero => exact ⟨_, rfl⟩
    | succ i =>
      obtain ⟨l, hl⟩ := ih (onAfter on op) i
      exact ⟨l, by simp only [List.take_succ_cons, emitted, List.append_assoc]; rw [hl]⟩

theorem raws_append (c : Cfg) : ∀ (l l' : List Record) (n : Byte), ∃ m, raws c n (l ++ l') = raws c n l ++ raws c m l' := by
  intro l l'
  induction l with
  | nil => intro n; exact ⟨n, rfl⟩
  | cons r l ih =>
    intro n
    obtain ⟨m, hm⟩ := ih (nextSeq c n r)
    exact ⟨m, by simp only [List.cons_append, raws, hm]⟩

theorem wire_take (c : Cfg) (f : FCfg) (on : On) (ops : List Op) (i : Nat) :
    (wire c (emitted f on (ops.take i))).length ≤ (wire c (emitted f on ops)).length := by
  obtain ⟨l, hl⟩ := emitted_take f ops on i
  obtain ⟨m, hm⟩ := raws_append c (emitted f on (ops.take i)) l 0#8
  rw [hl]
  simp only [wire, hm, List.length_cons, List.flatMap_append, List.length_append]
  omega

/-- If the whole trace fits into the buffer there is nothing to keep up with. -/
theorem small_channel (hc : CfgOk k.cfg f) (hk : k.ptr ≠ .b8 ∧ k.funPtr = k.ptr) (hm : k.maxEvtPool < 16) (hen : k.allEn || k.fwkEn)
    (hl : ∀ x ∈ acts, ActOk f k x)
    (hs : (wire k.cfg (emitted f On.none (calls k (.pt (.fwkTcfg hz) ts) ++ acts.flatMap (calls k)))).length ≤ k.sz) :
    ∃ bytes, Channel f k hz ts (List.replicate k.sz 0) acts bytes := by
  obtain ⟨w0, outs, w', h1, h2, h3⟩ := host_sees_what_the_program_did_partial hc hk hm hen (List.replicate k.sz 0) (by simp) hz ts acts hl
  have hup : ∀ i, i ≤ (calls k (.pt (.fwkTcfg hz) ts) ++ acts.flatMap (calls k)).length →
      (wire k.cfg (emitted f On.none ((calls k (.pt (.fwkTcfg hz) ts) ++ acts.flatMap (calls k)).take i))).length ≤
        k.sz + ((outs.take i).flatMap readBytes).length := fun i _ =>
    Nat.le_trans (wire_take _ _ _ _ i) (Nat.le_trans hs (Nat.le_add_right _ _))
  obtain ⟨unread, a, e1, e2⟩ := h3 hup
  obtain ⟨w'', n, b, e3, e4⟩ := e1 (List.replicate k.sz 0) (by simp)
  exact ⟨_, hc, hk, hm, hen, by simp, hl, w0, outs, w', _, w'', n, b, h1, h2, hup, by simp, e3, rfl⟩

/-- **C108.** The program's timers, queues, memory pools, active objects and state machines each go through a history of their own; their
trace points are interleaved in any way, also with other trace points, filter calls and readings. From the bytes alone (and the
dictionary of addresses) a host knows
* which timers are running, for whom, and with which period;
* how many elements every queue holds, and the smallest number of free places so far;
* how many blocks of every memory pool are free, the smallest number so far, and how many requests failed;
* who is registered at each priority and which signals wait for each active object, in order;
* everything a state machine did, and its current state. -/
theorem host_knows_from_bytes (ch : Channel f k hz ts mem acts bytes) (hfit : ∀ p ∈ points acts, Fits k p) (hq : k.queLwmEn = true)
    (hm : k.mpLwmEn = true) :
    ∃ a ds, host (receive bytes) = some (a, ds) ∧
      -- timers
      (∀ c heap h os s, Timer.TRun c heap h os s → (points acts).filterMap tmrOf = Timer.records os →
        Unfiltered f k (fun p => (tmrOf p).isSome) On.none acts →
        ∃ v, Timer.Host.readAll (fun _ => none) (ds.filterMap readTmr) = some v ∧
          ∀ t, v t = ((Timer.after h).tm t).sched.map fun x => (x.sma, x.per)) ∧
      -- queues
      (∀ c h, (∀ op ∈ h, Queue.MLegal c op) →
        (points acts).filterMap queOf = Queue.records (runOps (Queue.mstep c) (fun _ => none) h).1 →
        Unfiltered f k (fun p => (queOf p).isSome) On.none acts →
        ∃ v, Queue.Host.readAll (fun _ => none) (ds.filterMap readQue) = some v ∧
          ∀ w, (runOps (Queue.mstep c) (fun _ => none) h).2 = .ok w → ∀ q, v q = (w q).map Queue.known) ∧
      -- memory pools
      (∀ rs ps, MemPool.THist rs ps → (points acts).filterMap mpOf = rs →
        Unfiltered f k (fun p => (mpOf p).isSome) On.none acts →
        ∃ v, MemPool.Host.readAll (fun _ => none) (ds.filterMap readMp) = some v ∧ ∀ id, v id = (ps id).map MemPool.known) ∧
      -- active objects
      (∀ D c slots hdr tops os t, Fwk.Trace.TRun c slots hdr tops os t → (points acts).filterMap (fwkOf k D) = Fwk.Trace.records os →
        Unfiltered f k (fun p => (fwkOf k D p).isSome) On.none acts →
        ∃ v, Fwk.Trace.Host.init.readAll (ds.filterMap (readFwk D)) = some v ∧
          (∀ p, v.reg p = Fwk.Obs.registry (Fwk.Trace.opsOf tops) [] (fun _ => none) p) ∧
          ∀ (ao : Nat) (x : Fwk.Ao), t.w.aos[ao]? = some x → (∀ e, Fwk.Trace.PRec.get ao e ∉ t.pend) →
            v.q ao = Fwk.Trace.signals t.w x.q) ∧
      -- state machines
      (∀ D ao m fn env f0 os, SM.Ans.stop .ub ∉ (SM.tLife m fn env f0 os).2 →
        (points acts).filterMap (smOf D ao) = (SM.tLife m fn env f0 os).1.trc →
        Unfiltered f k (fun p => (smOf D ao p).isSome) On.none acts →
        ∃ r, SM.Spec.Reader.start.read m fn (ds.filterMap (readSm D ao)) = some (r, (SM.life m env f0 os).1.log.filter SM.Spec.visible) ∧
          r.cur = (SM.life m env f0 os).1.state) := by
  obtain ⟨a, ds, h, h1, h2, h3, h4, h5⟩ := bytes_tell_records ch hfit hq hm
  refine ⟨a, ds, h, ?_, ?_, ?_, ?_, ?_⟩
  · intro c heap hi os s r hr hu
    rw [h1 hu, hr]
    exact Timer.host_knows_the_timers r
  · intro c hi hl hr hu
    rw [h2 hu, hr]
    exact Queue.host_knows_the_event_queues hi hl
  · intro rs ps r hr hu
    rw [h3 hu, hr]
    exact MemPool.host_knows_the_pools r
  · intro D c slots hdr tops os t r hr hu
    rw [h4 D hu, hr]
    obtain ⟨v, g1, g2, g3⟩ := Fwk.Trace.host_knows_the_queues r
    exact ⟨v, g1, g2, fun ao x hx hn => ((g3 ao x hx).1 hn).2⟩
  · intro D ao m fn env f0 os hub hr hu
    rw [h5 D ao hu, hr]
    exact SM.trace_tells_behaviour hub

end Verif.Link
