import Verif.Queue.Trace
import Verif.Queue.Props
/-
Property C106: what the trace records of the event queues tell, for every number of queues and every history of calls.
-/
namespace Verif.Queue
open Verif

/-- Tracing changes nothing. -/
theorem tcall_erase (c : Cfg) (id : Nat) (q : Queue) (op : Op) : (tcall c id q op).map' (fun r => (r.1, r.2.1)) = step c q op := by
  cases op <;> simp only [tcall, tPutFifo, tPutLifo, tGet, tDeplete, step, Res.map']
  · cases putFifo c q _ <;> rfl
  · cases putLifo c q _ <;> rfl
  · cases get c q <;> rfl
  · cases read c q 1 _ <;> rfl

/-- What the host should know about a queue. -/
def known (x : Queue) : Known := ⟨x.nelems, x.sma, getNum x, getLwm x⟩

/-- Every initialisation hands over real storage of a representable size, and assertions guard active-object queues. -/
def MLegal (c : Cfg) : MOp → Prop
  | .init _ mem size sma => Setup c sma mem size
  | .call _ _ => True

/-- Every queue represents some sequence. -/
def Good (c : Cfg) (w : World) : Prop :=
  ∀ q x, w q = some x → ∃ cap a, (c.assertEn = true ∨ x.sma = false) ∧ Rep c x.sma cap x a

theorem wset_same (w : World) (q : Nat) (x : Queue) : w.set q x q = some x := by simp [World.set]
theorem wset_ne (w : World) {q i : Nat} (x : Queue) (h : i ≠ q) : w.set q x i = w i := by simp [World.set, h]
theorem hset_same (h : Host) (q : Nat) (k : Known) : h.set q k q = some k := by simp [Host.set]
theorem hset_ne (h : Host) {q i : Nat} (k : Known) (hi : i ≠ q) : h.set q k i = h i := by simp [Host.set, hi]

/-- The records of one call, given the sequence `a` in the queue before it. -/
def Expected (c : Cfg) (id : Nat) (sma : Bool) (cap : Nat) (a : Spec.Abs) : Op → List QRec
  | .putFifo _ => if a.items.length = cap then [.full id] else [.fifo id (a.items.length + 1) (min a.minFree (cap - (a.items.length + 1)))]
  | .putLifo _ => if a.items.length = cap then [.full id] else [.lifo id (a.items.length + 1) (min a.minFree (cap - (a.items.length + 1)))]
  | .get => match a.items with
    | [] => []
    | [_] => if sma then [.getLast id] else [.get id 0]
    | _ :: rest => [.get id rest.length]
  | .deplete => [.dpt id]
  | _ => []

theorem call_records {c : Cfg} {sma : Bool} {cap : Nat} {q q' : Queue} {a : Spec.Abs} {id : Nat} {op : Op} {o : Out} {rs : List QRec}
    (hen : c.assertEn = true ∨ sma = false) (h : Rep c sma cap q a) (hc : tcall c id q op = .ok (q', o, rs)) :
    (∃ a', Spec.step c.assertEn sma cap a op = .ok (a', o) ∧ Rep c sma cap q' a') ∧ rs = Expected c id sma cap a op := by
  have he := tcall_erase c id q op
  rw [hc] at he
  have hs : step c q op = .ok (q', o) := he.symm
  have hrel := rep_step hen op h
  rw [hs] at hrel
  rcases hsp : Spec.step c.assertEn sma cap a op with ⟨a', o'⟩ | _ | _ <;> rw [hsp] at hrel <;> simp only [StepRel] at hrel
  obtain ⟨hr', rfl⟩ := hrel
  refine ⟨⟨a', rfl, hr'⟩, ?_⟩
  have hq := h.qty
  have hn := h.nel
  have hle := h.le
  have hq' := hr'.qty
  have hm' := hr'.nmin
  have hsm := h.sma
  cases op with
  | putFifo e =>
    simp only [tcall, tPutFifo, Res.map'_eq_ok] at hc
    obtain ⟨⟨q1, r1⟩, ⟨⟨q2, y⟩, h1, h2⟩, h3⟩ := hc
    simp only [Prod.mk.injEq] at h2 h3
    obtain ⟨rfl, rfl⟩ := h2
    obtain ⟨rfl, _, rfl⟩ := h3
    simp only [Expected]
    by_cases hf : a.items.length = cap
    · rw [if_pos (by omega), if_pos hf]
    · rw [if_neg (by omega), if_neg hf, hq', hm']
      simp only [Spec.step, Spec.put] at hsp
      split at hsp
      · cases hsp
      · split at hsp
        · rename_i hx; exact absurd (by simpa using hx) hf
        · simp only [Res.ok.injEq, Prod.mk.injEq] at hsp
          rw [← hsp.1]; simp [Spec.store]
  | putLifo e =>
    simp only [tcall, tPutLifo, Res.map'_eq_ok] at hc
    obtain ⟨⟨q1, r1⟩, ⟨⟨q2, y⟩, h1, h2⟩, h3⟩ := hc
    simp only [Prod.mk.injEq] at h2 h3
    obtain ⟨rfl, rfl⟩ := h2
    obtain ⟨rfl, _, rfl⟩ := h3
    simp only [Expected]
    by_cases hf : a.items.length = cap
    · rw [if_pos (by omega), if_pos hf]
    · rw [if_neg (by omega), if_neg hf, hq', hm']
      simp only [Spec.step, Spec.put] at hsp
      split at hsp
      · cases hsp
      · split at hsp
        · rename_i hx; exact absurd (by simpa using hx) hf
        · simp only [Res.ok.injEq, Prod.mk.injEq] at hsp
          rw [← hsp.1]; simp [Spec.store]
  | get =>
    simp only [tcall, tGet, Res.map'_eq_ok] at hc
    obtain ⟨⟨q1, e1, r1⟩, ⟨⟨q2, e2, y⟩, h1, h2⟩, h3⟩ := hc
    simp only [Prod.mk.injEq] at h2 h3
    obtain ⟨rfl, rfl, rfl⟩ := h2
    obtain ⟨rfl, _, rfl⟩ := h3
    simp only [Spec.step] at hsp
    simp only [Expected]
    rw [hq', hsm]
    cases ha : a.items with
    | nil =>
      rw [ha] at hsp hq
      simp only at hsp
      cases sma with
      | true => simp at hsp
      | false => simp [hq]
    | cons e rest =>
      rw [ha] at hsp hq
      simp only [Res.ok.injEq, Prod.mk.injEq] at hsp
      have hz : (q.qty == 0) = false := by rw [hq]; simp
      rw [hz, ← hsp.1]
      cases rest with
      | nil => cases sma <;> simp
      | cons e' rest => cases sma <;> simp
  | deplete =>
    simp only [tcall, tDeplete, Res.ok.injEq, Prod.mk.injEq] at hc
    exact hc.2.2.symm
  | read => simp only [tcall, Res.map'_eq_ok] at hc; obtain ⟨_, _, h3⟩ := hc; simp only [Prod.mk.injEq] at h3; exact h3.2.2.symm
  | isFull => simp only [tcall, Res.map'_eq_ok] at hc; obtain ⟨_, _, h3⟩ := hc; simp only [Prod.mk.injEq] at h3; exact h3.2.2.symm
  | getNum => simp only [tcall, Res.map'_eq_ok] at hc; obtain ⟨_, _, h3⟩ := hc; simp only [Prod.mk.injEq] at h3; exact h3.2.2.symm
  | getLwm => simp only [tcall, Res.map'_eq_ok] at hc; obtain ⟨_, _, h3⟩ := hc; simp only [Prod.mk.injEq] at h3; exact h3.2.2.symm
  | getInfo => simp only [tcall, Res.map'_eq_ok] at hc; obtain ⟨_, _, h3⟩ := hc; simp only [Prod.mk.injEq] at h3; exact h3.2.2.symm
  | clearInfo => simp only [tcall, Res.map'_eq_ok] at hc; obtain ⟨_, _, h3⟩ := hc; simp only [Prod.mk.injEq] at h3; exact h3.2.2.symm

theorem rep_known {c : Cfg} {sma : Bool} {cap : Nat} {q : Queue} {a : Spec.Abs} (h : Rep c sma cap q a) :
    known q = ⟨cap, sma, a.items.length, a.minFree⟩ := by
  simp [known, getNum, getLwm, h.nel, h.sma, h.qty, h.nmin]

theorem readPut_ok {v : Host} {q : Nat} {k : Known} {n m : Nat} (h : v q = some k) (h1 : n = k.num + 1) (h2 : n ≤ k.cap)
    (h3 : m = min k.lwm (k.cap - n)) : v.readPut q n m = some (v.set q { k with num := n, lwm := m }) := by
  unfold Host.readPut
  rw [h]
  exact if_pos ⟨h1, h2, h3⟩

theorem call_host {c : Cfg} {sma : Bool} {cap : Nat} {a a' : Spec.Abs} {id : Nat} {op : Op} {o : Out} {v : Host}
    (hsp : Spec.step c.assertEn sma cap a op = .ok (a', o)) (hle : a.items.length ≤ cap)
    (hv : v id = some ⟨cap, sma, a.items.length, a.minFree⟩) :
    ∃ v', v.readAll (Expected c id sma cap a op) = some v' ∧ v' id = some ⟨cap, sma, a'.items.length, a'.minFree⟩ ∧
      ∀ i, i ≠ id → v' i = v i := by
  have keep : ∀ (k : Known), (∀ i, i ≠ id → (v.set id k) i = v i) := fun k i hi => hset_ne v k hi
  have put : ∀ (e : Ptr) (new : List Ptr), new.length = a.items.length + 1 → Spec.put c.assertEn cap a e new = .ok (a', o) →
      (a.items.length = cap ∧ a'.items = a.items ∧ a'.minFree = a.minFree) ∨
      (a.items.length ≠ cap ∧ a'.items.length = a.items.length + 1 ∧ a'.minFree = min a.minFree (cap - (a.items.length + 1))) := by
    intro e new hl h
    simp only [Spec.put] at h
    split at h
    · cases h
    · split at h
      · rename_i hx
        simp only [Res.ok.injEq, Prod.mk.injEq] at h
        exact .inl ⟨by simpa using hx, by rw [← h.1], by rw [← h.1]⟩
      · rename_i hx
        simp only [Res.ok.injEq, Prod.mk.injEq] at h
        exact .inr ⟨by simpa using hx, by rw [← h.1]; simp [Spec.store, hl], by rw [← h.1]; simp [Spec.store, hl]⟩
  cases op with
  | putFifo e =>
    simp only [Expected]
    rcases put e _ (by simp) hsp with ⟨k1, k2, k3⟩ | ⟨k1, k2, k3⟩
    · rw [if_pos k1]
      exact ⟨v, by simp [Host.readAll, Host.read, hv, k1], by rw [k2, k3]; exact hv, fun _ _ => rfl⟩
    · rw [if_neg k1]
      refine ⟨_, by simp only [Host.readAll, Host.read]; rw [readPut_ok hv rfl (by simp only; omega) rfl]; rfl, ?_, keep _⟩
      rw [hset_same, k2, k3]
  | putLifo e =>
    simp only [Expected]
    rcases put e _ (by simp) hsp with ⟨k1, k2, k3⟩ | ⟨k1, k2, k3⟩
    · rw [if_pos k1]
      exact ⟨v, by simp [Host.readAll, Host.read, hv, k1], by rw [k2, k3]; exact hv, fun _ _ => rfl⟩
    · rw [if_neg k1]
      refine ⟨_, by simp only [Host.readAll, Host.read]; rw [readPut_ok hv rfl (by simp only; omega) rfl]; rfl, ?_, keep _⟩
      rw [hset_same, k2, k3]
  | get =>
    simp only [Spec.step] at hsp
    simp only [Expected]
    cases ha : a.items with
    | nil =>
      rw [ha] at hsp
      simp only at hsp
      split at hsp
      · cases hsp
      · simp only [Res.ok.injEq, Prod.mk.injEq] at hsp
        rw [ha] at hv
        refine ⟨v, rfl, ?_, fun _ _ => rfl⟩
        rw [← hsp.1]
        simpa [ha] using hv
    | cons e rest =>
      rw [ha] at hsp hv
      simp only [Res.ok.injEq, Prod.mk.injEq] at hsp
      cases rest with
      | nil =>
        cases sma with
        | true =>
          refine ⟨v.set id ⟨cap, true, 0, a.minFree⟩, by simp [Host.readAll, Host.read, hv], ?_, keep _⟩
          rw [hset_same, ← hsp.1]; rfl
        | false =>
          refine ⟨v.set id ⟨cap, false, 0, a.minFree⟩, by simp [Host.readAll, Host.read, hv], ?_, keep _⟩
          rw [hset_same, ← hsp.1]; rfl
      | cons e' rest =>
        refine ⟨v.set id ⟨cap, sma, rest.length + 1, a.minFree⟩, by simp [Host.readAll, Host.read, hv], ?_, keep _⟩
        rw [hset_same, ← hsp.1]; rfl
  | deplete =>
    simp only [Spec.step, Res.ok.injEq, Prod.mk.injEq] at hsp
    refine ⟨v.set id ⟨cap, sma, 0, a.minFree⟩, by simp [Expected, Host.readAll, Host.read, hv], ?_, keep _⟩
    rw [hset_same, ← hsp.1]; rfl
  | read =>
    simp only [Spec.step] at hsp
    split at hsp <;> simp only [Res.ok.injEq, Prod.mk.injEq] at hsp <;>
      exact ⟨v, rfl, by rw [← hsp.1]; exact hv, fun _ _ => rfl⟩
  | isFull => simp only [Spec.step, Res.ok.injEq, Prod.mk.injEq] at hsp; exact ⟨v, rfl, by rw [← hsp.1]; exact hv, fun _ _ => rfl⟩
  | getNum => simp only [Spec.step, Res.ok.injEq, Prod.mk.injEq] at hsp; exact ⟨v, rfl, by rw [← hsp.1]; exact hv, fun _ _ => rfl⟩
  | getLwm => simp only [Spec.step, Res.ok.injEq, Prod.mk.injEq] at hsp; exact ⟨v, rfl, by rw [← hsp.1]; exact hv, fun _ _ => rfl⟩
  | getInfo => simp only [Spec.step, Res.ok.injEq, Prod.mk.injEq] at hsp; exact ⟨v, rfl, by rw [← hsp.1]; exact hv, fun _ _ => rfl⟩
  | clearInfo => simp only [Spec.step, Res.ok.injEq, Prod.mk.injEq] at hsp; exact ⟨v, rfl, by rw [← hsp.1]; exact hv, fun _ _ => rfl⟩

theorem mstep_host {c : Cfg} {w w' : World} {op : MOp} {o : Out × List QRec} {v : Host} (hg : Good c w) (hl : MLegal c op)
    (hv : ∀ q, v q = (w q).map known) (hs : mstep c w op = .ok (w', o)) :
    Good c w' ∧ ∃ v', v.readAll o.2 = some v' ∧ ∀ q, v' q = (w' q).map known := by
  cases op with
  | init q mem size sma =>
    have hl : Setup c sma mem size := hl
    simp only [mstep, Res.ok.injEq, Prod.mk.injEq] at hs
    obtain ⟨rfl, rfl⟩ := hs
    have hr := rep_init c sma size mem hl.room hl.width
    refine ⟨fun i x hx => ?_, v.set q ⟨size, sma, 0, size⟩, rfl, fun i => ?_⟩
    · by_cases hi : i = q
      · subst hi
        rw [wset_same] at hx
        cases hx
        exact ⟨size, _, hl.guarded, hr⟩
      · rw [wset_ne _ _ hi] at hx; exact hg i x hx
    · by_cases hi : i = q
      · subst hi; rw [hset_same, wset_same, Option.map_some, rep_known hr]; rfl
      · rw [hset_ne _ _ hi, wset_ne _ _ hi]; exact hv i
  | call q op =>
    simp only [mstep] at hs
    cases hx : w q with
    | none => rw [hx] at hs; cases hs
    | some x =>
      rw [hx] at hs
      simp only [Res.map'_eq_ok, Prod.mk.injEq] at hs
      obtain ⟨⟨x', o', rs⟩, hc, rfl, rfl⟩ := hs
      obtain ⟨cap, a, hen, hr⟩ := hg q x hx
      obtain ⟨⟨a', hsp, hr'⟩, rfl⟩ := call_records hen hr hc
      have hvq := hv q
      rw [hx, Option.map_some, rep_known hr] at hvq
      obtain ⟨v', h1, h2, h3⟩ := call_host (id := q) hsp hr.le hvq
      have hsm : x'.sma = x.sma := hr'.sma
      refine ⟨fun i y hy => ?_, v', h1, fun i => ?_⟩
      · by_cases hi : i = q
        · subst hi
          rw [wset_same] at hy
          cases hy
          exact ⟨cap, a', by rw [hsm]; exact hen, by rw [hsm]; exact hr'⟩
        · rw [wset_ne _ _ hi] at hy; exact hg i y hy
      · by_cases hi : i = q
        · subst hi; rw [h2, wset_same, Option.map_some, rep_known hr']
        · rw [h3 i hi, wset_ne _ _ hi]; exact hv i

theorem readAll_append (h : Host) (l l' : List QRec) : h.readAll (l ++ l') = (h.readAll l).bind fun h => h.readAll l' := by
  induction l generalizing h with
  | nil => rfl
  | cons r l ih => simp only [List.cons_append, Host.readAll]; cases h.read r <;> simp [ih]

theorem run_host {c : Cfg} : ∀ (h : List MOp) (w : World) (v : Host), Good c w → (∀ q, v q = (w q).map known) →
    (∀ op ∈ h, MLegal c op) →
    ∃ v', v.readAll (records (runOps (mstep c) w h).1) = some v' ∧
      ∀ w', (runOps (mstep c) w h).2 = .ok w' → Good c w' ∧ ∀ q, v' q = (w' q).map known := by
  intro h
  induction h with
  | nil =>
    intro w v hg hv _
    exact ⟨v, rfl, fun w' hw => by simp only [runOps, Res.ok.injEq] at hw; subst hw; exact ⟨hg, hv⟩⟩
  | cons op h ih =>
    intro w v hg hv hl
    simp only [runOps]
    rcases hs : mstep c w op with ⟨w1, o⟩ | _ | _
    · obtain ⟨g1, v1, h1, h2⟩ := mstep_host hg (hl op (by simp)) hv hs
      obtain ⟨v', h3, h4⟩ := ih w1 v1 g1 h2 fun op hop => hl op (by simp [hop])
      refine ⟨v', ?_, h4⟩
      simp only [records, List.flatMap_cons] at h3 ⊢
      rw [readAll_append, h1]
      exact h3
    · exact ⟨v, rfl, fun _ hw => by cases hw⟩
    · exact ⟨v, rfl, fun _ hw => by cases hw⟩

/-- **C106.** For any number of queues and every history of calls on them: a host that reads the trace is never contradicted,
even if the program ends in an assertion, and, as long as the program runs, it knows for every queue its capacity, the number of stored elements
and the smallest number of free places there has ever been - exactly what `rkh_queue_get_num` and `rkh_queue_get_lwm` would return. -/
theorem host_knows_the_event_queues {c : Cfg} (h : List MOp) (hl : ∀ op ∈ h, MLegal c op) :
    ∃ v, Host.readAll (fun _ => none) (records (runOps (mstep c) (fun _ => none) h).1) = some v ∧
      ∀ w, (runOps (mstep c) (fun _ => none) h).2 = .ok w → ∀ q, v q = (w q).map known :=
  let ⟨v, h1, h2⟩ := run_host h (fun _ => none) (fun _ => none) (fun _ _ h => by cases h) (fun _ => rfl) hl
  ⟨v, h1, fun w hw => (h2 w hw).2⟩

/-- **C106.** Each call leaves exactly the record one expects, given the sequence stored before the call: a successful put shows the number of elements
and the low watermark after it, a rejected one shows that the queue was full, a successful get shows how many elements are left
(or, for an active object, that none is left); a get from an empty queue and the other calls show nothing. -/
theorem queue_records {c : Cfg} {sma : Bool} {mem : List Ptr} {cap : Nat} {ops : List Op} {q q' : Queue} {id : Nat} {op : Op} {o : Out}
    {rs : List QRec} (hs : Setup c sma mem cap) (hr : Reached c sma mem cap ops q) (hc : tcall c id q op = .ok (q', o, rs)) :
    step c q op = .ok (q', o) ∧
    ∃ a, (runOps (Spec.step c.assertEn sma cap) (Spec.empty cap) ops).2 = .ok a ∧ rs = Expected c id sma cap a op := by
  obtain ⟨a, h1, h2⟩ := reached_rep hs hr
  have he := tcall_erase c id q op
  rw [hc] at he
  exact ⟨he.symm, a, h1, (call_records hs.guarded h2 hc).2⟩

/-- Tracing changes nothing: the traced call ends as the untraced one does, with the same queue and result. -/
theorem queue_tracing_changes_nothing (c : Cfg) (id : Nat) (q : Queue) (op : Op) :
    (tcall c id q op).map' (fun r => (r.1, r.2.1)) = step c q op := tcall_erase c id q op

/-! ### A concrete history -/

/-- Two queues, one of an active object; both get full, one is emptied, one is initialised again. -/
def traceOps : List MOp :=
  [.init 1 [7, 7, 7] 2 true, .init 2 [9] 1 false, .call 1 (.putFifo 11), .call 2 (.putLifo 21), .call 1 (.putLifo 12),
   .call 1 .get, .call 2 .get, .call 2 .get, .call 1 .get, .call 1 (.putFifo 13), .call 1 .deplete, .init 2 [9] 1 false, .call 2 (.putFifo 22)]

example : (∀ op ∈ traceOps, MLegal cfg8 op) ∧
    records (runOps (mstep cfg8) (fun _ => none) traceOps).1 =
      [.init 1 2 true, .init 2 1 false, .fifo 1 1 1, .lifo 2 1 0, .lifo 1 2 0, .get 1 1, .get 2 0, .getLast 1, .fifo 1 1 0, .dpt 1,
       .init 2 1 false, .fifo 2 1 0] ∧
    ∃ w, (runOps (mstep cfg8) (fun _ => none) traceOps).2 = .ok w ∧ (w 1).map known = some ⟨2, true, 0, 0⟩ ∧
      (w 2).map known = some ⟨1, false, 1, 0⟩ ∧ (w 3).map known = none := by
  refine ⟨?_, by decide +kernel, _, rfl, by decide +kernel, by decide +kernel, by decide +kernel⟩
  intro op hop
  simp only [traceOps, List.mem_cons, List.not_mem_nil, or_false] at hop
  rcases hop with rfl | rfl | rfl | rfl | rfl | rfl | rfl | rfl | rfl | rfl | rfl | rfl | rfl <;>
    first | exact trivial | exact Setup.of _ _ _ _ (by decide)

-- queue_records: without assertions a full queue shows that it was full
example : ∃ q q', Reached ⟨false, 256⟩ false [7] 1 [.putFifo 1] q ∧ tcall ⟨false, 256⟩ 5 q (.putFifo 2) = .ok (q', .unit, [.full 5]) :=
  ⟨_, _, rfl, rfl⟩

end Verif.Queue
