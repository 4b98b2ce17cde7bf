import Verif.Sys.Demo
import Verif.Fwk.Response
/-
Time-outs as an active object sees them: which time-out events are dispatched to it after its timer was started or stopped.
-/
namespace Verif.Sys.Obs
open Verif Verif.Sys

/-- How often the event `e` was dispatched to `ao`. -/
def received (ao e : Nat) : List Out → Nat
  | [] => 0
  | .handled i e' _ _ :: outs => (if i = ao ∧ e' = e then 1 else 0) + received ao e outs
  | _ :: outs => received ao e outs

/-- How often the timer `t` expired and posted to `ao`. -/
def expiries (t ao : Nat) : List Out → Nat
  | [] => 0
  | .posts l :: outs => l.countP (fun p => p.tmr == t && p.sma == ao + 1) + expiries t ao outs
  | _ :: outs => expiries t ao outs

/-- How often `e` is waiting for `ao`: in its queue, or taken out of a deferred queue by a recall that has not put it there yet. -/
def waiting (s : Sys) (ao e : Nat) : Nat :=
  (match s.w.aos[ao]? with | some x => (Fwk.Obs.contents x.q).count e | none => 0) + (Fwk.Obs.recalling ao s.w.conts).count e

/-- The number of ticks among the next `k` at which a timer started with `n` and period `p` expires. -/
def due (n p k : Nat) : Nat := (List.range k).countP fun j => Timer.Spec.Fires n p (j + 1)

/-- Over the whole history `all`, `e` is the event of timer `t`, and of no other; in the part `ops` with results `outs` it is not sent in another
way: not posted, published or recalled by the program (it may be deferred). -/
structure Timeout (t e : Nat) (all ops : List Op) (outs : List Out) : Prop where
  own : ∀ u e', Op.tmr (.init u e') ∈ all → (e' = e ↔ u = t)
  fifo : ∀ i, Op.call (.postFifo i e) ∉ ops
  lifo : ∀ i, Op.call (.postLifo i e) ∉ ops
  publish : ∀ ch s, Op.call (.publish ch e s) ∉ ops
  recall : Out.call (.evt e) ∉ outs

end Verif.Sys.Obs

namespace Verif.Sys
open Verif

/-! ### Timer side -/

/-- What a timer posts is the event of an initialisation of this timer. -/
theorem posts_init {W : Nat} : ∀ (ops pre : List Timer.Op) (a : Timer.Spec.S), Timer.Spec.Legal W a ops →
    (∀ u, (a.tm u).ready = true → Timer.Op.init u (a.tm u).evt ∈ pre) → (∀ u v, (a.tm u).sched = some v → (a.tm u).ready = true ∧ v.sma ≠ 0) →
    ∀ l, Timer.Out.posts l ∈ (Timer.Spec.run a ops).1 → ∀ p ∈ l, Timer.Op.init p.tmr p.evt ∈ pre ++ ops ∧ p.sma ≠ 0 := by
  intro ops
  induction ops with
  | nil => intro pre a _ _ _ l hl; simp [Timer.Spec.run] at hl
  | cons op ops ih =>
    intro pre a hl h1 h2 l hm p hp
    simp only [Timer.Spec.run, List.mem_cons] at hm
    rcases hm with hm | hm
    · cases op with
      | tick =>
        simp only [Timer.Spec.step, Timer.Out.posts.injEq] at hm
        subst hm
        rw [List.mem_filterMap] at hp
        obtain ⟨t, _, hp⟩ := hp
        unfold Timer.Spec.fire at hp
        split at hp
        · rename_i v hv
          split at hp
          · simp only [Option.some.injEq] at hp
            subst hp
            obtain ⟨g1, g2⟩ := h2 _ _ hv
            exact ⟨by simp [h1 _ g1], g2⟩
          · cases hp
        · cases hp
      | _ => simp [Timer.Spec.step] at hm
    · have := ih (pre ++ [op]) _ hl.2 (fun u hu => ?_) (fun u v hv => ?_) l hm p hp
      · simpa using this
      · cases op with
        | init t e =>
          simp only [Timer.Spec.step, Timer.Spec.set] at hu ⊢
          by_cases ht : u = t
          · subst ht; simp
          · rw [if_neg ht] at hu ⊢; simp [h1 u hu]
        | start t sma i p =>
          simp only [Timer.Spec.step, Timer.Spec.set] at hu ⊢
          by_cases ht : u = t
          · subst ht; simp only [if_true] at hu ⊢; simp [h1 u hu]
          · rw [if_neg ht] at hu ⊢; simp [h1 u hu]
        | stop t =>
          simp only [Timer.Spec.step, Timer.Spec.set] at hu ⊢
          by_cases ht : u = t
          · subst ht; simp only [if_true] at hu ⊢; simp [h1 u hu]
          · rw [if_neg ht] at hu ⊢; simp [h1 u hu]
        | tick =>
          simp only [Timer.Spec.step, Timer.Spec.tickT] at hu ⊢
          simp [h1 u hu]
      · cases op with
        | init t e =>
          simp only [Timer.Spec.step, Timer.Spec.set] at hv ⊢
          by_cases ht : u = t
          · rw [if_pos ht] at hv; cases hv
          · rw [if_neg ht] at hv ⊢; exact h2 u v hv
        | start t sma i p =>
          simp only [Timer.Spec.step, Timer.Spec.set] at hv ⊢
          by_cases ht : u = t
          · rw [if_pos ht] at hv ⊢
            simp only [Option.some.injEq] at hv
            subst hv ht
            exact ⟨hl.1.1, hl.1.2.1⟩
          · rw [if_neg ht] at hv ⊢; exact h2 u v hv
        | stop t =>
          simp only [Timer.Spec.step, Timer.Spec.set] at hv ⊢
          by_cases ht : u = t
          · rw [if_pos ht] at hv; cases hv
          · rw [if_neg ht] at hv ⊢; exact h2 u v hv
        | tick =>
          simp only [Timer.Spec.step, Timer.Spec.tickT] at hv ⊢
          cases hs : (a.tm u).sched with
          | none => simp [hs] at hv
          | some w =>
            have := h2 u w hs
            simp only [hs, Option.bind_some, Timer.Spec.tickSched] at hv
            repeat' split at hv
            all_goals simp at hv
            all_goals (subst hv; exact this)

theorem tmrOps_mem {op : Timer.Op} (h0 : op ≠ .tick) : ∀ {ops : List Op}, op ∈ Obs.tmrOps ops → Op.tmr op ∈ ops := by
  intro ops
  induction ops with
  | nil => intro h; simp [Obs.tmrOps] at h
  | cons x ops ih =>
    intro h
    cases x <;> simp only [Obs.tmrOps, List.mem_cons] at h
    case tick =>
      rcases h with h | h
      · exact absurd h h0
      · simp [ih h]
    case tmr =>
      rcases h with h | h
      · simp [h]
      · simp [ih h]
    all_goals simp [ih h]

theorem posts_mem {l : List Timer.Post} : ∀ {outs : List Out}, Out.posts l ∈ outs → Timer.Out.posts l ∈ Obs.tmrOuts outs := by
  intro outs
  induction outs with
  | nil => intro h; simp at h
  | cons o outs ih =>
    intro h
    simp only [List.mem_cons] at h
    rcases h with rfl | h
    · simp [Obs.tmrOuts]
    · cases o <;> simp [Obs.tmrOuts, ih h]

variable {c : Cfg} {slots : List MemPool.Pool} {hdr : Nat → Fwk.Evt} {heap : Nat → Timer.Tmr} {ops ops2 : List Op} {outs outs2 : List Out} {s s2 : Sys}

theorem Run.posts_own (h : Run c slots hdr heap ops outs s) {l : List Timer.Post} (hl : Out.posts l ∈ outs) {p : Timer.Post} (hp : p ∈ l) :
    Op.tmr (.init p.tmr p.evt) ∈ ops ∧ p.sma ≠ 0 := by
  have h1 := posts_mem hl
  rw [h.tmrSpec] at h1
  obtain ⟨g1, g2⟩ := posts_init _ [] _ h.legalT (by simp [Timer.Spec.start0]) (by simp [Timer.Spec.start0]) l h1 p hp
  exact ⟨tmrOps_mem (by simp) (by simpa using g1), g2⟩

theorem tmr_no_posts : ∀ (ops : List Op) (s s' : Sys) (outs : List Out), runOps (step c) s ops = (outs, .ok s') → ∀ l, Out.tmr (.posts l) ∉ outs := by
  intro ops
  induction ops with
  | nil => intro s s' outs h l; simp only [runOps, Prod.mk.injEq] at h; rw [← h.1]; simp
  | cons op ops ih =>
    intro s s' outs h l
    simp only [runOps] at h
    rcases hs : step c s op with ⟨s1, o⟩ | _ | _ <;> rw [hs] at h <;> simp only [Prod.mk.injEq, reduceCtorEq, and_false] at h
    rw [← h.1]
    simp only [List.mem_cons, not_or]
    refine ⟨?_, ih s1 s' _ (Prod.ext rfl h.2) l⟩
    rintro rfl
    have hsh := (split hs).shape
    cases op <;> simp only [Shape] at hsh
    rename_i op
    cases op <;> simp [step, Timer.step, Res.map'_eq_ok] at hs

/-- Expirations are read off the posts of the ticks. -/
theorem expiries_ticks (t ao : Nat) : ∀ outs : List Out, (∀ l, Out.tmr (.posts l) ∉ outs) →
    Obs.expiries t ao outs = ((Timer.Spec.ticks (Obs.tmrOuts outs)).map fun l => l.countP (fun p => p.tmr == t && p.sma == ao + 1)).sum := by
  intro outs
  induction outs with
  | nil => intro _; rfl
  | cons o outs ih =>
    intro h
    have ih := ih fun l hl => h l (by simp [hl])
    cases o with
    | posts l => simp [Obs.expiries, Obs.tmrOuts, Timer.Spec.ticks, ih]
    | tmr o =>
      cases o with
      | posts l => exact absurd (by simp) (h l)
      | _ => simpa [Obs.expiries, Obs.tmrOuts, Timer.Spec.ticks] using ih
    | _ => simpa [Obs.expiries, Obs.tmrOuts] using ih

theorem countP_of_filter {t ao : Nat} (l : List Timer.Post) :
    l.countP (fun p => p.tmr == t && p.sma == ao + 1) = (l.filter fun p => p.tmr == t).countP fun p => p.sma == ao + 1 := by
  rw [List.countP_filter]
  congr 1
  funext p
  rw [Bool.and_comm]

theorem sum_zero {α : Type} (f : α → Nat) : ∀ (l : List α), (∀ x ∈ l, f x = 0) → (l.map f).sum = 0 := by
  intro l
  induction l with
  | nil => intro _; rfl
  | cons x l ih => intro h; simp [h x (by simp), ih fun y hy => h y (by simp [hy])]

theorem sum_countP {α : Type} (f : α → Nat) : ∀ (l : List α) (q : Nat → Bool), (∀ k x, l[k]? = some x → f x = if q k then 1 else 0) →
    (l.map f).sum = (List.range l.length).countP q := by
  intro l
  induction l with
  | nil => intro q _; rfl
  | cons x l ih =>
    intro q h
    have h0 := h 0 x rfl
    rw [List.map_cons, List.sum_cons, ih (fun k => q (k + 1)) fun k y hk => h (k + 1) y (by simpa using hk), List.length_cons,
      List.range_succ_eq_map, List.countP_cons, List.countP_map, h0]
    have : (q ∘ Nat.succ) = fun k => q (k + 1) := rfl
    rw [this]; omega

/-! ### Framework side -/

theorem sentAny_append (ao : Nat) : ∀ (h1 h2 : Fwk.Obs.Hist) (prio : List Nat) (reg : Nat → Option Nat) (sub : Nat → Nat → Bool),
    ∃ prio' reg' sub', Fwk.Obs.sentAny ao (h1 ++ h2) prio reg sub = Fwk.Obs.sentAny ao h1 prio reg sub ++ Fwk.Obs.sentAny ao h2 prio' reg' sub' := by
  intro h1
  induction h1 with
  | nil => intro h2 prio reg sub; exact ⟨prio, reg, sub, rfl⟩
  | cons x h1 ih =>
    intro h2 prio reg sub
    obtain ⟨op, o⟩ := x
    obtain ⟨p', r', s', h⟩ := ih h2 (prio ++ Fwk.Obs.activations [op]) (Fwk.Obs.registry [op] prio reg) (fun ch p => Fwk.Obs.subscribed ch p [op] prio (sub ch p))
    exact ⟨p', r', s', by simp only [List.cons_append, Fwk.Obs.sentAny, h, List.append_assoc]⟩

theorem sentAny_posts (ao : Nat) : ∀ (l : List Timer.Post) (prio : List Nat) (reg : Nat → Option Nat) (sub : Nat → Nat → Bool),
    Fwk.Obs.sentAny ao ((l.map fun p => Fwk.Op.postFifo (p.sma - 1) p.evt).zip (l.map fun _ => Fwk.Out.unit)) prio reg sub =
      (l.filter fun p => p.sma - 1 == ao).map (·.evt) := by
  intro l
  induction l with
  | nil => intro prio reg sub; rfl
  | cons p l ih =>
    intro prio reg sub
    simp only [List.map_cons, List.zip_cons_cons, Fwk.Obs.sentAny, ih, List.filter_cons]
    by_cases h : p.sma - 1 = ao <;> simp [h]

/-- What is sent of the event of a timer are its expirations. -/
theorem sent_timeouts {t e ao : Nat} {all : List Op} : ∀ (ops : List Op) (s s' : Sys) (outs : List Out), runOps (step c) s ops = (outs, .ok s') →
    Obs.Timeout t e all ops outs → (∀ l, Out.posts l ∈ outs → ∀ p ∈ l, Op.tmr (.init p.tmr p.evt) ∈ all ∧ p.sma ≠ 0) →
    ∀ prio reg sub, (Fwk.Obs.sentAny ao ((Obs.fwkOps ops outs).zip (Obs.fwkOuts outs)) prio reg sub).count e = Obs.expiries t ao outs := by
  intro ops
  induction ops with
  | nil =>
    intro s s' outs h _ _ prio reg sub
    simp only [runOps, Prod.mk.injEq] at h
    rw [← h.1]; rfl
  | cons op ops ih =>
    intro s s' outs h ht hp prio reg sub
    simp only [runOps] at h
    rcases hs : step c s op with ⟨s1, o⟩ | _ | _ <;> rw [hs] at h <;> simp only [Prod.mk.injEq, reduceCtorEq, and_false] at h
    obtain ⟨rfl, h⟩ := h
    have ih := ih s1 s' _ (Prod.ext rfl h) ⟨ht.own, fun i hi => ht.fifo i (by simp [hi]), fun i hi => ht.lifo i (by simp [hi]),
      fun ch x hi => ht.publish ch x (by simp [hi]), fun hi => ht.recall (by simp [hi])⟩ (fun l hl => hp l (by simp [hl]))
    have hsp := split hs
    have hsh := hsp.shape
    have hlen : (Obs.fwkOps1 op o).length = (Obs.fwkOuts1 o).length := by
      cases op <;> cases o <;> simp only [Shape] at hsh <;> simp [Obs.fwkOps1, Obs.fwkOuts1]
    simp only [Obs.fwkOps, Obs.fwkOuts, List.flatMap_cons]
    rw [List.zip_append hlen]
    obtain ⟨p', r', s'', hsplit⟩ := sentAny_append ao ((Obs.fwkOps1 op o).zip (Obs.fwkOuts1 o)) ((Obs.fwkOps ops (runOps (step c) s1 ops).1).zip (Obs.fwkOuts (runOps (step c) s1 ops).1)) prio reg sub
    have e1 : List.flatMap Obs.fwkOuts1 (runOps (step c) s1 ops).1 = Obs.fwkOuts (runOps (step c) s1 ops).1 := rfl
    rw [e1, hsplit, List.count_append, ih]
    cases op with
    | tick =>
      cases o <;> simp only [Shape] at hsh
      rename_i l
      simp only [Obs.fwkOps1, Obs.fwkOuts1, Obs.expiries, sentAny_posts]
      congr 1
      rw [List.count, List.countP_map, List.countP_filter]
      apply List.countP_congr
      intro p hpl
      obtain ⟨g1, g2⟩ := hp l (by simp) p hpl
      have := ht.own _ _ g1
      simp only [Function.comp_apply, Bool.and_eq_true, beq_iff_eq]
      constructor
      · rintro ⟨h1, h2⟩; exact ⟨this.1 h1, by omega⟩
      · rintro ⟨h1, h2⟩; exact ⟨this.2 h1, by omega⟩
    | call op =>
      cases o <;> simp only [Shape] at hsh
      rename_i o
      have hne : (Fwk.Obs.sentAny ao ((Obs.fwkOps1 (.call op) (.call o)).zip (Obs.fwkOuts1 (.call o))) prio reg sub).count e = 0 := by
        simp only [Obs.fwkOps1, Obs.fwkOuts1, List.zip_cons_cons, List.zip_nil_right, Fwk.Obs.sentAny, List.append_nil, List.count_eq_zero]
        cases op <;> simp only [List.not_mem_nil, not_false_eq_true]
        case postFifo i e' =>
          split
          · simp only [List.mem_singleton]; rintro rfl; exact ht.fifo i (by simp)
          · simp
        case postLifo i e' =>
          split
          · simp only [List.mem_singleton]; rintro rfl; exact ht.lifo i (by simp)
          · simp
        case recall i j =>
          cases o <;> simp only [List.not_mem_nil, not_false_eq_true]
          split
          · simp only [List.mem_singleton]; rintro rfl; exact ht.recall (by simp)
          · simp
        case publish ch e' sd =>
          split
          · split
            · simp only [List.mem_singleton]; rintro rfl; exact ht.publish ch sd (by simp)
            · simp
          · simp
      rw [hne]
      simp [Obs.expiries]
    | tmr op =>
      cases o <;> simp only [Shape] at hsh
      simp [Obs.fwkOps1, Fwk.Obs.sentAny, Obs.expiries]
    | _ =>
      cases o <;> simp only [Shape] at hsh
      simp [Obs.fwkOps1, Obs.fwkOuts1, Fwk.Obs.sentAny, Obs.expiries]

theorem received_dispatched (ao e : Nat) : ∀ (ops : List Op) (s s' : Sys) (outs : List Out), runOps (step c) s ops = (outs, .ok s') →
    (Fwk.Obs.dispatched ao (Obs.fwkOuts outs)).count e = Obs.received ao e outs := by
  have app : ∀ xs ys, Fwk.Obs.dispatched ao (xs ++ ys) = Fwk.Obs.dispatched ao xs ++ Fwk.Obs.dispatched ao ys := by
    intro xs ys
    induction xs with
    | nil => rfl
    | cons x xs ih => cases x <;> simp [Fwk.Obs.dispatched, ih]
  intro ops
  induction ops with
  | nil => intro s s' outs h; simp only [runOps, Prod.mk.injEq] at h; rw [← h.1]; rfl
  | cons op ops ih =>
    intro s s' outs h
    simp only [runOps] at h
    rcases hs : step c s op with ⟨s1, o⟩ | _ | _ <;> rw [hs] at h <;> simp only [Prod.mk.injEq, reduceCtorEq, and_false] at h
    obtain ⟨rfl, h⟩ := h
    have ih := ih s1 s' _ (Prod.ext rfl h)
    have e1 : Obs.fwkOuts (o :: (runOps (step c) s1 ops).1) = Obs.fwkOuts1 o ++ Obs.fwkOuts (runOps (step c) s1 ops).1 := rfl
    rw [e1, app, List.count_append, ih]
    have hsh := (split hs).shape
    cases op <;> cases o <;> simp only [Shape] at hsh
    case call.call op o =>
      have : Fwk.Obs.dispatched ao (Obs.fwkOuts1 (.call o)) = [] := by
        cases o <;> simp only [Obs.fwkOuts1, Fwk.Obs.dispatched]
        exact absurd rfl (hsh _ _)
      simp [this, Obs.received]
    case tick.posts l =>
      have : ∀ l : List Timer.Post, Fwk.Obs.dispatched ao (l.map fun _ => Fwk.Out.unit) = [] := by
        intro l
        induction l with
        | nil => rfl
        | cons p l ih => simpa [Fwk.Obs.dispatched] using ih
      simp [Obs.fwkOuts1, this, Obs.received]
    all_goals simp only [Obs.fwkOuts1, Fwk.Obs.dispatched, Obs.received, List.append_nil, List.count_nil, Nat.zero_add]
    all_goals
      congr 1
      rename_i i e' _ _
      by_cases h1 : i = ao <;> by_cases h2 : e' = e <;> simp [h1, h2]

/-- What was waiting and what expired is received or waiting. -/
theorem timeouts_conserved {t e ao : Nat} (h : Run c slots hdr heap ops outs s) (h2 : Run c slots hdr heap (ops ++ ops2) (outs ++ outs2) s2)
    (ht : Obs.Timeout t e (ops ++ ops2) ops2 outs2) :
    Obs.received ao e outs2 + Obs.waiting s2 ao e = Obs.waiting s ao e + Obs.expiries t ao outs2 := by
  have hr2 : runOps (step c) s ops2 = (outs2, .ok s2) := by
    obtain ⟨k1, k2⟩ := runOps_append_ok ops ops2 (init c slots hdr heap) s (f := step c) (by rw [h.run])
    rw [h2.run, h.run] at k1
    rw [h2.run] at k2
    exact Prod.ext (List.append_cancel_left k1).symm k2.symm
  have hf2 := h2.fwk
  rw [fwkOps_append h.len, fwkOuts_append] at hf2
  obtain ⟨a, a2, hR, hR2, hl, hr, _, _⟩ := Fwk.Run.more h.fwk hf2
  have hperm := (Fwk.flow_run h.env.wf ao _ _ _ _ _ hR hl hr).count_eq e
  have hw : ∀ {s : Sys} {a : Fwk.Spec.Abs}, Fwk.R c.fw s.w a → (Fwk.itemsOf a ao).count e + (Fwk.Obs.recalling ao a.conts).count e = Obs.waiting s ao e := by
    intro s a hR
    unfold Obs.waiting
    rw [hR.conts]
    congr 1
    cases hx : s.w.aos[ao]? with
    | none =>
      have : a.aos[ao]? = none := by
        rw [List.getElem?_eq_none_iff] at hx ⊢
        rw [← hR.ao.aos.1]; exact hx
      simp [Fwk.itemsOf, this]
    | some x =>
      obtain ⟨y, h1, _, h3⟩ := Fwk.items_of_contents hR hx
      simp [Fwk.itemsOf, h1, h3]
  simp only [List.count_append] at hperm
  rw [received_dispatched ao e ops2 s s2 outs2 hr2, hw hR2, hw hR,
    sent_timeouts ops2 s s2 outs2 hr2 ht (fun l hl p hp => h2.posts_own (by simp [hl]) hp)] at hperm
  omega

/-- The timer part of a continued history. -/
theorem Run.tmr_more (h : Run c slots hdr heap ops outs s) (h2 : Run c slots hdr heap (ops ++ ops2) (outs ++ outs2) s2) :
    Obs.tmrOuts outs2 = (Timer.Spec.run (Timer.Spec.run Timer.Spec.start0 (Obs.tmrOps ops)).2 (Obs.tmrOps ops2)).1 := by
  have h1 := h2.tmrSpec
  rw [tmrOps_append, tmrOuts_append, h.tmrSpec, Timer.run_append] at h1
  exact List.append_cancel_left h1

theorem Run.no_tmr_posts (h2 : Run c slots hdr heap (ops ++ ops2) (outs ++ outs2) s2) : ∀ l, Out.tmr (.posts l) ∉ outs2 :=
  fun l hl => tmr_no_posts _ _ _ _ h2.run l (by simp [hl])

theorem due_oneshot {n : Nat} (hn : 0 < n) (k : Nat) : Obs.due n 0 k = if n ≤ k then 1 else 0 := by
  unfold Obs.due
  induction k with
  | zero => simp; omega
  | succ k ih =>
    rw [List.range_succ, List.countP_append, ih, List.countP_singleton]
    simp only [Timer.Spec.Fires, Nat.lt_irrefl, false_and, or_false, decide_eq_true_eq]
    by_cases h1 : n ≤ k
    · rw [if_pos h1, if_neg (by omega), if_pos (by omega)]
    · rw [if_neg h1]
      by_cases h2 : k + 1 = n
      · rw [if_pos h2, if_pos (by omega)]
      · rw [if_neg h2, if_neg (by omega)]

/-! ### Results -/

/-- **C165.** A timer of the object `ao` whose event `e` is sent in no other way is started with `n` ticks and period `p`. As long as it is not started,
stopped or initialised again: the time-outs dispatched to the object since, and those waiting for it, are as many as were already waiting when the
timer was started and as it had to expire since. -/
theorem timeouts_received_exact {t e ao n p : Nat} {o : Out} (h : Run c slots hdr heap (ops ++ [.tmr (.start t (ao + 1) n p)]) (outs ++ [o]) s)
    (h2 : Run c slots hdr heap (ops ++ [.tmr (.start t (ao + 1) n p)] ++ ops2) (outs ++ [o] ++ outs2) s2)
    (hc : ∀ op ∈ Obs.tmrOps ops2, Timer.Spec.concerns t op = false) (ht : Obs.Timeout t e (ops ++ [.tmr (.start t (ao + 1) n p)] ++ ops2) ops2 outs2) :
    Obs.received ao e outs2 + Obs.waiting s2 ao e = Obs.waiting s ao e + Obs.due n p (Timer.nticks (Obs.tmrOps ops2)) := by
  rw [timeouts_conserved h h2 ht, expiries_ticks t ao outs2 h2.no_tmr_posts, h.tmr_more h2]
  congr 1
  have hl := h.legalT
  rw [tmrOps_append, Timer.legal_append] at hl
  have hn : 0 < n := hl.2.1.2.2.1
  have hI := Timer.sinv_run Timer.sinv_start0 (Obs.tmrOps (ops ++ [.tmr (.start t (ao + 1) n p)]))
  have hs : ((Timer.Spec.run Timer.Spec.start0 (Obs.tmrOps (ops ++ [.tmr (.start t (ao + 1) n p)]))).2.tm t).sched = some ⟨ao + 1, n, p⟩ := by
    rw [tmrOps_append, Timer.run_append]
    simp [Obs.tmrOps, Timer.Spec.run, Timer.Spec.step, Timer.Spec.set]
  generalize (Timer.Spec.run Timer.Spec.start0 (Obs.tmrOps (ops ++ [.tmr (.start t (ao + 1) n p)]))).2 = A at *
  rw [sum_countP (q := fun k => decide (Timer.Spec.Fires n p (k + 1))), timer_ticks_length]
  · rfl
  · intro k l hk
    rw [countP_of_filter, Timer.running_run _ A t _ hI hs hn hc k l hk]
    by_cases hf : Timer.Spec.Fires n p (k + 1) <;> simp [hf]

/-- **C166, what remains true.** After `rkh_tmr_stop` (or after initialising the timer again), as long as the timer is not started, the object
receives just the time-outs that were waiting at that moment: none, if none was. -/
theorem stopped_timer_partial {t e ao : Nat} {o : Out} {op : Timer.Op} (hop : op = .stop t ∨ ∃ e', op = .init t e')
    (h : Run c slots hdr heap (ops ++ [.tmr op]) (outs ++ [o]) s) (h2 : Run c slots hdr heap (ops ++ [.tmr op] ++ ops2) (outs ++ [o] ++ outs2) s2)
    (hc : ∀ sma n p, Op.tmr (.start t sma n p) ∉ ops2) (ht : Obs.Timeout t e (ops ++ [.tmr op] ++ ops2) ops2 outs2) :
    Obs.received ao e outs2 + Obs.waiting s2 ao e = Obs.waiting s ao e := by
  rw [timeouts_conserved h h2 ht, expiries_ticks t ao outs2 h2.no_tmr_posts, h.tmr_more h2]
  have hI := Timer.sinv_run Timer.sinv_start0 (Obs.tmrOps (ops ++ [.tmr op]))
  have hs : ((Timer.Spec.run Timer.Spec.start0 (Obs.tmrOps (ops ++ [.tmr op]))).2.tm t).sched = none := by
    rw [tmrOps_append, Timer.run_append]
    rcases hop with rfl | ⟨e', rfl⟩ <;> simp [Obs.tmrOps, Timer.Spec.run, Timer.Spec.step, Timer.Spec.set]
  rw [sum_zero, Nat.add_zero]
  intro l hl
  rw [countP_of_filter, Timer.silent_run _ _ t hI hs (fun sma n p hm => hc sma n p (tmrOps_mem (by simp) hm)) l hl]
  rfl

theorem _root_.Verif.Sys.Obs.Timeout.sub {t e : Nat} {all all' ops ops' : List Op} {outs outs' : List Out} (ht : Obs.Timeout t e all ops outs)
    (h1 : ∀ x ∈ all', x ∈ all) (h2 : ∀ x ∈ ops', x ∈ ops) (h3 : ∀ x ∈ outs', x ∈ outs) : Obs.Timeout t e all' ops' outs' :=
  ⟨fun u e' h => ht.own u e' (h1 _ h), fun i h => ht.fifo i (h2 _ h), fun i h => ht.lifo i (h2 _ h), fun ch x h => ht.publish ch x (h2 _ h), fun h => ht.recall (h3 _ h)⟩

/-- **C167.** A one-shot timer was started when none of its time-outs was waiting, and stopped later (nothing else was done with it in between).
The result of `rkh_tmr_stop` tells whether the time-out comes: if the timer was still running, the object never receives it (unless the timer is started
again), else exactly one has been received or is waiting. `s`, `s0`, `s1` and `s2` are the states after the start, before the stop, after the stop
and later. -/
theorem stop_result_tells {t e ao n : Nat} {o o' : Out} {ops1 : List Op} {outs1 : List Out} {s0 s1 : Sys}
    (h : Run c slots hdr heap (ops ++ [.tmr (.start t (ao + 1) n 0)]) (outs ++ [o]) s)
    (h0 : Run c slots hdr heap (ops ++ [.tmr (.start t (ao + 1) n 0)] ++ ops1) (outs ++ [o] ++ outs1) s0)
    (h1 : Run c slots hdr heap (ops ++ [.tmr (.start t (ao + 1) n 0)] ++ ops1 ++ [.tmr (.stop t)]) (outs ++ [o] ++ outs1 ++ [o']) s1)
    (h2 : Run c slots hdr heap (ops ++ [.tmr (.start t (ao + 1) n 0)] ++ ops1 ++ [.tmr (.stop t)] ++ ops2) (outs ++ [o] ++ outs1 ++ [o'] ++ outs2) s2)
    (hc1 : ∀ op ∈ Obs.tmrOps ops1, Timer.Spec.concerns t op = false) (hc2 : ∀ sma n p, Op.tmr (.start t sma n p) ∉ ops2)
    (ht : Obs.Timeout t e (ops ++ [.tmr (.start t (ao + 1) n 0)] ++ ops1 ++ [.tmr (.stop t)] ++ ops2) (ops1 ++ ops2) (outs1 ++ outs2))
    (hw : Obs.waiting s ao e = 0) :
    ∃ b, o' = .tmr (.bool b) ∧ Obs.received ao e outs1 + Obs.received ao e outs2 + Obs.waiting s2 ao e = if b then 0 else 1 := by
  have hsh := (split (h0.last h1)).shape
  cases o' <;> simp only [Shape] at hsh
  rename_i o'
  have g0 := timeouts_received_exact h h0 hc1 (ht.sub (fun x hx => by rw [List.mem_append, List.mem_append]; exact .inl (.inl hx)) (by simp +contextual) (by simp +contextual))
  have g1 := timeouts_conserved (ao := ao) h0 h1 (t := t) (e := e) ⟨fun u e' hm => ht.own u e' (by rw [List.mem_append]; exact .inl hm), by simp, by simp, by simp, by simp⟩
  have g2 := stopped_timer_partial (ao := ao) (.inl rfl) h1 h2 hc2 (ht.sub (fun _ h => h) (by simp +contextual) (by simp +contextual))
  have hl := h.legalT
  rw [tmrOps_append, Timer.legal_append] at hl
  have hn : 0 < n := hl.2.1.2.2.1
  rw [due_oneshot hn, hw] at g0
  have hto := h0.tmr_more h1
  have hs : ((Timer.Spec.run Timer.Spec.start0 (Obs.tmrOps (ops ++ [.tmr (.start t (ao + 1) n 0)]))).2.tm t).sched = some ⟨ao + 1, n, 0⟩ := by
    rw [tmrOps_append, Timer.run_append]
    simp [Obs.tmrOps, Timer.Spec.run, Timer.Spec.step, Timer.Spec.set]
  rw [tmrOps_append _ ops1, Timer.run_append] at hto
  have hrun := Timer.sched_after (Obs.tmrOps ops1) _ t _ hs hn hc1
  simp only [Obs.tmrOps, Obs.tmrOuts, Timer.Spec.run, Timer.Spec.step, List.cons.injEq, and_true] at hto
  simp only [Nat.lt_irrefl, false_or] at hrun
  refine ⟨_, by rw [hto], ?_⟩
  simp only [Obs.received, Obs.expiries, Nat.zero_add, Nat.add_zero] at g1
  generalize Timer.Spec.running _ t = b at hrun
  cases b with
  | true =>
    have := hrun.1 rfl
    rw [if_neg (by omega)] at g0
    simp; omega
  | false =>
    have : ¬ Timer.nticks (Obs.tmrOps ops1) < n := fun h => by simpa using hrun.2 h
    rw [if_pos (by omega)] at g0
    simp; omega

/-- **C168, what remains true.** A timer started when none of its time-outs is waiting: the object receives none before `n` ticks have passed. -/
theorem no_early_timeout_partial {t e ao n p : Nat} {o : Out} (h : Run c slots hdr heap (ops ++ [.tmr (.start t (ao + 1) n p)]) (outs ++ [o]) s)
    (h2 : Run c slots hdr heap (ops ++ [.tmr (.start t (ao + 1) n p)] ++ ops2) (outs ++ [o] ++ outs2) s2)
    (hc : ∀ op ∈ Obs.tmrOps ops2, Timer.Spec.concerns t op = false) (ht : Obs.Timeout t e (ops ++ [.tmr (.start t (ao + 1) n p)] ++ ops2) ops2 outs2)
    (hw : Obs.waiting s ao e = 0) (hn : Timer.nticks (Obs.tmrOps ops2) < n) : Obs.received ao e outs2 = 0 := by
  have g := timeouts_received_exact h h2 hc ht
  have : Obs.due n p (Timer.nticks (Obs.tmrOps ops2)) = 0 := by
    unfold Obs.due
    rw [List.countP_eq_zero]
    intro k hk
    rw [List.mem_range] at hk
    rw [decide_eq_true_eq]
    unfold Timer.Spec.Fires
    rintro (h | ⟨_, h, _⟩) <;> omega
  omega

end Verif.Sys

namespace Verif.Sys
open Verif

/-! ### A concrete system -/

namespace Demo

/-- An object with timer 1 (event 900), started with one tick. -/
def tops : List Op := [.activate 3 [0, 0, 0] 3 toggle env 20, .tmr (.init 1 900), .tmr (.start 1 1 1 0)]

/-- The timer expires, is stopped, and the scheduler runs. -/
def stale : List Op := tops ++ [.tick] ++ [.tmr (.stop 1)] ++ [.call .select, .fetch 20]

/-- The timer expires, is started again with five ticks, and the scheduler runs. -/
def early : List Op := tops ++ [.tick] ++ [.tmr (.start 1 1 5 0)] ++ [.call .select, .fetch 20]

theorem timeout_ok {all ops : List Op} {outs : List Out}
    (h : (all.all fun op => match op with | .tmr (.init u e') => (decide (e' = 900)) == (decide (u = 1)) | _ => true) = true)
    (h2 : (ops.all fun op => match op with | .call (.postFifo ..) => false | .call (.postLifo ..) => false | .call (.publish ..) => false | _ => true) = true)
    (h3 : (outs.all fun o => match o with | .call (.evt _) => false | _ => true) = true) : Obs.Timeout 1 900 all ops outs where
  own u e' hm := by
    have := List.all_eq_true.mp h _ hm
    simpa using this
  fifo i hm := by simpa using List.all_eq_true.mp h2 _ hm
  lifo i hm := by simpa using List.all_eq_true.mp h2 _ hm
  publish ch x hm := by simpa using List.all_eq_true.mp h2 _ hm
  recall hm := by simpa using List.all_eq_true.mp h3 _ hm

deriving instance DecidableEq for Verif.Sys.Out

/-- A legal history with its results. -/
theorem runs {l : List Op} {outs : List Out} (h : (good l && decide ((go l).1 = outs)) = true) :
    ∃ s, Run cfg Fwk.Demo.slots Fwk.Demo.hdr heap l outs s ∧ (go l).2 = .ok s := by
  rw [Bool.and_eq_true, decide_eq_true_eq] at h
  have := mk h.1
  rwa [h.2] at this

/-- The results of `tops`. -/
def touts : List Out := [.activated 0, .tmr .unit, .tmr .unit]

-- C165: after one tick one time-out is waiting, none received
example : ∃ s s2, Run cfg Fwk.Demo.slots Fwk.Demo.hdr heap tops touts s ∧
    Run cfg Fwk.Demo.slots Fwk.Demo.hdr heap (tops ++ [.tick]) (touts ++ [.posts [⟨1, 1, 900⟩]]) s2 ∧ Obs.waiting s 0 900 = 0 ∧ Obs.waiting s2 0 900 = 1 := by
  obtain ⟨s, h, hs⟩ := runs (l := tops) (outs := touts) (by decide +kernel)
  obtain ⟨s2, h2, _⟩ := runs (l := tops ++ [.tick]) (outs := touts ++ [.posts [⟨1, 1, 900⟩]]) (by decide +kernel)
  have hw : Obs.waiting s 0 900 = 0 := by simpa using after_ok hs (P := fun s => Obs.waiting s 0 900 == 0) (by decide +kernel)
  have := timeouts_received_exact (ops := [.activate 3 [0, 0, 0] 3 toggle env 20, .tmr (.init 1 900)]) (outs := [.activated 0, .tmr .unit]) (o := .tmr .unit) (t := 1) (e := 900)
    (ao := 0) (n := 1) (p := 0) (ops2 := [.tick]) h h2 (by decide) (timeout_ok rfl rfl rfl)
  refine ⟨s, s2, h, h2, hw, ?_⟩
  rw [hw] at this
  have hd : Obs.due 1 0 (Timer.nticks (Obs.tmrOps [.tick])) = 1 := by decide
  rw [hd] at this
  simpa [Obs.received] using this

-- C166, C167: stopped in time (`rkh_tmr_stop` tells it), nothing is waiting, then or after the next tick
example : ∃ s s0 s1 s2, Run cfg Fwk.Demo.slots Fwk.Demo.hdr heap tops touts s ∧ Run cfg Fwk.Demo.slots Fwk.Demo.hdr heap (tops ++ []) (touts ++ []) s0 ∧
    Run cfg Fwk.Demo.slots Fwk.Demo.hdr heap (tops ++ [] ++ [.tmr (.stop 1)]) (touts ++ [] ++ [.tmr (.bool true)]) s1 ∧
    Run cfg Fwk.Demo.slots Fwk.Demo.hdr heap (tops ++ [] ++ [.tmr (.stop 1)] ++ [.tick]) (touts ++ [] ++ [.tmr (.bool true)] ++ [.posts []]) s2 ∧
    Obs.waiting s 0 900 = 0 ∧ Obs.waiting s2 0 900 = 0 := by
  obtain ⟨s, h, hs⟩ := runs (l := tops) (outs := touts) (by decide +kernel)
  obtain ⟨s0, h0, _⟩ := runs (l := tops ++ []) (outs := touts ++ []) (by decide +kernel)
  obtain ⟨s1, h1, _⟩ := runs (l := tops ++ [] ++ [.tmr (.stop 1)]) (outs := touts ++ [] ++ [.tmr (.bool true)]) (by decide +kernel)
  obtain ⟨s2, h2, _⟩ := runs (l := tops ++ [] ++ [.tmr (.stop 1)] ++ [.tick]) (outs := touts ++ [] ++ [.tmr (.bool true)] ++ [.posts []]) (by decide +kernel)
  have hw : Obs.waiting s 0 900 = 0 := by simpa using after_ok hs (P := fun s => Obs.waiting s 0 900 == 0) (by decide +kernel)
  obtain ⟨b, hb, hc⟩ := stop_result_tells (ops := [.activate 3 [0, 0, 0] 3 toggle env 20, .tmr (.init 1 900)]) (outs := [.activated 0, .tmr .unit]) (o := .tmr .unit) (t := 1) (e := 900)
    (ao := 0) (n := 1) (ops1 := []) (ops2 := [.tick]) h h0 h1 h2 (by decide) (by simp) (timeout_ok rfl rfl rfl) hw
  simp only [Out.tmr.injEq, Timer.Out.bool.injEq] at hb
  subst hb
  exact ⟨s, s0, s1, s2, h, h0, h1, h2, hw, by rw [if_pos rfl] at hc; omega⟩

/-- The timer is started with three ticks. -/
def long : List Op := [.activate 3 [0, 0, 0] 3 toggle env 20, .tmr (.init 1 900)]

-- C168: three ticks are needed, after two nothing has been received
example : ∃ s s2, Run cfg Fwk.Demo.slots Fwk.Demo.hdr heap (long ++ [.tmr (.start 1 1 3 0)]) touts s ∧
    Run cfg Fwk.Demo.slots Fwk.Demo.hdr heap (long ++ [.tmr (.start 1 1 3 0)] ++ [.tick, .tick]) (touts ++ [.posts [], .posts []]) s2 ∧ Obs.waiting s 0 900 = 0 ∧
    Timer.nticks (Obs.tmrOps [.tick, .tick]) < 3 := by
  obtain ⟨s, h, hs⟩ := runs (l := long ++ [.tmr (.start 1 1 3 0)]) (outs := touts) (by decide +kernel)
  obtain ⟨s2, h2, _⟩ := runs (l := long ++ [.tmr (.start 1 1 3 0)] ++ [.tick, .tick]) (outs := touts ++ [.posts [], .posts []]) (by decide +kernel)
  exact ⟨s, s2, h, h2, by simpa using after_ok hs (P := fun s => Obs.waiting s 0 900 == 0) (by decide +kernel), by decide⟩

end Demo

/-- **C166 refuted.** The object receives the time-out of a timer that has been stopped (and not started again), in a legal history. -/
theorem timeout_after_stop : ∃ (c : Cfg) (slots : List MemPool.Pool) (hdr : Nat → Fwk.Evt) (heap : Nat → Timer.Tmr) (ops ops2 : List Op) (outs outs2 : List Out) (o : Out) (s2 : Sys) (t e ao : Nat),
    Run c slots hdr heap (ops ++ [.tmr (.stop t)] ++ ops2) (outs ++ [o] ++ outs2) s2 ∧ (∀ sma n p, Op.tmr (.start t sma n p) ∉ ops2) ∧
    Obs.Timeout t e (ops ++ [.tmr (.stop t)] ++ ops2) ops2 outs2 ∧ Obs.received ao e outs2 = 1 := by
  obtain ⟨s2, h2, _⟩ := Demo.runs (l := Demo.stale)
    (outs := Demo.touts ++ [.posts [⟨1, 1, 900⟩]] ++ [.tmr (.bool false)] ++ [.call (.chose 0), .handled 0 900 21 (.ok ())]) (by decide +kernel)
  exact ⟨Demo.cfg, Fwk.Demo.slots, Fwk.Demo.hdr, Demo.heap, Demo.tops ++ [Op.tick], [.call .select, .fetch 20], Demo.touts ++ [Out.posts [⟨1, 1, 900⟩]],
    [.call (.chose 0), .handled 0 900 21 (.ok ())], .tmr (.bool false), s2, 1, 900, 0, h2, by simp, Demo.timeout_ok rfl rfl rfl, rfl⟩

/-- **C168 refuted.** The timer was started with five ticks; the object receives its time-out before the first. -/
theorem early_timeout : ∃ (c : Cfg) (slots : List MemPool.Pool) (hdr : Nat → Fwk.Evt) (heap : Nat → Timer.Tmr) (ops ops2 : List Op) (outs outs2 : List Out) (o : Out) (s2 : Sys) (t e ao : Nat),
    Run c slots hdr heap (ops ++ [.tmr (.start t (ao + 1) 5 0)] ++ ops2) (outs ++ [o] ++ outs2) s2 ∧ (∀ op ∈ Obs.tmrOps ops2, Timer.Spec.concerns t op = false) ∧
    Obs.Timeout t e (ops ++ [.tmr (.start t (ao + 1) 5 0)] ++ ops2) ops2 outs2 ∧ Timer.nticks (Obs.tmrOps ops2) = 0 ∧ Obs.received ao e outs2 = 1 := by
  obtain ⟨s2, h2, _⟩ := Demo.runs (l := Demo.early)
    (outs := Demo.touts ++ [.posts [⟨1, 1, 900⟩]] ++ [.tmr .unit] ++ [.call (.chose 0), .handled 0 900 21 (.ok ())]) (by decide +kernel)
  exact ⟨Demo.cfg, Fwk.Demo.slots, Fwk.Demo.hdr, Demo.heap, Demo.tops ++ [Op.tick], [.call .select, .fetch 20], Demo.touts ++ [Out.posts [⟨1, 1, 900⟩]],
    [.call (.chose 0), .handled 0 900 21 (.ok ())], .tmr .unit, s2, 1, 900, 0, h2, by simp [Obs.tmrOps], Demo.timeout_ok rfl rfl rfl, rfl, rfl⟩

end Verif.Sys
