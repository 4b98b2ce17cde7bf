import Verif.Timer.Lemmas
/-
Property theorems for software timers (C28-C33).

`Spec.Legal c.W Spec.start0 h`: every call of the history `h` respects the documented preconditions (timers initialised before
use, non-zero initial tick count, values in the range of RKH_TNT_T). `runOps (step c) (moduleInit heap) h` is the run of the modelled C
code, from arbitrary contents of all timer structures. `h.length < c.fuel`: the bound on loop iterations is not what stops the loops.
-/
namespace Verif.Timer
open Verif Verif.Timer.Spec

/-! ### Lemmas about the specification -/

theorem run_append (a : S) (xs ys : List Op) :
    Spec.run a (xs ++ ys) = ((Spec.run a xs).1 ++ (Spec.run (Spec.run a xs).2 ys).1, (Spec.run (Spec.run a xs).2 ys).2) := by
  induction xs generalizing a with
  | nil => simp [Spec.run]
  | cons x xs ih => simp [Spec.run, ih]

theorem run_length (a : S) (xs : List Op) : (Spec.run a xs).1.length = xs.length := by
  induction xs generalizing a with
  | nil => rfl
  | cons x xs ih => simp [Spec.run, ih]

theorem legal_append (W : Nat) (a : S) (xs ys : List Op) :
    Legal W a (xs ++ ys) ↔ Legal W a xs ∧ Legal W (Spec.run a xs).2 ys := by
  induction xs generalizing a with
  | nil => simp [Spec.run, Legal]
  | cons x xs ih => simp [Spec.run, Legal, ih, and_assoc]

/-- Running timers are exactly the ones in `order`, each once. -/
structure SInv (a : S) : Prop where
  nodup : a.order.Nodup
  mem : ∀ t, t ∈ a.order ↔ (a.tm t).sched.isSome = true

theorem sinv_start0 : SInv start0 := ⟨List.nodup_nil, by simp [start0]⟩

theorem sinv_step {a : S} (h : SInv a) (op : Op) : SInv (Spec.step a op).1 := by
  cases op with
  | init t e =>
    refine ⟨h.nodup.erase t, fun x => ?_⟩
    simp only [Spec.step, h.nodup.mem_erase_iff, h.mem]
    by_cases hx : x = t
    · subst hx; simp [set_same]
    · simp [set_ne _ _ hx, hx]
  | stop t =>
    refine ⟨h.nodup.erase t, fun x => ?_⟩
    simp only [Spec.step, h.nodup.mem_erase_iff, h.mem]
    by_cases hx : x = t
    · subst hx; simp [set_same]
    · simp [set_ne _ _ hx, hx]
  | start t sma i p =>
    cases hs : (a.tm t).sched with
    | none =>
      have hrun : running a t = false := by simp [running, hs]
      have hnm : t ∉ a.order := by rw [h.mem, hs]; simp
      refine ⟨?_, fun x => ?_⟩ <;> simp only [Spec.step, hrun, Bool.false_eq_true, if_false]
      · exact List.nodup_cons.mpr ⟨hnm, h.nodup⟩
      · simp only [List.mem_cons, h.mem]
        by_cases hx : x = t
        · subst hx; simp [set_same]
        · simp [set_ne _ _ hx, hx]
    | some v =>
      have hrun : running a t = true := by simp [running, hs]
      refine ⟨?_, fun x => ?_⟩ <;> simp only [Spec.step, hrun, if_true]
      · exact h.nodup
      · rw [h.mem]
        by_cases hx : x = t
        · subst hx; simp [set_same, hs]
        · simp [set_ne _ _ hx]
  | tick =>
    refine ⟨h.nodup.filter _, fun x => ?_⟩
    simp only [Spec.step, List.mem_filter, h.mem]
    constructor
    · exact fun h => h.2
    · intro h2
      refine ⟨?_, h2⟩
      cases hs : (a.tm x).sched with
      | none => simp [tickT, hs] at h2
      | some v => rfl

theorem sinv_run {a : S} (h : SInv a) (ops : List Op) : SInv (Spec.run a ops).2 := by
  induction ops generalizing a with
  | nil => exact h
  | cons op ops ih => exact ih (sinv_step h op)

theorem fire_tmr {a : S} {t : Nat} {p : Post} (h : fire a t = some p) : p.tmr = t := by
  simp only [fire] at h
  split at h
  · split at h
    · simp only [Option.some.injEq] at h; rw [← h]
    · cases h
  · cases h

/-- The posts of one timer among the posts of a tick. -/
theorem filter_posts {a : S} (t : Nat) : ∀ (L : List Nat), L.Nodup →
    (L.filterMap (fire a)).filter (fun p => p.tmr == t) = if t ∈ L then (fire a t).toList else [] := by
  intro L
  induction L with
  | nil => simp
  | cons x L ih =>
    intro hnd
    obtain ⟨h1, h2⟩ := List.nodup_cons.mp hnd
    have ih := ih h2
    by_cases hx : x = t
    · subst hx
      rw [if_neg h1] at ih
      rw [List.filterMap_cons]
      cases hf : fire a x with
      | none => simp only [ih]; simp
      | some p =>
        have := fire_tmr hf
        rw [List.filter_cons_of_pos (by simp [this]), ih]; simp
    · have hm : t ∈ x :: L ↔ t ∈ L := by simp [Ne.symm hx]
      simp only [hm]
      rw [List.filterMap_cons]
      cases hf : fire a x with
      | none => simp only [ih]
      | some p =>
        have := fire_tmr hf
        rw [List.filter_cons_of_neg (by simp [this, hx]), ih]

theorem tick_posts_of {a : S} (h : SInv a) (t : Nat) :
    (a.order.filterMap (fire a)).filter (fun p => p.tmr == t) = (fire a t).toList := by
  rw [filter_posts t _ h.nodup]
  split
  · rfl
  · rename_i hn
    rw [h.mem] at hn
    cases hs : (a.tm t).sched with
    | none => simp [fire, hs]
    | some v => simp [hs] at hn

theorem tm_unconcerned {a : S} {op : Op} {t : Nat} (h : concerns t op = false) (hn : op ≠ .tick) :
    (Spec.step a op).1.tm t = a.tm t := by
  cases op with
  | init u e => simp only [concerns, beq_eq_false_iff_ne] at h; exact set_ne _ _ (Ne.symm h)
  | start u _ _ _ => simp only [concerns, beq_eq_false_iff_ne] at h; exact set_ne _ _ (Ne.symm h)
  | stop u => simp only [concerns, beq_eq_false_iff_ne] at h; exact set_ne _ _ (Ne.symm h)
  | tick => exact absurd rfl hn

/-- A timer that is not running and not started again posts nothing. -/
theorem silent_run : ∀ (ops : List Op) (a : S) (t : Nat), SInv a → (a.tm t).sched = none →
    (∀ sma i p, Op.start t sma i p ∉ ops) →
    ∀ posts ∈ ticks (Spec.run a ops).1, posts.filter (fun p => p.tmr == t) = [] := by
  intro ops
  induction ops with
  | nil => intro a t _ _ _ posts h; simp [Spec.run, ticks] at h
  | cons op ops ih =>
    intro a t hI hn hs posts hp
    have hs' : ∀ sma i p, Op.start t sma i p ∉ ops := fun sma i p h => hs sma i p (by simp [h])
    have hI' := sinv_step hI op
    have hn' : ((Spec.step a op).1.tm t).sched = none := by
      cases op with
      | init u e =>
        by_cases hu : t = u
        · subst hu; simp [Spec.step, set_same]
        · simp [Spec.step, set_ne _ _ hu, hn]
      | stop u =>
        by_cases hu : t = u
        · subst hu; simp [Spec.step, set_same]
        · simp [Spec.step, set_ne _ _ hu, hn]
      | start u sma i p =>
        have hu : t ≠ u := by rintro rfl; exact hs sma i p (by simp)
        simp [Spec.step, set_ne _ _ hu, hn]
      | tick => simp [Spec.step, tickT, hn]
    simp only [Spec.run] at hp
    cases op with
    | tick =>
      simp only [Spec.step, ticks, List.mem_cons] at hp
      rcases hp with rfl | hp
      · rw [tick_posts_of hI]; simp [fire, hn]
      · exact ih _ t hI' hn' hs' posts hp
    | init u e => exact ih _ t hI' hn' hs' posts (by simpa [Spec.step, ticks] using hp)
    | start u sma i p => exact ih _ t hI' hn' hs' posts (by simpa [Spec.step, ticks] using hp)
    | stop u => exact ih _ t hI' hn' hs' posts (by simpa [Spec.step, ticks] using hp)

/-- A running timer posts exactly at its expiries. -/
theorem running_run : ∀ (ops : List Op) (a : S) (t : Nat) (v : Sched), SInv a → (a.tm t).sched = some v → 0 < v.left →
    (∀ op ∈ ops, concerns t op = false) →
    ∀ k posts, (ticks (Spec.run a ops).1)[k]? = some posts →
      posts.filter (fun p => p.tmr == t) = if Fires v.left v.per (k + 1) then [⟨t, v.sma, (a.tm t).evt⟩] else [] := by
  intro ops
  induction ops with
  | nil => intro a t v _ _ _ _ k posts h; simp [Spec.run, ticks] at h
  | cons op ops ih =>
    intro a t v hI hv hpos hc k posts hp
    have hI' := sinv_step hI op
    have hc' : ∀ op ∈ ops, concerns t op = false := fun o ho => hc o (by simp [ho])
    by_cases ht : op = .tick
    · subst ht
      simp only [Spec.run, Spec.step, ticks] at hp
      have htm : ((Spec.step a .tick).1.tm t).sched = tickSched v := by simp [Spec.step, tickT, hv]
      have hev : ((Spec.step a .tick).1.tm t).evt = (a.tm t).evt := rfl
      cases k with
      | zero =>
        simp only [List.getElem?_cons_zero, Option.some.injEq] at hp
        subst hp
        rw [tick_posts_of hI]
        simp only [fire, hv]
        by_cases h1 : v.left = 1
        · simp [h1, Fires]
        · rw [if_neg h1, if_neg]
          · rfl
          · unfold Fires; omega
      | succ k =>
        simp only [List.getElem?_cons_succ] at hp
        by_cases h1 : v.left = 1
        · by_cases hp0 : v.per = 0
          · have hn : ((Spec.step a .tick).1.tm t).sched = none := by rw [htm]; simp [tickSched, h1, hp0]
            rw [if_neg (by unfold Fires; omega)]
            exact silent_run ops _ t hI' hn (fun sma i p h => by have := hc' _ h; simp [concerns] at this) posts
              (List.mem_of_getElem? hp)
          · have hs : ((Spec.step a .tick).1.tm t).sched = some { v with left := v.per } := by
              rw [htm]; simp [tickSched, h1, hp0]
            rw [ih _ t _ hI' hs (by simp only; omega) hc' k posts hp]
            have : Fires v.per v.per (k + 1) ↔ Fires v.left v.per (k + 1 + 1) := by
              unfold Fires
              rw [h1]
              constructor
              · rintro (h | ⟨_, h2, h3⟩)
                · right; refine ⟨by omega, by omega, ?_⟩
                  rw [show k + 1 + 1 - 1 = v.per by omega]; exact Nat.dvd_refl _
                · right; refine ⟨by omega, by omega, ?_⟩
                  have := Nat.dvd_add h3 (Nat.dvd_refl v.per)
                  rw [show k + 1 - v.per + v.per = k + 1 + 1 - 1 by omega] at this
                  exact this
              · rintro (h | ⟨_, h2, h3⟩)
                · omega
                · rw [show k + 1 + 1 - 1 = k + 1 by omega] at h3
                  have hle := Nat.le_of_dvd (by omega) h3
                  by_cases he : k + 1 = v.per
                  · exact Or.inl he
                  · exact Or.inr ⟨by omega, by omega, Nat.dvd_sub h3 (Nat.dvd_refl _)⟩
            simp only [this, hev]
        · have hs : ((Spec.step a .tick).1.tm t).sched = some { v with left := v.left - 1 } := by
            rw [htm]; simp [tickSched, h1]
          rw [ih _ t _ hI' hs (by simp only; omega) hc' k posts hp]
          have : Fires (v.left - 1) v.per (k + 1) ↔ Fires v.left v.per (k + 1 + 1) := by
            unfold Fires
            rw [show k + 1 - (v.left - 1) = k + 1 + 1 - v.left by omega]
            constructor
            · rintro (h | ⟨h1, h2, h3⟩)
              · left; omega
              · exact Or.inr ⟨h1, by omega, h3⟩
            · rintro (h | ⟨h1, h2, h3⟩)
              · left; omega
              · exact Or.inr ⟨h1, by omega, h3⟩
          simp only [this, hev]
    · have hop := hc op (by simp)
      have htm := tm_unconcerned (a := a) hop ht
      have hp' : (ticks (Spec.run (Spec.step a op).1 ops).1)[k]? = some posts := by
        cases op with
        | tick => exact absurd rfl ht
        | init u e => simpa [Spec.run, Spec.step, ticks] using hp
        | start u sma i p => simpa [Spec.run, Spec.step, ticks] using hp
        | stop u => simpa [Spec.run, Spec.step, ticks] using hp
      rw [ih _ t v hI' (by rw [htm, hv]) hpos hc' k posts hp', htm]

theorem evt_run : ∀ (ops : List Op) (a : S) (t : Nat),
    ((Spec.run a ops).2.tm t).evt =
      if ops.any (isInit t) then lastEvt t ops else (a.tm t).evt := by
  intro ops
  induction ops with
  | nil => intro a t; simp [Spec.run]
  | cons op ops ih =>
    intro a t
    simp only [Spec.run]
    rw [ih]
    cases op with
    | init u e =>
      rw [show lastEvt t (.init u e :: ops) = if ops.any (isInit t) then lastEvt t ops else if u = t then e else lastEvt t ops from rfl,
        show (Op.init u e :: ops).any (isInit t) = (isInit t (.init u e) || ops.any (isInit t)) from rfl]
      by_cases ha : ops.any (isInit t) = true
      · rw [if_pos ha, if_pos ha, if_pos (by rw [ha]; simp)]
      · rw [if_neg ha, if_neg ha]
        have ha' : ops.any (isInit t) = false := by simpa using ha
        simp only [ha', Bool.or_false, isInit, beq_iff_eq]
        by_cases hu : u = t
        · subst hu; simp [Spec.step, set_same]
        · simp [hu, Spec.step, set_ne _ _ (Ne.symm hu)]
    | start u sma i p =>
      simp only [List.any_cons, lastEvt, isInit, Bool.false_or]
      split
      · rfl
      · by_cases hu : t = u
        · subst hu; simp [Spec.step, set_same]
        · simp [Spec.step, set_ne _ _ hu]
    | stop u =>
      simp only [List.any_cons, lastEvt, isInit, Bool.false_or]
      split
      · rfl
      · by_cases hu : t = u
        · subst hu; simp [Spec.step, set_same]
        · simp [Spec.step, set_ne _ _ hu]
    | tick => simp only [List.any_cons, lastEvt, isInit, Bool.false_or]; rfl

theorem ready_run : ∀ (ops : List Op) (a : S) (t : Nat), ((Spec.run a ops).2.tm t).ready = true →
    (a.tm t).ready = true ∨ ops.any (isInit t) = true := by
  intro ops
  induction ops with
  | nil => intro a t h; exact Or.inl h
  | cons op ops ih =>
    intro a t h
    simp only [Spec.run] at h
    rcases ih _ t h with h1 | h1
    · cases op with
      | init u e =>
        by_cases hu : t = u
        · subst hu; right; simp [isInit]
        · left; simpa [Spec.step, set_ne _ _ hu] using h1
      | start u _ _ _ =>
        left
        by_cases hu : t = u
        · subst hu; simpa [Spec.step, set_same] using h1
        · simpa [Spec.step, set_ne _ _ hu] using h1
      | stop u =>
        left
        by_cases hu : t = u
        · subst hu; simpa [Spec.step, set_same] using h1
        · simpa [Spec.step, set_ne _ _ hu] using h1
      | tick => exact Or.inl h1
    · right; simp [h1]

/-! ### Refinement -/

/-- The modelled code behaves exactly as the specification on every legal history: it never halts with an assertion, never has
undefined behaviour, always terminates, and produces the specified return values and posts. -/
theorem timers_refine {c : Cfg} (heap : Nat → Tmr) (h : List Op) (hl : Legal c.W start0 h) (hf : h.length < c.fuel) :
    (runOps (step c) (moduleInit heap) h).1 = (Spec.run start0 h).1 ∧
    ∃ s, (runOps (step c) (moduleInit heap) h).2 = .ok s :=
  let ⟨h1, s, h2, _⟩ := rep_run h _ _ (rep_start0 c heap) hl (by simpa [start0] using hf)
  ⟨h1, s, h2⟩

/-! ### C28, C29 -/

/-- **C28/C29.** Take any legal history `h`, then start timer `t` (running or not) with `itick = n` and period `p`, then any
calls that do not concern `t`. At the `k`-th tick after the start (`k` counted from 1 here, from 0 in the list), `t` posts its event (given
by its last initialisation) to its receiver, exactly once, if `k = n` or (`p > 0` and `k` is `n` plus a multiple of `p`), and posts nothing
otherwise. With `p = 0` that is: once, at the `n`-th tick. -/
theorem timer_fires_exactly_when_due {c : Cfg} (heap : Nat → Tmr) (h rest : List Op) (t sma n p : Nat)
    (hl : Legal c.W start0 (h ++ .start t sma n p :: rest)) (hf : (h ++ .start t sma n p :: rest).length < c.fuel)
    (hc : ∀ op ∈ rest, concerns t op = false) (k : Nat) (posts : List Post)
    (hk : (ticks ((runOps (step c) (moduleInit heap) (h ++ .start t sma n p :: rest)).1.drop (h.length + 1)))[k]? = some posts) :
    posts.filter (fun q => q.tmr == t) = if Fires n p (k + 1) then [⟨t, sma, lastEvt t h⟩] else [] := by
  rw [(timers_refine heap _ hl hf).1, run_append] at hk
  rw [legal_append] at hl
  obtain ⟨hl1, hl2, hl3⟩ := hl
  have hd : ∀ (x : Out) (xs ys : List Out), ys.length = h.length → (ys ++ x :: xs).drop (h.length + 1) = xs := by
    intro x xs ys hy
    rw [← hy, List.drop_append]
    simp
  simp only [Spec.run] at hk
  rw [hd _ _ _ (run_length _ _)] at hk
  have hI : SInv (Spec.run start0 h).2 := sinv_run sinv_start0 h
  have := running_run rest (Spec.step (Spec.run start0 h).2 (.start t sma n p)).1 t ⟨sma, n, p⟩ (sinv_step hI _)
    (by simp [Spec.step, set_same]) hl2.2.2.1 hc k posts hk
  rw [this]
  have he : ((Spec.step (Spec.run start0 h).2 (.start t sma n p)).1.tm t).evt = lastEvt t h := by
    have hr := ready_run h start0 t hl2.1
    simp only [start0, Bool.false_eq_true, false_or] at hr
    simp only [Spec.step, set_same, evt_run]
    rw [if_pos hr]
  rw [he]

/-- **C28.** A one-shot timer posts at the `n`-th tick and never again. -/
theorem oneshot_fires_exactly_once {c : Cfg} (heap : Nat → Tmr) (h rest : List Op) (t sma n : Nat)
    (hl : Legal c.W start0 (h ++ .start t sma n 0 :: rest)) (hf : (h ++ .start t sma n 0 :: rest).length < c.fuel)
    (hc : ∀ op ∈ rest, concerns t op = false) (k : Nat) (posts : List Post)
    (hk : (ticks ((runOps (step c) (moduleInit heap) (h ++ .start t sma n 0 :: rest)).1.drop (h.length + 1)))[k]? = some posts) :
    posts.filter (fun q => q.tmr == t) = if k + 1 = n then [⟨t, sma, lastEvt t h⟩] else [] := by
  rw [timer_fires_exactly_when_due heap h rest t sma n 0 hl hf hc k posts hk]
  simp [Fires]

/-- **C29.** A periodic timer posts at ticks `n`, `n + p`, `n + 2p`, ... and at no other tick. -/
theorem periodic_fires_every_period {c : Cfg} (heap : Nat → Tmr) (h rest : List Op) (t sma n p : Nat) (hp : 0 < p)
    (hl : Legal c.W start0 (h ++ .start t sma n p :: rest)) (hf : (h ++ .start t sma n p :: rest).length < c.fuel)
    (hc : ∀ op ∈ rest, concerns t op = false) (k : Nat) (posts : List Post)
    (hk : (ticks ((runOps (step c) (moduleInit heap) (h ++ .start t sma n p :: rest)).1.drop (h.length + 1)))[k]? = some posts) :
    ((∃ j, k + 1 = n + j * p) → posts.filter (fun q => q.tmr == t) = [⟨t, sma, lastEvt t h⟩]) ∧
    ((¬ ∃ j, k + 1 = n + j * p) → posts.filter (fun q => q.tmr == t) = []) := by
  rw [timer_fires_exactly_when_due heap h rest t sma n p hl hf hc k posts hk]
  have : Fires n p (k + 1) ↔ ∃ j, k + 1 = n + j * p := by
    unfold Fires
    constructor
    · rintro (h | ⟨_, h2, j, h3⟩)
      · exact ⟨0, by omega⟩
      · exact ⟨j, by rw [Nat.mul_comm]; omega⟩
    · rintro ⟨j, hj⟩
      cases j with
      | zero => left; omega
      | succ j =>
        right
        have : 0 < (j + 1) * p := Nat.mul_pos (by omega) hp
        exact ⟨hp, by omega, j + 1, by rw [Nat.mul_comm]; omega⟩
  constructor
  · intro hh; rw [if_pos (this.mpr hh)]
  · intro hh; rw [if_neg (fun h => hh (this.mp h))]

/-- A history meeting the hypotheses: timer 1 started with 3 ticks and period 2 while timer 2 is already running; then timer 2
is stopped and restarted between the ticks. -/
def demoH : List Op := [.init 1 11, .init 2 22, .start 2 5 4 0, .tick]
def demoRest : List Op := [.tick, .stop 2, .tick, .start 2 5 1 1, .tick, .tick, .tick]
example : Legal 256 start0 (demoH ++ .start 1 7 3 2 :: demoRest) ∧ (∀ op ∈ demoRest, concerns 1 op = false) := by
  simp [Legal, legalOp, demoH, demoRest, Spec.step, start0, Spec.set, concerns, tickT]
example : ticks ((runOps (step ⟨256, true, 100⟩) (moduleInit fun _ => ⟨9, 9, 9, 9, 9, 1⟩) (demoH ++ .start 1 7 3 2 :: demoRest)).1.drop 5) =
    [[], [], [⟨2, 5, 22⟩, ⟨1, 7, 11⟩], [⟨2, 5, 22⟩], [⟨2, 5, 22⟩, ⟨1, 7, 11⟩]] := by decide

/-! ### C30 -/

/-- **C30 (silence).** After `stop t` (or `init t`), as long as `t` is not started, no tick posts anything for `t`. -/
theorem stopped_timer_is_silent {c : Cfg} (heap : Nat → Tmr) (h rest : List Op) (t : Nat) (op : Op)
    (hop : op = .stop t ∨ ∃ e, op = .init t e)
    (hl : Legal c.W start0 (h ++ op :: rest)) (hf : (h ++ op :: rest).length < c.fuel)
    (hc : ∀ sma i p, Op.start t sma i p ∉ rest) :
    ∀ posts ∈ ticks ((runOps (step c) (moduleInit heap) (h ++ op :: rest)).1.drop (h.length + 1)),
      ∀ q ∈ posts, q.tmr ≠ t := by
  intro posts hp q hq heq
  rw [(timers_refine heap _ hl hf).1, run_append] at hp
  have hd : ∀ (x : Out) (xs ys : List Out), ys.length = h.length → (ys ++ x :: xs).drop (h.length + 1) = xs := by
    intro x xs ys hy
    rw [← hy, List.drop_append]
    simp
  simp only [Spec.run] at hp
  rw [hd _ _ _ (run_length _ _)] at hp
  have hI : SInv (Spec.run start0 h).2 := sinv_run sinv_start0 h
  have hn : ((Spec.step (Spec.run start0 h).2 op).1.tm t).sched = none := by
    rcases hop with rfl | ⟨e, rfl⟩ <;> simp [Spec.step, set_same]
  have := silent_run rest _ t (sinv_step hI op) hn hc posts hp
  have hm : q ∈ posts.filter (fun p => p.tmr == t) := by simp [List.mem_filter, hq, heq]
  rw [this] at hm
  cases hm

/-- Number of ticks in a list of calls. -/
def nticks (l : List Op) : Nat := l.countP (· == .tick)

theorem sched_after : ∀ (rest : List Op) (a : S) (t : Nat) (v : Sched), (a.tm t).sched = some v → 0 < v.left →
    (∀ op ∈ rest, concerns t op = false) →
    (running (Spec.run a rest).2 t = true ↔ (0 < v.per ∨ nticks rest < v.left)) := by
  intro rest
  induction rest with
  | nil => intro a t v hv h0 _; simp [Spec.run, running, hv, nticks, h0]
  | cons op rest ih =>
    intro a t v hv h0 hc
    have hc' : ∀ op ∈ rest, concerns t op = false := fun o ho => hc o (by simp [ho])
    simp only [Spec.run]
    by_cases ht : op = .tick
    · subst ht
      have hnt : nticks (.tick :: rest) = nticks rest + 1 := by simp [nticks]
      have htm : ((Spec.step a .tick).1.tm t).sched = tickSched v := by simp [Spec.step, tickT, hv]
      rw [hnt]
      by_cases h1 : v.left = 1
      · by_cases hp : v.per = 0
        · have hn : ((Spec.step a .tick).1.tm t).sched = none := by rw [htm]; simp [tickSched, h1, hp]
          have hstay : ∀ (l : List Op) (b : S), (b.tm t).sched = none → (∀ op ∈ l, concerns t op = false) →
              ((Spec.run b l).2.tm t).sched = none := by
            intro l
            induction l with
            | nil => intro b hb _; exact hb
            | cons o l ih =>
              intro b hb hcl
              simp only [Spec.run]
              refine ih _ ?_ (fun o' ho' => hcl o' (by simp [ho']))
              by_cases hot : o = .tick
              · subst hot; simp [Spec.step, tickT, hb]
              · rw [tm_unconcerned (hcl o (by simp)) hot, hb]
          rw [running, hstay rest _ hn hc']
          simp [h1, hp]
        · have hs : ((Spec.step a .tick).1.tm t).sched = some { v with left := v.per } := by
            rw [htm]; simp [tickSched, h1, hp]
          rw [ih _ t _ hs (by simp only; omega) hc']
          simp only
          omega
      · have hs : ((Spec.step a .tick).1.tm t).sched = some { v with left := v.left - 1 } := by
          rw [htm]; simp [tickSched, h1]
        rw [ih _ t _ hs (by simp only; omega) hc']
        simp only
        omega
    · have hop := hc op (by simp)
      have htm := tm_unconcerned (a := a) hop ht
      rw [ih _ t v (by rw [htm, hv]) h0 hc']
      have : nticks (op :: rest) = nticks rest := by simp [nticks, ht]
      rw [this]

/-- **C30 (return value).** `stop t` after a start with `itick = n` and period `p` and any calls not concerning `t` returns true
iff the timer is periodic or fewer than `n` ticks have passed. -/
theorem stop_reports_running {c : Cfg} (heap : Nat → Tmr) (h rest : List Op) (t sma n p : Nat)
    (hl : Legal c.W start0 (h ++ .start t sma n p :: (rest ++ [.stop t])))
    (hf : (h ++ Op.start t sma n p :: (rest ++ [.stop t])).length < c.fuel)
    (hc : ∀ op ∈ rest, concerns t op = false) :
    (runOps (step c) (moduleInit heap) (h ++ .start t sma n p :: (rest ++ [.stop t]))).1.getLast? =
      some (.bool (decide (0 < p ∨ nticks rest < n))) := by
  rw [(timers_refine heap _ hl hf).1]
  rw [legal_append] at hl
  rw [run_append]
  simp only [Spec.run, run_append]
  have := sched_after rest (Spec.step (Spec.run start0 h).2 (.start t sma n p)).1 t ⟨sma, n, p⟩
    (by simp [Spec.step, set_same]) hl.2.1.2.2.1 hc
  simp only at this
  rw [show (Spec.step (Spec.run (Spec.step (Spec.run start0 h).2 (.start t sma n p)).1 rest).2 (.stop t)).2 =
    .bool (running (Spec.run (Spec.step (Spec.run start0 h).2 (.start t sma n p)).1 rest).2 t) from rfl]
  have hb : running (Spec.run (Spec.step (Spec.run start0 h).2 (.start t sma n p)).1 rest).2 t = decide (0 < p ∨ nticks rest < n) := by
    rw [Bool.eq_iff_iff, this, decide_eq_true_iff]
  rw [hb]
  simp [← List.append_assoc, List.getLast?_cons]

/-- **C30 (return value, second stop).** Once stopped (or initialised) and not started again, `stop t` returns false. -/
theorem stop_of_stopped_returns_false {c : Cfg} (heap : Nat → Tmr) (h rest : List Op) (t : Nat) (op : Op)
    (hop : op = .stop t ∨ ∃ e, op = .init t e)
    (hl : Legal c.W start0 (h ++ op :: (rest ++ [.stop t])))
    (hf : (h ++ op :: (rest ++ [.stop t])).length < c.fuel) (hc : ∀ sma i p, Op.start t sma i p ∉ rest) :
    (runOps (step c) (moduleInit heap) (h ++ op :: (rest ++ [.stop t]))).1.getLast? = some (.bool false) := by
  rw [(timers_refine heap _ hl hf).1, run_append]
  simp only [Spec.run, run_append]
  have hn : ((Spec.step (Spec.run start0 h).2 op).1.tm t).sched = none := by
    rcases hop with rfl | ⟨e, rfl⟩ <;> simp [Spec.step, set_same]
  have hstay : ∀ (l : List Op) (b : S), (b.tm t).sched = none → (∀ sma i p, Op.start t sma i p ∉ l) →
      ((Spec.run b l).2.tm t).sched = none := by
    intro l
    induction l with
    | nil => intro b hb _; exact hb
    | cons o l ih =>
      intro b hb hcl
      simp only [Spec.run]
      refine ih _ ?_ (fun sma i p ho => hcl sma i p (by simp [ho]))
      cases o with
      | init u e =>
        by_cases hu : t = u
        · subst hu; simp [Spec.step, set_same]
        · simp [Spec.step, set_ne _ _ hu, hb]
      | stop u =>
        by_cases hu : t = u
        · subst hu; simp [Spec.step, set_same]
        · simp [Spec.step, set_ne _ _ hu, hb]
      | start u sma i p =>
        have hu : t ≠ u := by rintro rfl; exact hcl sma i p (by simp)
        simp [Spec.step, set_ne _ _ hu, hb]
      | tick => simp [Spec.step, tickT, hb]
  have hrun := hstay rest _ hn hc
  have hb : running (Spec.run (Spec.step (Spec.run start0 h).2 op).1 rest).2 t = false := by simp [running, hrun]
  rw [show ∀ b, (Spec.step b (.stop t)).2 = .bool (running b t) from fun _ => rfl, hb]
  simp [← List.append_assoc, List.getLast?_cons]

example : Legal 256 start0 (demoH ++ .start 1 7 3 0 :: ([.tick, .stop 2, .tick] ++ [.stop 1])) := by
  simp [Legal, legalOp, demoH, Spec.step, start0, Spec.set, tickT]
example : (runOps (step ⟨256, true, 100⟩) (moduleInit fun _ => ⟨9, 9, 9, 9, 9, 1⟩)
    (demoH ++ .start 1 7 3 0 :: ([.tick, .stop 2, .tick] ++ [.stop 1]))).1.getLast? = some (.bool true) := by decide

/-! ### C31 -/

/-- Hide the posts of timer `t`. -/
def hide (t : Nat) : Out → Out
  | .posts l => .posts (l.filter fun q => q.tmr != t)
  | o => o

/-- What a history looks like to someone not interested in timer `t`: the results of all calls that do not concern `t`, with the
posts of `t` hidden. -/
def view (t : Nat) : List Op → List Out → List Out
  | op :: ops, o :: os => if concerns t op then view t ops os else hide t o :: view t ops os
  | _, _ => []

theorem filter_posts_ne {a b : S} (t : Nat) : ∀ (L M : List Nat), L.filter (· != t) = M.filter (· != t) → (∀ u, u ≠ t → a.tm u = b.tm u) →
    (L.filterMap (fire a)).filter (fun q => q.tmr != t) = (M.filterMap (fire b)).filter (fun q => q.tmr != t) := by
  have key : ∀ (a : S) (L : List Nat),
      (L.filterMap (fire a)).filter (fun q => q.tmr != t) = (L.filter (· != t)).filterMap (fire a) := by
    intro a L
    induction L with
    | nil => rfl
    | cons x L ih =>
      by_cases hx : x = t
      · subst hx
        rw [List.filter_cons_of_neg (by simp), ← ih, List.filterMap_cons]
        cases hf : fire a x with
        | none => rfl
        | some p => rw [List.filter_cons_of_neg (by simp [fire_tmr hf])]
      · rw [List.filter_cons_of_pos (by simp [hx]), List.filterMap_cons, List.filterMap_cons]
        cases hf : fire a x with
        | none => simp only [ih]
        | some p => rw [List.filter_cons_of_pos (by simp [fire_tmr hf, hx]), ih]
  intro L M hLM hab
  rw [key, key, hLM]
  have : ∀ (M : List Nat), (∀ u ∈ M, u ≠ t) → M.filterMap (fire a) = M.filterMap (fire b) := by
    intro M hM
    induction M with
    | nil => rfl
    | cons x M ih =>
      rw [List.filterMap_cons, List.filterMap_cons, ih (fun u hu => hM u (by simp [hu]))]
      have : fire a x = fire b x := by simp [fire, hab x (hM x (by simp))]
      rw [this]
  exact this _ (fun u hu => by simpa using (List.mem_filter.mp hu).2)

/-- Two specification states agree on everything but timer `t`. -/
structure Agree (t : Nat) (a b : S) : Prop where
  tm : ∀ u, u ≠ t → a.tm u = b.tm u
  order : a.order.filter (· != t) = b.order.filter (· != t)

theorem filter_erase_comm (L : List Nat) (t u : Nat) (hne : u ≠ t) (hnd : L.Nodup) :
    (L.erase u).filter (· != t) = (L.filter (· != t)).filter (· != u) := by
  rw [hnd.erase_eq_filter, List.filter_filter, List.filter_filter]
  congr 1
  funext x
  exact Bool.and_comm _ _

theorem agree_step {t : Nat} {a b : S} (h : Agree t a b) (ha : SInv a) (hb : SInv b) {op : Op} (hc : concerns t op = false) :
    Agree t (Spec.step a op).1 (Spec.step b op).1 ∧ hide t (Spec.step a op).2 = hide t (Spec.step b op).2 := by
  have hset : ∀ (v : T) (u : Nat), u ≠ t → ∀ x, x ≠ t → Spec.set a u v x = Spec.set b u v x := by
    intro v u hu x hx
    simp only [Spec.set]
    split
    · rfl
    · exact h.tm x hx
  cases op with
  | init u e =>
    simp only [concerns, beq_eq_false_iff_ne] at hc
    exact ⟨⟨fun x hx => hset _ u hc x hx, by
      simp only [Spec.step]; rw [filter_erase_comm _ _ _ hc ha.nodup, filter_erase_comm _ _ _ hc hb.nodup, h.order]⟩, rfl⟩
  | stop u =>
    simp only [concerns, beq_eq_false_iff_ne] at hc
    refine ⟨⟨fun x hx => ?_, by
      simp only [Spec.step]; rw [filter_erase_comm _ _ _ hc ha.nodup, filter_erase_comm _ _ _ hc hb.nodup, h.order]⟩, ?_⟩
    · simp only [Spec.step]; rw [h.tm u hc]; exact hset _ u hc x hx
    · simp only [Spec.step, hide, running, h.tm u hc]
  | start u sma i p =>
    simp only [concerns, beq_eq_false_iff_ne] at hc
    refine ⟨⟨fun x hx => ?_, ?_⟩, rfl⟩
    · simp only [Spec.step]; rw [h.tm u hc]; exact hset _ u hc x hx
    · have hrun : running a u = running b u := by simp [running, h.tm u hc]
      simp only [Spec.step]
      rw [hrun]
      split
      · exact h.order
      · rw [List.filter_cons_of_pos (by simp [hc]), List.filter_cons_of_pos (by simp [hc]), h.order]
  | tick =>
    refine ⟨⟨fun x hx => by simp only [Spec.step, h.tm x hx], ?_⟩, ?_⟩
    · simp only [Spec.step, List.filter_filter]
      have key : ∀ (a : S) (L : List Nat), L.filter (fun x => x != t && (tickT (a.tm x)).sched.isSome) =
          (L.filter (· != t)).filter (fun x => (tickT (a.tm x)).sched.isSome) := by
        intro a L; rw [List.filter_filter]; congr 1; funext x; exact Bool.and_comm _ _
      rw [key, key, h.order]
      refine List.filter_congr fun x hx => ?_
      rw [h.tm x (by simpa using (List.mem_filter.mp hx).2)]
    · simp only [Spec.step, hide]
      rw [filter_posts_ne t _ _ h.order h.tm]

theorem agree_skip {t : Nat} {a b : S} (h : Agree t a b) (ha : SInv a) {op : Op} (hc : concerns t op = true) :
    Agree t (Spec.step a op).1 b := by
  have hfe : (a.order.erase t).filter (· != t) = a.order.filter (· != t) := by
    rw [ha.nodup.erase_eq_filter, List.filter_filter]; congr 1; funext x; simp
  cases op with
  | init u e =>
    simp only [concerns, beq_iff_eq] at hc; subst hc
    exact ⟨fun x hx => by simp only [Spec.step, set_ne _ _ hx]; exact h.tm x hx, by simp only [Spec.step]; rw [hfe]; exact h.order⟩
  | stop u =>
    simp only [concerns, beq_iff_eq] at hc; subst hc
    exact ⟨fun x hx => by simp only [Spec.step, set_ne _ _ hx]; exact h.tm x hx, by simp only [Spec.step]; rw [hfe]; exact h.order⟩
  | start u sma i p =>
    simp only [concerns, beq_iff_eq] at hc; subst hc
    refine ⟨fun x hx => by simp only [Spec.step, set_ne _ _ hx]; exact h.tm x hx, ?_⟩
    simp only [Spec.step]
    split
    · exact h.order
    · rw [List.filter_cons_of_neg (by simp)]; exact h.order
  | tick => simp [concerns] at hc

theorem view_cons_skip {t : Nat} {op : Op} (ops : List Op) (o : Out) (os : List Out) (h : concerns t op = true) :
    view t (op :: ops) (o :: os) = view t ops os := by simp [view, h]
theorem view_cons_keep {t : Nat} {op : Op} (ops : List Op) (o : Out) (os : List Out) (h : concerns t op = false) :
    view t (op :: ops) (o :: os) = hide t o :: view t ops os := by simp [view, h]

theorem agree_run {t W : Nat} : ∀ (ops : List Op) (a b : S), Agree t a b → SInv a → SInv b → Legal W a ops →
    Legal W b (ops.filter fun op => !concerns t op) ∧
    view t ops (Spec.run a ops).1 = ((Spec.run b (ops.filter fun op => !concerns t op)).1).map (hide t) := by
  intro ops
  induction ops with
  | nil => intro a b _ _ _ _; exact ⟨trivial, rfl⟩
  | cons op ops ih =>
    intro a b hab ha hb hl
    by_cases hc : concerns t op = true
    · rw [List.filter_cons_of_neg (by simp [hc])]
      have := ih _ b (agree_skip hab ha hc) (sinv_step ha op) hb hl.2
      simp only [Spec.run]
      rw [view_cons_skip _ _ _ hc]
      exact this
    · have hc' : concerns t op = false := by simpa using hc
      rw [List.filter_cons_of_pos (by simp [hc'])]
      obtain ⟨h1, h2⟩ := agree_step hab ha hb hc'
      obtain ⟨h3, h4⟩ := ih _ _ h1 (sinv_step ha op) (sinv_step hb op) hl.2
      refine ⟨⟨?_, h3⟩, ?_⟩
      · have hlo := hl.1
        cases op with
        | init u e => exact hlo
        | start u sma i p =>
          simp only [concerns, beq_eq_false_iff_ne] at hc'
          simp only [legalOp] at hlo ⊢; rw [← hab.tm u hc']; exact hlo
        | stop u =>
          simp only [concerns, beq_eq_false_iff_ne] at hc'
          simp only [legalOp] at hlo ⊢; rw [← hab.tm u hc']; exact hlo
        | tick => trivial
      · simp only [Spec.run, List.map_cons]
        rw [view_cons_keep _ _ _ hc', h2, h4]

/-- **C31 (independence).** Initialising, starting, restarting, stopping or re-initialising timer `t` never influences any other
timer: seen from the others, every legal history looks exactly as the history with all calls concerning `t` erased. -/
theorem timers_independent {c : Cfg} (heap : Nat → Tmr) (h : List Op) (t : Nat) (hl : Legal c.W start0 h) (hf : h.length < c.fuel) :
    view t h (runOps (step c) (moduleInit heap) h).1 =
      (runOps (step c) (moduleInit heap) (h.filter fun op => !concerns t op)).1.map (hide t) := by
  have hA : Agree t start0 start0 := ⟨fun _ _ => rfl, rfl⟩
  obtain ⟨h1, h2⟩ := agree_run h start0 start0 hA sinv_start0 sinv_start0 hl
  have hlen := List.length_filter_le (fun op => !concerns t op) h
  rw [(timers_refine heap h hl hf).1, (timers_refine heap _ h1 (by omega)).1, h2]

example : Legal 256 start0 [.init 1 11, .init 2 22, .start 1 5 3 2, .start 2 5 2 0, .tick, .start 2 6 9 0, .init 2 23, .tick, .tick] := by
  simp [Legal, legalOp, Spec.step, start0, Spec.set, tickT]

/-- **C31 (restart).** Restarting a running timer replaces its schedule; it is registered once: this is
`timer_fires_exactly_when_due`, whose history `h` may leave `t` running. Example: started with 5, after 2 ticks restarted with 2 for
another receiver; it fires once, at the second tick after the restart, and not at the original time. -/
example : ticks ((runOps (step ⟨256, true, 100⟩) (moduleInit fun _ => ⟨9, 9, 9, 9, 9, 0⟩)
    ([.init 1 11, .start 1 7 5 0, .tick, .tick] ++ .start 1 8 2 0 :: [.tick, .tick, .tick, .tick, .tick])).1.drop 5) =
    [[], [⟨1, 8, 11⟩], [], [], []] := by decide

/-! ### C32 -/

/-- **C32.** After any legal history the list of timers reachable from the list head is finite, acyclic and duplicate free, ends with NULL, and
contains exactly the running timers; so a tick terminates, whatever loop bound larger than the number of running timers is allowed. -/
theorem timer_list_integrity {c : Cfg} (heap : Nat → Tmr) (h : List Op) (hl : Legal c.W start0 h) (hf : h.length < c.fuel) :
    ∃ s, (runOps (step c) (moduleInit heap) h).2 = .ok s ∧
      ∃ L, Chain s.heap s.thead L ∧ L.Nodup ∧ (∀ t, t ∈ L ↔ running (Spec.run start0 h).2 t = true) ∧
        ∀ fuel, L.length < fuel → ∃ r, tick { c with fuel := fuel } (fun _ => []) s = .ok r := by
  obtain ⟨h1, s, h2, hr⟩ := rep_run h _ _ (rep_start0 c heap) hl (by simpa [start0] using hf)
  refine ⟨s, h2, (Spec.run start0 h).2.order, hr.chain, hr.nodup, hr.mem, ?_⟩
  intro fuel hfu
  have hr' : Rep { c with fuel := fuel } s (Spec.run start0 h).2 :=
    { chain := hr.chain, nodup := hr.nodup, mem := hr.mem, tm := hr.tm, nz := hr.nz }
  obtain ⟨s', h3, _⟩ := rep_tick hr' hfu
  exact ⟨_, h3⟩

/-! ### C33 -/

theorem order_stays {t u : Nat} : ∀ (ops : List Op) (a : S), SInv a → (∀ op ∈ ops, concerns t op = false ∧ concerns u op = false) →
    [u, t].Sublist a.order → running (Spec.run a ops).2 u = true → running (Spec.run a ops).2 t = true → [u, t].Sublist (Spec.run a ops).2.order := by
  intro ops
  have dead : ∀ (x : Nat) (l : List Op) (b : S), (b.tm x).sched = none → (∀ op ∈ l, concerns x op = false) → running (Spec.run b l).2 x = false := by
    intro x l
    induction l with
    | nil => intro b hb _; simp [Spec.run, running, hb]
    | cons o l ih =>
      intro b hb hcl
      simp only [Spec.run]
      refine ih _ ?_ (fun o' ho' => hcl o' (by simp [ho']))
      by_cases hot : o = .tick
      · subst hot; simp [Spec.step, tickT, hb]
      · rw [tm_unconcerned (hcl o (by simp)) hot, hb]
  induction ops with
  | nil => intro a _ _ h _ _; exact h
  | cons op ops ih =>
    intro a hI hc h hu ht
    have hc' : ∀ op ∈ ops, concerns t op = false ∧ concerns u op = false := fun o ho => hc o (by simp [ho])
    have alive : ∀ x, x = t ∨ x = u → ((Spec.step a op).1.tm x).sched.isSome = true := by
      intro x hx
      cases hs : ((Spec.step a op).1.tm x).sched with
      | some v => rfl
      | none =>
        have := dead x ops _ hs (fun o ho => by rcases hx with rfl | rfl; exact (hc' o ho).1; exact (hc' o ho).2)
        simp only [Spec.run] at hu ht
        rcases hx with rfl | rfl
        · rw [this] at ht; cases ht
        · rw [this] at hu; cases hu
    have hne : ∀ x, x = t ∨ x = u → concerns x op = false := by
      rintro x (rfl | rfl)
      · exact (hc op (by simp)).1
      · exact (hc op (by simp)).2
    simp only [Spec.run] at hu ht ⊢
    refine ih _ (sinv_step hI op) hc' ?_ hu ht
    have pick : ∀ (f : Nat → Bool), f t = true → f u = true → [u, t].Sublist (a.order.filter f) := by
      intro f h1 h2
      have := h.filter f
      simpa [h1, h2] using this
    cases op with
    | init v e =>
      have h1 := hne t (Or.inl rfl); have h2 := hne u (Or.inr rfl)
      simp only [concerns, beq_eq_false_iff_ne] at h1 h2
      simp only [Spec.step]; rw [hI.nodup.erase_eq_filter]
      exact pick _ (by simp [Ne.symm h1]) (by simp [Ne.symm h2])
    | stop v =>
      have h1 := hne t (Or.inl rfl); have h2 := hne u (Or.inr rfl)
      simp only [concerns, beq_eq_false_iff_ne] at h1 h2
      simp only [Spec.step]; rw [hI.nodup.erase_eq_filter]
      exact pick _ (by simp [Ne.symm h1]) (by simp [Ne.symm h2])
    | start v sma i p =>
      simp only [Spec.step]
      split
      · exact h
      · exact h.cons _
    | tick => simp only [Spec.step]; exact pick _ (alive t (Or.inl rfl)) (alive u (Or.inr rfl))

/-- **C33, what the code does.** If `t` was activated before `u` (`u` was not running when it was started), and neither was touched since,
and both expire at the same tick, then `u`, the one activated last, posts first: the order is determined by the order of activation as C33 says, but reversed. -/
theorem same_tick_most_recent_first_partial {c : Cfg} (heap : Nat → Tmr) (h0 h1 h2 : List Op) (t u st it pt su iu pu : Nat) (htu : t ≠ u)
    (hl : Legal c.W start0 (h0 ++ .start t st it pt :: (h1 ++ .start u su iu pu :: (h2 ++ [.tick]))))
    (hf : (h0 ++ Op.start t st it pt :: (h1 ++ .start u su iu pu :: (h2 ++ [.tick]))).length < c.fuel)
    (hu : running (Spec.run start0 (h0 ++ .start t st it pt :: h1)).2 u = false)
    (hc2 : ∀ op ∈ h2, concerns t op = false ∧ concerns u op = false)
    (posts : List Post)
    (hlast : (runOps (step c) (moduleInit heap) (h0 ++ .start t st it pt :: (h1 ++ .start u su iu pu :: (h2 ++ [.tick])))).1.getLast? =
      some (.posts posts))
    (pt' pu' : Post) (hpt : pt' ∈ posts) (hpu : pu' ∈ posts) (ht' : pt'.tmr = t) (hu' : pu'.tmr = u) :
    [pu', pt'].Sublist posts := by
  rw [(timers_refine heap _ hl hf).1] at hlast
  let b := (Spec.run start0 (h0 ++ .start t st it pt :: h1)).2
  let d := (Spec.run (Spec.step b (.start u su iu pu)).1 h2).2
  have hIb : SInv b := sinv_run sinv_start0 _
  have hId : SInv d := sinv_run (sinv_step hIb _) _
  have hposts : posts = d.order.filterMap (fire d) := by
    have e : h0 ++ .start t st it pt :: (h1 ++ .start u su iu pu :: (h2 ++ [.tick])) =
        (h0 ++ .start t st it pt :: h1) ++ (.start u su iu pu :: h2) ++ [.tick] := by simp
    rw [e, run_append, run_append] at hlast
    simp only [Spec.run, Spec.step, List.getLast?_append, List.getLast?_singleton, Option.some_or, Option.some.injEq, Out.posts.injEq] at hlast
    exact hlast.symm
  have alive : ∀ x (q : Post), q ∈ posts → q.tmr = x → running d x = true ∧ fire d x = some q := by
    intro x q hq hx
    rw [hposts, List.mem_filterMap] at hq
    obtain ⟨y, hy, hfy⟩ := hq
    have : y = x := by rw [← fire_tmr hfy, hx]
    subst this
    exact ⟨(hId.mem y).mp hy, hfy⟩
  obtain ⟨hrt, hft⟩ := alive t pt' hpt ht'
  obtain ⟨hru, hfu⟩ := alive u pu' hpu hu'
  have hmemt : t ∈ b.order := by
    rw [hIb.mem]
    have dead : ∀ (l : List Op) (b : S), (b.tm t).sched = none → (∀ op ∈ l, concerns t op = false) → ((Spec.run b l).2.tm t).sched = none := by
      intro l
      induction l with
      | nil => intro b hb _; exact hb
      | cons o l ih =>
        intro b hb hcl
        simp only [Spec.run]
        refine ih _ ?_ (fun o' ho' => hcl o' (by simp [ho']))
        by_cases hot : o = .tick
        · subst hot; simp [Spec.step, tickT, hb]
        · rw [tm_unconcerned (hcl o (by simp)) hot, hb]
    cases hs : (b.tm t).sched with
    | some v => rfl
    | none =>
      have h3 : ((Spec.step b (.start u su iu pu)).1.tm t).sched = none := by simp [Spec.step, set_ne _ _ htu, hs]
      have := dead h2 _ h3 (fun o ho => (hc2 o ho).1)
      rw [running, this] at hrt; cases hrt
  have hord : [u, t].Sublist (Spec.step b (.start u su iu pu)).1.order := by
    have hu2 : running b u = false := hu
    simp only [Spec.step, hu2, Bool.false_eq_true, if_false]
    exact (List.singleton_sublist.mpr hmemt).cons₂ u
  have := order_stays h2 _ (sinv_step hIb _) hc2 hord hru hrt
  have h5 := this.filterMap (fire d)
  rw [hposts]
  simpa [hft, hfu] using h5

/-- **C33, negation of the documented order.** Timers 1 and 2 are started in this order and expire at the same tick; timer 2 posts first. -/
theorem same_tick_order_is_reversed :
    ∃ (h : List Op), Legal 256 start0 h ∧ h = [.init 1 11, .init 2 22, .start 1 5 1 0, .start 2 5 1 0, .tick] ∧
      ∀ heap fuel, h.length < fuel → (runOps (step ⟨256, true, fuel⟩) (moduleInit heap) h).1.getLast? =
        some (.posts [⟨2, 5, 22⟩, ⟨1, 5, 11⟩]) := by
  have hl : Legal 256 start0 [.init 1 11, .init 2 22, .start 1 5 1 0, .start 2 5 1 0, .tick] := by
    simp [Legal, legalOp, Spec.step, start0, Spec.set]
  refine ⟨_, hl, rfl, fun heap fuel hf => ?_⟩
  rw [(timers_refine (c := ⟨256, true, fuel⟩) heap _ hl hf).1]
  decide

/-- **Hazard (hooks).** A time-out hook that restarts its own one-shot timer makes the tick walk the list again: timer 2, started
with 2 ticks, fires at the first tick. -/
theorem restarting_hook_makes_other_timer_fire_early :
    ((runOps (step ⟨256, true, 100⟩) (moduleInit fun _ => ⟨0, 0, 0, 0, 0, 0⟩)
        [.init 1 11, .init 2 22, .start 1 5 1 0, .start 2 5 2 0]).2.bind
      (tick ⟨256, true, 100⟩ (fun t => if t = 1 then [.start 1 5 5 0] else []))).map' Prod.snd =
      .ok [⟨1, 5, 11⟩, ⟨2, 5, 22⟩] := by decide

end Verif.Timer
