import Verif.Timer.TraceLemmas
import Verif.Timer.Props
/-
Property C105: what the trace records of the software timers tell, for every history of timer calls.
-/
namespace Verif.Timer
open Verif Spec

/-- A history of timer calls, each with the signals events have at that moment, that respects the contract; with what it
returned and showed, and the final state. -/
structure TRun (c : Cfg) (heap : Nat → Tmr) (h : List (Op × (Nat → Nat))) (os : List (Out × List Item)) (s : St) : Prop where
  legal : Legal c.W start0 (h.map Prod.fst)
  fuel : h.length < c.fuel
  run : runOps (fun s x => tstep c x.2 s x.1) (moduleInit heap) h = (os, .ok s)

/-- All records of a history. -/
def records (os : List (Out × List Item)) : List TRec := os.flatMap fun o => recsOf o.2

/-- The situation after a history, according to the specification of timers. -/
def after (h : List (Op × (Nat → Nat))) : S := (Spec.run start0 (h.map Prod.fst)).2

/-- The host knows which timers run, and their receivers and periods. -/
def Knows (v : Host) (a : S) : Prop := ∀ t, v t = (a.tm t).sched.map fun x => (x.sma, x.per)

theorem readAll_append (h : Host) (l l' : List TRec) : h.readAll (l ++ l') = (h.readAll l).bind fun h => h.readAll l' := by
  induction l generalizing h with
  | nil => rfl
  | cons r l ih => simp only [List.cons_append, Host.readAll]; cases h.read r <;> simp [ih]

theorem read_rem {h : Host} {t : Nat} {x : Nat × Nat} (hx : h t = some x) : h.readAll [.rem t] = some (h.set t none) := by
  simp [Host.readAll, Host.read, hx]

theorem set_at (h : Host) (t : Nat) (v : Option (Nat × Nat)) : h.set t v t = v := by simp [Host.set]
theorem set_off (h : Host) {t x : Nat} (v : Option (Nat × Nat)) (hx : x ≠ t) : h.set t v x = h x := by simp [Host.set, hx]

/-- Reading the expiries of a tick: one-shot timers stop. -/
theorem read_expiries {a : S} {sig : Nat → Nat} : ∀ (L : List Nat), L.Nodup → (∀ t ∈ L, (a.tm t).sched.isSome) → ∀ v : Host,
    (∀ t ∈ L, v t = (a.tm t).sched.map fun x => (x.sma, x.per)) →
    ∃ v', v.readAll (recsOf ((L.filterMap (fire a)).flatMap (block sig fun t => ((a.tm t).sched.map Sched.per).getD 0))) = some v' ∧
      (∀ t, t ∉ L → v' t = v t) ∧ ∀ t ∈ L, v' t = (tickT (a.tm t)).sched.map fun x => (x.sma, x.per) := by
  intro L
  induction L with
  | nil => intro _ _ v _; exact ⟨v, rfl, fun _ _ => rfl, by simp⟩
  | cons t L ih =>
    intro hnd hs v hv
    obtain ⟨hn1, hn2⟩ := List.nodup_cons.mp hnd
    have hvt := hv t (by simp)
    have hst := hs t (by simp)
    cases hx : (a.tm t).sched with
    | none => rw [hx] at hst; cases hst
    | some x =>
      rw [hx] at hvt
      by_cases hl : x.left = 1
      · have hf : fire a t = some ⟨t, x.sma, (a.tm t).evt⟩ := by simp [fire, hx, hl]
        rw [List.filterMap_cons, hf]
        simp only [List.flatMap_cons, recsOf_append]
        by_cases hp : x.per = 0
        · obtain ⟨v', h1, h2, h3⟩ := ih hn2 (fun u hu => hs u (by simp [hu])) (v.set t none) fun u hu => by
            have hne : u ≠ t := by rintro rfl; exact hn1 hu
            rw [set_off _ _ hne]; exact hv u (by simp [hu])
          refine ⟨v', ?_, fun u hu => ?_, fun u hu => ?_⟩
          · rw [readAll_append]
            simp only [block, hx, Option.map_some, Option.getD_some, hp, if_true, List.cons_append, List.nil_append, recsOf_trc, recsOf_post,
              recsOf_nil, Host.readAll, Host.read, hvt, Option.bind_some]
            exact h1
          · simp only [List.mem_cons, not_or] at hu
            rw [h2 u hu.2, set_off _ _ hu.1]
          · by_cases hut : u = t
            · subst hut
              rw [h2 u hn1, set_at]
              simp [tickT, hx, tickSched, hl, hp]
            · exact h3 u (by simpa [hut] using hu)
        · obtain ⟨v', h1, h2, h3⟩ := ih hn2 (fun u hu => hs u (by simp [hu])) v fun u hu => hv u (by simp [hu])
          refine ⟨v', ?_, fun u hu => ?_, fun u hu => ?_⟩
          · rw [readAll_append]
            simp only [block, hx, Option.map_some, Option.getD_some, hp, if_false, List.cons_append, List.nil_append, recsOf_trc, recsOf_post,
              recsOf_nil, Host.readAll, Host.read, hvt, if_true, Option.bind_some]
            exact h1
          · simp only [List.mem_cons, not_or] at hu
            exact h2 u hu.2
          · by_cases hut : u = t
            · subst hut
              rw [h2 u hn1, hvt]
              simp [tickT, hx, tickSched, hl, hp]
            · exact h3 u (by simpa [hut] using hu)
      · have hf : fire a t = none := by simp [fire, hx, hl]
        rw [List.filterMap_cons, hf]
        obtain ⟨v', h1, h2, h3⟩ := ih hn2 (fun u hu => hs u (by simp [hu])) v fun u hu => hv u (by simp [hu])
        refine ⟨v', h1, fun u hu => h2 u (by simp only [List.mem_cons, not_or] at hu; exact hu.2), fun u hu => ?_⟩
        by_cases hut : u = t
        · subst hut
          rw [h2 u hn1, hvt]
          simp [tickT, hx, tickSched, hl]
        · exact h3 u (by simpa [hut] using hu)

/-- The records of one call, given the situation before it. -/
def Expected (sig : Nat → Nat) (a : S) : Op → List TRec → Prop
  | .init t e, l => l = (if running a t then [.rem t] else []) ++ [.init t (sig e)]
  | .start t sma i p, l => l = [.start t sma i p]
  | .stop t, l => match (a.tm t).sched with
    | some x => l = [.stop t x.left x.per, .rem t]
    | none => ∃ p, l = [.stop t 0 p]
  | .tick, l => l = a.order.flatMap fun t => match (a.tm t).sched with
    | some x => if x.left = 1 then .tout t (sig (a.tm t).evt) x.sma :: (if x.per = 0 then [.rem t] else []) else []
    | none => []

theorem recs_blocks {a : S} {sig : Nat → Nat} : ∀ L : List Nat,
    recsOf ((L.filterMap (fire a)).flatMap (block sig fun t => ((a.tm t).sched.map Sched.per).getD 0)) =
      L.flatMap fun t => match (a.tm t).sched with
        | some x => if x.left = 1 then .tout t (sig (a.tm t).evt) x.sma :: (if x.per = 0 then [.rem t] else []) else []
        | none => [] := by
  intro L
  induction L with
  | nil => rfl
  | cons t L ih =>
    simp only [List.flatMap_cons, ← ih]
    cases hx : (a.tm t).sched with
    | none => have hf : fire a t = none := by simp [fire, hx]
              rw [List.filterMap_cons, hf]; rfl
    | some x =>
      by_cases hl : x.left = 1
      · have hf : fire a t = some ⟨t, x.sma, (a.tm t).evt⟩ := by simp [fire, hx, hl]
        rw [List.filterMap_cons, hf]
        simp only [List.flatMap_cons, recsOf_append, block, hx, Option.map_some, Option.getD_some, hl, if_true]
        split <;> simp
      · have hf : fire a t = none := by simp [fire, hx, hl]
        rw [List.filterMap_cons, hf]; simp [hl]

/-- One call of the traced timers. -/
theorem trep_step {c : Cfg} {sig : Nat → Nat} {s : St} {a : S} (hr : Rep c s a) {op : Op} (hl : legalOp c.W a op)
    (hf : a.order.length < c.fuel) :
    ∃ s' items, tstep c sig s op = .ok (s', (Spec.step a op).2, items) ∧ Rep c s' (Spec.step a op).1 ∧
      itemPosts items = (match (Spec.step a op).2 with | .posts l => l | _ => []) ∧ Expected sig a op (recsOf items) ∧
      ∀ v : Host, Knows v a → ∃ v', v.readAll (recsOf items) = some v' ∧ Knows v' (Spec.step a op).1 := by
  obtain ⟨s', hs, hr'⟩ := rep_step hr hl hf
  have he := erase_step c sig s op
  rw [hs, Res.map'_eq_ok] at he
  obtain ⟨⟨s1, o, items⟩, ht, h2⟩ := he
  simp only [Prod.mk.injEq] at h2
  obtain ⟨e1, e2⟩ := h2
  subst e1 e2
  refine ⟨s1, items, ht, hr', ?_⟩
  cases op with
  | init t e =>
    obtain ⟨ht0, he0⟩ := hl
    simp only [tstep, Res.map'_eq_ok] at ht
    obtain ⟨⟨s2, l⟩, h1, h2⟩ := ht
    simp only [Prod.mk.injEq] at h2
    obtain ⟨e1, _, e3⟩ := h2
    subst e1 e3
    unfold tInit at h1
    rw [Res.bind'_eq_ok] at h1
    obtain ⟨_, _, h1⟩ := h1
    rw [Res.bind'_eq_ok] at h1
    obtain ⟨⟨s3, l3⟩, h3, h4⟩ := h1
    simp only [Res.ok.injEq, Prod.mk.injEq, put_same] at h4
    have hl3 : l3 = if running a t then [.trc (.rem t)] else [] := by
      have htm := hr.tm t
      split at h3
      · rw [search_items ht0 hr.chain hf h3]
        have := hr.mem t
        unfold running
        by_cases ho : t ∈ a.order
        · rw [if_pos ho, if_pos (this.mp ho)]
        · rw [if_neg ho, if_neg (fun h => ho (this.mpr h))]
      · rename_i hu
        simp only [Res.ok.injEq, Prod.mk.injEq] at h3
        rw [← h3.2]
        unfold running
        cases hx : (a.tm t).sched with
        | none => rfl
        | some x => unfold RepT at htm; rw [hx] at htm; exact absurd htm.2.2.1 hu
    have hrec : recsOf l = (if running a t then [.rem t] else []) ++ [.init t (sig e)] := by
      rw [← h4.2, recsOf_append, hl3]; split <;> rfl
    refine ⟨?_, hrec, ?_⟩
    · rw [← h4.2, itemPosts_append, hl3]; simp only [Spec.step]; split <;> rfl
    · intro v hv
      have hvt := hv t
      rw [hrec]
      cases hx : (a.tm t).sched with
      | none =>
        rw [hx] at hvt
        have hrun : running a t = false := by simp [running, hx]
        refine ⟨v, by simp [hrun, Host.readAll, Host.read, hvt], fun u => ?_⟩
        by_cases hu : u = t
        · subst hu; simp [Spec.step, set_same, hvt]
        · simp only [Spec.step, set_ne _ _ hu]; exact hv u
      | some x =>
        rw [hx] at hvt
        have hrun : running a t = true := by simp [running, hx]
        refine ⟨v.set t none, by simp [hrun, Host.readAll, Host.read, hvt, set_at], fun u => ?_⟩
        by_cases hu : u = t
        · subst hu; simp [Spec.step, set_same, set_at]
        · simp only [Spec.step, set_ne _ _ hu, set_off _ _ hu]; exact hv u
  | start t sma i p =>
    simp only [tstep, Res.map'_eq_ok] at ht
    obtain ⟨⟨s2, l⟩, h1, h2⟩ := ht
    simp only [Prod.mk.injEq] at h2
    obtain ⟨e1, _, e3⟩ := h2
    subst e1 e3
    unfold tStart at h1
    rw [Res.map'_eq_ok] at h1
    obtain ⟨s3, h3, h4⟩ := h1
    simp only [Prod.mk.injEq] at h4
    obtain ⟨e1, e2⟩ := h4
    have hper : (s3.heap t).period = p := by
      have := hr'.tm t
      rw [← e1] at this
      unfold RepT at this
      simp only [Spec.step, set_same] at this
      exact this.2.2.2.2.2.1
    have hrec : recsOf l = [.start t sma i p] := by rw [← e2, hper]; rfl
    refine ⟨by rw [← e2]; rfl, hrec, ?_⟩
    intro v hv
    rw [hrec]
    refine ⟨v.set t (some (sma, p)), rfl, fun u => ?_⟩
    by_cases hu : u = t
    · subst hu; simp [Spec.step, set_same, set_at]
    · simp only [Spec.step, set_ne _ _ hu, set_off _ _ hu]; exact hv u
  | stop t =>
    have hrd : (a.tm t).ready = true := hl
    have ht0 : t ≠ 0 := by rintro rfl; rw [hr.nz] at hrd; cases hrd
    have htm := hr.tm t
    simp only [tstep, Res.map'_eq_ok] at ht
    obtain ⟨⟨⟨s2, b⟩, l⟩, h1, h2⟩ := ht
    simp only [Prod.mk.injEq] at h2
    obtain ⟨e1, _, e3⟩ := h2
    subst e1 e3
    unfold tStop at h1
    rw [Res.bind'_eq_ok] at h1
    obtain ⟨_, _, h1⟩ := h1
    dsimp only at h1
    cases hx : (a.tm t).sched with
    | none =>
      unfold RepT at htm
      rw [hx] at htm
      have hz := (htm.2 hrd).2
      rw [if_neg (by simpa using hz)] at h1
      simp only [Res.ok.injEq, Prod.mk.injEq] at h1
      have hrec : recsOf l = [.stop t 0 (s.heap t).period] := by rw [← h1.2, hz]; rfl
      refine ⟨by rw [← h1.2]; rfl, by simp only [Expected, hx]; exact ⟨_, hrec⟩, ?_⟩
      intro v hv
      have hvt := hv t
      rw [hx] at hvt
      refine ⟨v, by rw [hrec]; simp [Host.readAll, Host.read, hvt], fun u => ?_⟩
      by_cases hu : u = t
      · subst hu; simp [Spec.step, set_same, hvt]
      · simp only [Spec.step, set_ne _ _ hu]; exact hv u
    | some x =>
      unfold RepT at htm
      rw [hx] at htm
      obtain ⟨_, _, _, _, k1, k2, k3, _⟩ := htm
      rw [if_pos (by rw [k1]; omega), Res.bind'_eq_ok] at h1
      obtain ⟨⟨s3, l3⟩, h3, h4⟩ := h1
      simp only [Res.ok.injEq, Prod.mk.injEq] at h4
      have hc' : Chain (s.put t { s.heap t with ntick := 0 }).heap (s.put t { s.heap t with ntick := 0 }).thead a.order :=
        hr.chain.congr fun u _ => by
          by_cases hu : u = t
          · subst hu; simp
          · rw [put_ne _ _ hu]
      have hl3 := search_items ht0 hc' hf h3
      rw [if_pos ((hr.mem t).mpr (by rw [hx]; rfl))] at hl3
      have hrec : recsOf l = [.stop t x.left x.per, .rem t] := by rw [← h4.2, hl3, k1, k2]; rfl
      refine ⟨by rw [← h4.2, hl3]; rfl, by simp only [Expected, hx]; exact hrec, ?_⟩
      intro v hv
      have hvt := hv t
      rw [hx] at hvt
      have hne : x.left ≠ 0 := by omega
      refine ⟨v.set t none, by rw [hrec]; simp [Host.readAll, Host.read, hvt, hne], fun u => ?_⟩
      by_cases hu : u = t
      · subst hu; simp [Spec.step, set_same, set_at]
      · simp only [Spec.step, set_ne _ _ hu, set_off _ _ hu]; exact hv u
  | tick =>
    simp only [tstep, Res.map'_eq_ok] at ht
    obtain ⟨⟨s2, l⟩, h1, h2⟩ := ht
    simp only [Prod.mk.injEq, Spec.step, Out.posts.injEq] at h2
    obtain ⟨e1, e2, e3⟩ := h2
    subst e1 e3
    have htk := tick_items (per := fun x => (s.heap x).period) c.fuel a.order s s2 0 s.thead l hr.chain hr.nodup
      (fun h => hr.chain.ne_zero 0 h rfl) (fun x hx => by
        have := hr.tm x
        unfold RepT at this
        have hs := (hr.mem x).mp hx
        cases hy : (a.tm x).sched with
        | none => rw [hy] at hs; cases hs
        | some y => rw [hy] at this; rw [this.2.2.1]; decide) (fun _ => rfl) h1
    have hblk : l = (a.order.filterMap (fire a)).flatMap (block sig fun t => ((a.tm t).sched.map Sched.per).getD 0) := by
      rw [htk, e2]
      simp only [List.flatMap]
      congr 1
      refine List.map_congr_left fun p hp => ?_
      rw [List.mem_filterMap] at hp
      obtain ⟨t, ht, hp⟩ := hp
      have : p.tmr = t := fire_tmr hp
      have htm := hr.tm t
      have hs := (hr.mem t).mp ht
      cases hy : (a.tm t).sched with
      | none => rw [hy] at hs; cases hs
      | some y =>
        unfold RepT at htm
        rw [hy] at htm
        simp only [block, this, hy, Option.map_some, Option.getD_some, htm.2.2.2.2.2.1]
    refine ⟨e2, by rw [hblk]; exact recs_blocks _, ?_⟩
    intro v hv
    obtain ⟨v', h1, h2, h3⟩ := read_expiries (sig := sig) a.order hr.nodup (fun t ht => (hr.mem t).mp ht) v fun t _ => hv t
    refine ⟨v', by rw [hblk]; exact h1, fun t => ?_⟩
    by_cases ho : t ∈ a.order
    · exact h3 t ho
    · rw [h2 t ho, hv t]
      have : (a.tm t).sched = none := by
        have := mt (hr.mem t).mpr ho
        simpa using this
      simp [Spec.step, tickT, this]

/-- Runs of the traced timers. -/
theorem trep_run {c : Cfg} : ∀ (h : List (Op × (Nat → Nat))) (s : St) (a : S) (v : Host), Rep c s a → Knows v a →
    Legal c.W a (h.map Prod.fst) → a.order.length + h.length < c.fuel →
    ∃ os s' v', runOps (fun s x => tstep c x.2 s x.1) s h = (os, .ok s') ∧ os.map Prod.fst = (Spec.run a (h.map Prod.fst)).1 ∧
      Rep c s' (Spec.run a (h.map Prod.fst)).2 ∧ v.readAll (records os) = some v' ∧ Knows v' (Spec.run a (h.map Prod.fst)).2 := by
  intro h
  induction h with
  | nil => intro s a v hr hv _ _; exact ⟨[], s, v, rfl, rfl, hr, rfl, hv⟩
  | cons x h ih =>
    intro s a v hr hv hl hf
    obtain ⟨op, sig⟩ := x
    simp only [List.map_cons, Legal, List.length_cons] at hl hf
    obtain ⟨s1, items, h1, h2, _, _, h5⟩ := trep_step (sig := sig) hr hl.1 (by omega)
    obtain ⟨v1, g1, g2⟩ := h5 v hv
    have ho := order_length_step a op
    obtain ⟨os, s', v', k1, k2, k3, k4, k5⟩ := ih s1 _ v1 h2 g2 hl.2 (by omega)
    refine ⟨((Spec.step a op).2, items) :: os, s', v', by simp only [runOps, h1, k1], by simp [Spec.run, k2], by simpa [Spec.run] using k3, ?_,
      by simpa [Spec.run] using k5⟩
    simp only [records, List.flatMap_cons, readAll_append, g1, Option.bind_some]
    exact k4

variable {c : Cfg} {heap : Nat → Tmr} {h : List (Op × (Nat → Nat))} {os : List (Out × List Item)} {s : St}

/-- Tracing changes nothing, and no legal history of timer calls fails: the traced timers return and post what the timers
without tracing do. -/
theorem timers_traced (hl : Legal c.W start0 (h.map Prod.fst)) (hf : h.length < c.fuel) :
    ∃ os s, TRun c heap h os s ∧ runOps (step c) (moduleInit heap) (h.map Prod.fst) = (os.map Prod.fst, .ok s) := by
  obtain ⟨os, s, _, h1, h2, _⟩ := trep_run h _ _ (fun _ => none) (rep_start0 c heap) (fun _ => rfl) hl (by simpa [start0] using hf)
  refine ⟨os, s, ⟨hl, hf, h1⟩, ?_⟩
  have key : ∀ (h : List (Op × (Nat → Nat))) (s s' : St) (os : List (Out × List Item)),
      runOps (fun s x => tstep c x.2 s x.1) s h = (os, .ok s') → runOps (step c) s (h.map Prod.fst) = (os.map Prod.fst, .ok s') := by
    intro h
    induction h with
    | nil => intro s s' os hr; simp only [runOps, Prod.mk.injEq] at hr; rw [← hr.1]; simp [runOps, hr.2]
    | cons x h ih =>
      intro s s' os hr
      simp only [runOps] at hr
      have he := erase_step c x.2 s x.1
      rcases hx : tstep c x.2 s x.1 with ⟨s1, o, i⟩ | _ | _ <;> rw [hx] at hr he <;> simp only [Prod.mk.injEq, reduceCtorEq, and_false] at hr
      simp only [List.map_cons, runOps, ← he, Res.map']
      have := ih s1 s' _ (Prod.ext rfl hr.2)
      rw [this, ← hr.1]
      rfl
  exact key _ _ _ _ h1

theorem TRun.facts (r : TRun c heap h os s) : Rep c s (after h) ∧ os.map Prod.fst = (Spec.run start0 (h.map Prod.fst)).1 ∧
    ∃ v, Host.readAll (fun _ => none) (records os) = some v ∧ Knows v (after h) := by
  obtain ⟨os', s', v, h1, h2, h3, h4, h5⟩ := trep_run h _ _ (fun _ => none) (rep_start0 c heap) (fun _ => rfl) r.legal
    (by simpa [start0] using r.fuel)
  rw [r.run] at h1
  simp only [Prod.mk.injEq, Res.ok.injEq] at h1
  obtain ⟨rfl, rfl⟩ := h1
  exact ⟨h3, h2, v, h4, h5⟩

/-- **C105.** A host that reads the trace is never contradicted and knows at any time which timers are running, to which
active object each will post, and whether and with which period it will start over. -/
theorem host_knows_the_timers (r : TRun c heap h os s) :
    ∃ v, Host.readAll (fun _ => none) (records os) = some v ∧ ∀ t, v t = ((after h).tm t).sched.map fun x => (x.sma, x.per) :=
  let ⟨_, _, v, h1, h2⟩ := r.facts
  ⟨v, h1, h2⟩

theorem Expected.tick {sig : Nat → Nat} {a : S} {l : List TRec} (hi : ∀ t ∈ a.order, (a.tm t).sched.isSome)
    (h : Expected sig a .tick l) :
    l.filterMap (fun r => match r with | .tout t g o => some (t, g, o) | _ => none) =
      (a.order.filterMap (fire a)).map (fun p => (p.tmr, sig p.evt, p.sma)) := by
  have h : l = _ := h
  rw [h]
  clear h
  generalize a.order = L at hi
  induction L with
  | nil => rfl
  | cons t L ih =>
    have := ih fun u hu => hi u (by simp [hu])
    rw [List.flatMap_cons, List.filterMap_append, this, List.filterMap_cons]
    cases hx : (a.tm t).sched with
    | none => have := hi t (by simp); rw [hx] at this; cases this
    | some x =>
      by_cases hl : x.left = 1
      · have hf : fire a t = some ⟨t, x.sma, (a.tm t).evt⟩ := by simp [fire, hx, hl]
        rw [hf]
        simp only [hl, if_true]
        split <;> rfl
      · have hf : fire a t = none := by simp [fire, hx, hl]
        rw [hf]
        simp [hl]

/-- **C105.** Every call leaves the records one expects: a start shows its arguments; stopping a timer shows the ticks it had left
(none if it was not running) and its period, followed by its removal if it was running; initialising a running timer removes it
first; a tick reports exactly the timers that expire, in the order in which their events are posted, each with the signal
posted and its receiver, and the removal of the one-shot timers among them. -/
theorem timer_records {op : Op} {sig : Nat → Nat} {o : Out} {items : List Item} {s' : St} (r : TRun c heap h os s)
    (hl : legalOp c.W (after h) op) (hf : h.length + 1 < c.fuel) (hs : tstep c sig s op = .ok (s', o, items)) :
    Expected sig (after h) op (recsOf items) ∧
    (op = .tick → ∃ posts, o = .posts posts ∧ itemPosts items = posts ∧
      (recsOf items).filterMap (fun r => match r with | .tout t g ao => some (t, g, ao) | _ => none) =
        posts.map fun p => (p.tmr, sig p.evt, p.sma)) := by
  obtain ⟨hr, _⟩ := r.facts
  have hlen : (after h).order.length ≤ h.length := by
    have : ∀ (l : List Op) (a : S), (Spec.run a l).2.order.length ≤ a.order.length + l.length := by
      intro l
      induction l with
      | nil => intro a; simp [Spec.run]
      | cons x l ih =>
        intro a
        have h1 := ih (Spec.step a x).1
        have h2 := order_length_step a x
        simp only [Spec.run, List.length_cons]
        omega
    have := this (h.map Prod.fst) start0
    simpa [start0, after] using this
  obtain ⟨s1, i1, h1, _, h3, h4, _⟩ := trep_step (sig := sig) hr hl (by omega)
  rw [h1] at hs
  simp only [Res.ok.injEq, Prod.mk.injEq] at hs
  obtain ⟨_, e2, e3⟩ := hs
  subst e2 e3
  refine ⟨h4, ?_⟩
  rintro rfl
  refine ⟨_, rfl, h3, ?_⟩
  exact h4.tick fun t ht => (hr.mem t).mp ht

/-! ### A concrete history -/

namespace TraceDemo

def cfg : Cfg := ⟨256, true, 100⟩
def mem : Nat → Tmr := fun _ => ⟨9, 9, 9, 9, 9, 1⟩
def sig : Nat → Nat := fun e => 100 + e
/-- Two timers with garbage in their structures; one is restarted, one expires, one is stopped, one is initialised again. -/
def h1 : List (Op × (Nat → Nat)) :=
  [.init 1 7, .init 2 8, .start 1 5 2 0, .start 2 6 1 3, .tick, .tick, .stop 1, .start 1 5 9 0, .stop 2, .start 2 6 4 4, .init 1 7].map (·, sig)

def legalB (W : Nat) : S → List Op → Bool
  | _, [] => true
  | a, op :: ops => (match op with
    | .init t e => t != 0 && e != 0
    | .start t sma i p => (a.tm t).ready && sma != 0 && 0 < i && i < W && p < W
    | .stop t => (a.tm t).ready
    | .tick => true) && legalB W (Spec.step a op).1 ops

theorem legalB_ok {W : Nat} : ∀ {ops : List Op} {a : S}, legalB W a ops = true → Legal W a ops
  | [], _, _ => trivial
  | op :: ops, a, h => by
    simp only [legalB, Bool.and_eq_true] at h
    refine ⟨?_, legalB_ok h.2⟩
    cases op <;> simp_all [legalOp]

theorem run1 : ∃ os s, TRun cfg mem h1 os s :=
  let ⟨os, s, h, _⟩ := timers_traced (c := cfg) (heap := mem) (h := h1) (legalB_ok (by decide +kernel)) (by decide)
  ⟨os, s, h⟩

-- the records of the history
example : records (runOps (fun s x => tstep cfg x.2 s x.1) (moduleInit mem) h1).1 =
    [.init 1 107, .init 2 108, .start 1 5 2 0, .start 2 6 1 3, .tout 2 108 6, .tout 1 107 5, .rem 1, .stop 1 0 0,
     .start 1 5 9 0, .stop 2 2 3, .rem 2, .start 2 6 4 4, .rem 1, .init 1 107] := by decide +kernel

-- host_knows_the_timers: timer 2 is running, timer 1 is not
example : ∃ os s v, TRun cfg mem h1 os s ∧ Host.readAll (fun _ => none) (records os) = some v ∧ v 2 = some (6, 4) ∧ v 1 = none :=
  let ⟨os, s, r⟩ := run1
  let ⟨v, h1, h2⟩ := host_knows_the_timers r
  ⟨os, s, v, r, h1, by rw [h2]; decide +kernel, by rw [h2]; decide +kernel⟩

-- timer_records: a tick at which both timers expire
example : ∃ os s s' o items, TRun cfg mem (h1.take 4 ++ [(.start 1 5 1 0, sig)]) os s ∧ tstep cfg sig s .tick = .ok (s', o, items) ∧
    recsOf items = [.tout 2 108 6, .tout 1 107 5, .rem 1] := by
  obtain ⟨os, s, h, _⟩ := timers_traced (c := cfg) (heap := mem) (h := h1.take 4 ++ [(.start 1 5 1 0, sig)])
    (legalB_ok (by decide +kernel)) (by decide)
  obtain ⟨hr, _⟩ := h.facts
  have hl : legalOp cfg.W (after (h1.take 4 ++ [(.start 1 5 1 0, sig)])) .tick := trivial
  obtain ⟨s1, i1, k1, _, _, k4, _⟩ := trep_step (sig := sig) hr hl (by decide +kernel)
  refine ⟨os, s, s1, _, i1, h, k1, ?_⟩
  have := k4
  simp only [Expected] at this
  rw [this]
  decide +kernel

end TraceDemo

end Verif.Timer
