import Verif.Timer.HooksSpec
import Verif.Timer.Lemmas
/-
Simulation of ticks whose hooks make safe timer calls.
-/
namespace Verif.Timer
open Verif Spec

theorem nodup_length_lt : ∀ (n : Nat) (l : List Nat), l.Nodup → (∀ x ∈ l, 0 < x ∧ x < n) → 0 < n → l.length < n := by
  intro n
  induction n with
  | zero => intro l _ _ h; omega
  | succ n ih =>
    intro l hnd hb _
    by_cases hn : n = 0
    · subst hn
      cases l with
      | nil => simp
      | cons x l => have := hb x (by simp); omega
    · have h1 := ih (l.erase n) (hnd.erase n) (by
        intro x hx
        rw [hnd.mem_erase_iff] at hx
        have := hb x hx.2
        omega) (by omega)
      have h2 : l.length ≤ (l.erase n).length + 1 := by
        rw [List.length_erase]; split <;> omega
      omega

/-- Timers in use have addresses below the loop bound. -/
def Bd (c : Cfg) (a : S) : Prop := 0 < c.fuel ∧ ∀ t, (a.tm t).ready = true → t < c.fuel

theorem Rep.ready {c : Cfg} {s : St} {a : S} (hr : Rep c s a) {t : Nat} {v : Sched} (h : (a.tm t).sched = some v) :
    (a.tm t).ready = true ∧ (s.heap t).used = 1 ∧ (s.heap t).sma = v.sma ∧ (s.heap t).ntick = v.left ∧ (s.heap t).period = v.per ∧
      0 < v.left ∧ v.left < c.W ∧ v.per < c.W := by
  have := (hr.tm t).2
  rw [h] at this
  exact this

theorem Rep.short {c : Cfg} {s : St} {a : S} (hr : Rep c s a) (hb : Bd c a) : a.order.length < c.fuel := by
  refine nodup_length_lt _ _ hr.nodup (fun x hx => ?_) hb.1
  have h1 := (hr.mem x).mp hx
  cases hs : (a.tm x).sched with
  | none => rw [hs] at h1; cases h1
  | some v =>
    have h2 := hr.ready hs
    refine ⟨?_, hb.2 x h2.1⟩
    have : x ≠ 0 := by rintro rfl; rw [hr.nz] at h2; cases h2.1
    omega

/-- A change of the schedule of one running timer that goes on running. -/
theorem rep_resched {c : Cfg} {s : St} {a : S} (hr : Rep c s a) {t : Nat} {v w : Sched} (hv : (a.tm t).sched = some v)
    {h : Tmr} (hn : h.tnext = (s.heap t).tnext) (hT : RepT c.W h { a.tm t with sched := some w }) :
    Rep c (s.put t h) { a with tm := set a t { a.tm t with sched := some w } } := by
  have ht : t ≠ 0 := by rintro rfl; have := (hr.ready hv).1; rw [hr.nz] at this; cases this
  refine { chain := ?_, nodup := hr.nodup, mem := ?_, tm := ?_, nz := ?_ }
  · refine hr.chain.congr fun x _ => ?_
    by_cases hx : x = t
    · subst hx; rw [put_same, hn]
    · rw [put_ne _ _ hx]
  · intro x
    by_cases hx : x = t
    · subst hx; simp only [set_same, Option.isSome_some, iff_true]; rw [hr.mem, hv]; rfl
    · simp only [set_ne _ _ hx]; exact hr.mem x
  · intro x
    by_cases hx : x = t
    · subst hx; simp only [set_same, put_same]; exact hT
    · simp only [set_ne _ _ hx, put_ne _ _ hx]; exact hr.tm x
  · simp only [set_ne _ _ ht.symm]; exact hr.nz

theorem chain_tail {h : Nat → Tmr} {t : Nat} {rest : List Nat} : ∀ (d : List Nat) (q : Nat), Chain h q (d ++ t :: rest) → Chain h (h t).tnext rest := by
  intro d
  induction d with
  | nil => intro q hq; exact hq.2.2
  | cons y d ih => intro q hq; exact ih _ hq.2.2

theorem chain_hd {h : Nat → Tmr} {q : Nat} {rest : List Nat} (hq : Chain h q rest) : q = hd rest := by
  cases rest with
  | nil => exact hq
  | cons y r => exact hq.1

/-- What calls do not change about a timer. -/
theorem call_evt (x : Mid) (k : Call) (t : Nat) : ((call x k).a.tm t).ready = (x.a.tm t).ready ∧ ((call x k).a.tm t).evt = (x.a.tm t).evt := by
  cases k with
  | start u sma i p =>
    simp only [call, Spec.step]
    by_cases hx : t = u
    · subst hx; simp [set_same]
    · simp [set_ne _ _ hx]
  | stop u =>
    simp only [call, Spec.step]
    by_cases hx : t = u
    · subst hx; simp [set_same]
    · simp [set_ne _ _ hx]

theorem bd_call {c : Cfg} {x : Mid} (hb : Bd c x.a) (k : Call) : Bd c (call x k).a :=
  ⟨hb.1, fun t h => hb.2 t (by rw [(call_evt x k t).1] at h; exact h)⟩

theorem foldl_call_evt (l : List Call) : ∀ (x : Mid) (t : Nat), ((l.foldl call x).a.tm t).ready = (x.a.tm t).ready ∧ ((l.foldl call x).a.tm t).evt = (x.a.tm t).evt := by
  induction l with
  | nil => intro x t; exact ⟨rfl, rfl⟩
  | cons k l ih =>
    intro x t
    have h1 := ih (call x k) t
    have h2 := call_evt x k t
    exact ⟨h1.1.trans h2.1, h1.2.trans h2.2⟩

theorem bd_foldl {c : Cfg} (l : List Call) {x : Mid} (hb : Bd c x.a) : Bd c (l.foldl call x).a :=
  ⟨hb.1, fun t h => hb.2 t (by rw [(foldl_call_evt l x t).1] at h; exact h)⟩

/-- Timers still to be visited: those not stopped in this tick. -/
def left (x : Mid) (ts : List Nat) : List Nat := ts.filter fun u => decide (u ∉ x.gone)

theorem left_cons_gone (x : Mid) (u : Nat) (a : S) (ts : List Nat) (hnd : (left x ts).Nodup) :
    left { a := a, gone := u :: x.gone } ts = (left x ts).erase u := by
  unfold left at hnd ⊢
  rw [hnd.erase_eq_filter, List.filter_filter]
  refine List.filter_congr fun y _ => ?_
  simp only [List.mem_cons, not_or]
  by_cases h : y = u <;> simp [h]

/-- The hook of a periodic timer `t`. -/
theorem calls_periodic {c : Cfg} {t per : Nat} (hper : per ≠ 0) (ts : List Nat) : ∀ (l : List Call) (x : Mid) (s : St) (d : List Nat),
    Rep c s x.a → Bd c x.a → x.a.order = d ++ [t] ++ left x ts → SafeCalls c.W t per x l →
    ∃ s' d', runCalls c s l = .ok s' ∧ Rep c s' (l.foldl call x).a ∧ (l.foldl call x).a.order = d' ++ [t] ++ left (l.foldl call x) ts := by
  intro l
  induction l with
  | nil => intro x s d hr _ ho _; exact ⟨s, d, rfl, hr, ho⟩
  | cons k l ih =>
    intro x s d hr hb ho hs
    obtain ⟨hk, hs⟩ := hs
    have hnd := hr.nodup
    rw [ho, List.append_assoc] at hnd
    have hnd' := List.nodup_append.mp hnd
    cases k with
    | start u sma i p =>
      obtain ⟨s1, h1, h2⟩ := rep_start hr hk.1
      simp only [runCalls, h1, Res.bind'_ok, List.foldl_cons]
      by_cases hrun : running x.a u = true
      · refine ih _ s1 d h2 (bd_call hb _) ?_ hs
        simp only [call, Spec.step, hrun, if_true]; exact ho
      · refine ih _ s1 (u :: d) h2 (bd_call hb _) ?_ hs
        simp only [call, Spec.step, hrun, Bool.false_eq_true, if_false, ho]; rfl
    | stop u =>
      have hut : u ≠ t := by have := hk.2; rw [if_neg hper] at this; exact this
      obtain ⟨s1, h1, h2⟩ := rep_stop hr hk.1 (hr.short hb)
      simp only [runCalls, h1, Res.bind'_ok, List.foldl_cons]
      have hl := left_cons_gone x u (Spec.step x.a (.stop u)).1 ts (List.nodup_cons.mp hnd'.2.1).2
      refine ih (call x (.stop u)) s1 (d.erase u) h2 (bd_call hb (.stop u)) ?_ hs
      show x.a.order.erase u = _
      simp only [call]
      rw [hl, ho, List.append_assoc, List.append_assoc]
      by_cases hm : u ∈ d
      · rw [List.erase_append_left _ hm]
        have : u ∉ left x ts := fun h => hnd'.2.2 u hm u (by simp [h]) rfl
        rw [List.erase_of_not_mem this]
      · rw [List.erase_append_right _ hm, List.erase_of_not_mem hm, List.singleton_append, List.erase_cons_tail (by simpa using Ne.symm hut)]
        rfl

/-- The hook of a one-shot timer `t` (which is not running any more). -/
theorem calls_oneshot {c : Cfg} {t : Nat} (ts : List Nat) : ∀ (l : List Call) (x : Mid) (s : St),
    Rep c s x.a → Bd c x.a → (x.a.tm t).sched = none → SafeCalls c.W t 0 x l →
    ∃ s', runCalls c s l = .ok s' ∧ Rep c s' (l.foldl call x).a ∧ (l.foldl call x).a.order = x.a.order ∧
      (∀ d, x.a.order = d ++ left x ts → left (l.foldl call x) ts = left x ts) ∧ s'.heap t = s.heap t ∧ ((l.foldl call x).a.tm t).sched = none := by
  intro l
  induction l with
  | nil => intro x s hr _ ht _; exact ⟨s, rfl, hr, rfl, fun _ _ => rfl, rfl, ht⟩
  | cons k l ih =>
    intro x s hr hb ht hs
    obtain ⟨hk, hs⟩ := hs
    cases k with
    | start u sma i p =>
      obtain ⟨s1, h1, h2⟩ := rep_start hr hk.1
      have hrun := hk.2 rfl
      have hut : t ≠ u := by rintro rfl; simp [running, ht] at hrun
      have ho : (call x (.start u sma i p)).a.order = x.a.order := by simp only [call, Spec.step, hrun, if_true]
      have hst : s1.heap t = s.heap t := by
        have hu : (s.heap u).used = 1 := by
          cases hsu : (x.a.tm u).sched with
          | none => simp [running, hsu] at hrun
          | some v => exact (hr.ready hsu).2.1
        have := h1
        simp only [start, put_same, hu] at this
        cases hA : assertIf c.assertEn (decide (u ≠ 0 ∧ sma ≠ 0 ∧ i ≠ 0)) with
        | ok z =>
          rw [hA] at this
          simp at this
          rw [← this, put_ne _ _ hut]
        | assert => rw [hA] at this; cases this
        | ub => rw [hA] at this; cases this
      obtain ⟨s2, g1, g2, g3, g4, g5, g6⟩ := ih _ s1 h2 (bd_call hb _) (by simp only [call, Spec.step, set_ne _ _ hut]; exact ht) hs
      simp only [runCalls, h1, Res.bind'_ok, List.foldl_cons]
      exact ⟨s2, g1, g2, g3.trans ho, fun d hd => g4 d (ho.trans hd), g5.trans hst, g6⟩
    | stop u =>
      have hrun : running x.a u = false := by have := hk.2; rw [if_pos rfl] at this; exact this
      obtain ⟨s1, h1, h2⟩ := rep_stop hr hk.1 (hr.short hb)
      have hnone : (x.a.tm u).sched = none := by
        cases hsu : (x.a.tm u).sched with
        | none => rfl
        | some v => simp [running, hsu] at hrun
      have hnm : u ∉ x.a.order := by rw [hr.mem, hnone]; simp
      have hs1 : s1 = s := by
        have hn : (s.heap u).ntick = 0 := by have := (hr.tm u).2; rw [hnone] at this; exact (this hk.1).2
        have := h1
        simp only [stop, hn] at this
        cases hA : assertIf c.assertEn (decide (u ≠ 0)) with
        | ok z =>
          rw [hA] at this
          simp at this
          exact this.1.symm
        | assert => rw [hA] at this; cases this
        | ub => rw [hA] at this; cases this
      have ho : (call x (.stop u)).a.order = x.a.order := by simp only [call, Spec.step]; exact List.erase_of_not_mem hnm
      have hl : ∀ d, x.a.order = d ++ left x ts → left (call x (.stop u)) ts = left x ts := by
        intro d hd
        have hnd := hr.nodup
        rw [hd] at hnd
        simp only [call]
        rw [left_cons_gone _ _ _ _ (List.nodup_append.mp hnd).2.1, List.erase_of_not_mem]
        intro h; exact hnm (by rw [hd]; simp [h])
      obtain ⟨s2, g1, g2, g3, g4, g5, g6⟩ := ih _ s1 h2 (bd_call hb _) (by
        simp only [call, Spec.step]
        by_cases hut : t = u
        · subst hut; simp [set_same]
        · rw [set_ne _ _ hut]; exact ht) hs
      simp only [runCalls, h1, Res.bind'_ok, List.foldl_cons]
      exact ⟨s2, g1, g2, g3.trans ho, fun d hd => (g4 d (by rw [ho, hl d hd]; exact hd)).trans (hl d hd), by rw [g5, hs1], g6⟩

theorem rep_expire_oneshot {c : Cfg} {s s2 : St} {a : S} (hr : Rep c s a) {t : Nat} {v : Sched} (hv : (a.tm t).sched = some v) (hp : v.per = 0)
    {L : List Nat} (hL : a.order.erase t = L) (hc : Chain s2.heap s2.thead L)
    (h1 : ∀ x, x ≠ t → ∃ n, s2.heap x = { s.heap x with tnext := n }) (h2 : s2.heap t = { s.heap t with ntick := 0, used := 0 }) :
    Rep c s2 (expire a t v) := by
  have ht : t ≠ 0 := by rintro rfl; have := (hr.ready hv).1; rw [hr.nz] at this; cases this
  simp only [expire, hp, if_true]
  refine { chain := by rw [hL]; exact hc, nodup := hr.nodup.erase t, mem := ?_, tm := ?_, nz := ?_ }
  · intro x
    simp only [hr.nodup.mem_erase_iff, hr.mem]
    by_cases hx : x = t
    · subst hx; simp [set_same]
    · simp [set_ne _ _ hx, hx]
  · intro x
    by_cases hx : x = t
    · subst hx
      simp only [set_same, h2]
      exact ⟨(hr.tm x).1, fun _ => ⟨rfl, rfl⟩⟩
    · obtain ⟨n, hn⟩ := h1 x hx
      simp only [set_ne _ _ hx, hn]
      exact (hr.tm x).next n
  · simp only [set_ne _ _ ht.symm]; exact hr.nz

/-- The tick loop with hooks; `d` are the timers in front of those still to be visited. -/
theorem tickLoop_hooks {c : Cfg} {hook : Nat → List Call} : ∀ (ts d : List Nat) (x : Mid) (s : St) (fuel p : Nat), ts.length < fuel →
    Rep c s x.a → Bd c x.a → x.a.order = d ++ left x ts → p = hd (left x ts) → SafeTurns c.W hook x ts →
    ∃ s', tickLoop c hook fuel s (prevOf d) p = .ok (s', (turns hook x ts).2) ∧ Rep c s' (turns hook x ts).1.a ∧ Bd c (turns hook x ts).1.a := by
  intro ts
  induction ts with
  | nil =>
    intro d x s fuel p hf hr hb _ hp _
    obtain ⟨fuel, rfl⟩ : ∃ f, fuel = f + 1 := ⟨fuel - 1, by simp at hf; omega⟩
    simp only [left, List.filter_nil, hd] at hp
    subst hp
    exact ⟨s, by simp [tickLoop, turns], hr, hb⟩
  | cons t ts ih =>
    intro d x s fuel p hf hr hb ho hp hs
    obtain ⟨hs1, hs2⟩ := hs
    simp only [List.length_cons] at hf
    by_cases hg : t ∈ x.gone
    · have hl : left x (t :: ts) = left x ts := by simp [left, List.filter_cons, hg]
      rw [hl] at ho hp
      have ht : turn hook x t = (x, []) := by simp [turn, hg]
      simp only [turns]
      rw [ht] at hs2 ⊢
      simp only [List.nil_append]
      exact ih d x s fuel p (by omega) hr hb ho hp hs2
    have hl : left x (t :: ts) = t :: left x ts := by simp [left, List.filter_cons, hg]
    rw [hl] at ho hp
    simp only [hd] at hp
    subst hp
    obtain ⟨fuel, rfl⟩ : ∃ f, fuel = f + 1 := ⟨fuel - 1, by omega⟩
    have hm : p ∈ x.a.order := by rw [ho]; simp
    obtain ⟨v, hv⟩ : ∃ v, (x.a.tm p).sched = some v := by
      have := (hr.mem p).mp hm
      cases h : (x.a.tm p).sched with
      | none => rw [h] at this; cases this
      | some v => exact ⟨v, rfl⟩
    obtain ⟨hrd, hu, hsma, hnt, hper, h0, hW, hpW⟩ := hr.ready hv
    have hevt := (hr.tm p).1 hrd
    have ht0 : p ≠ 0 := by rintro rfl; rw [hr.nz] at hrd; cases hrd
    have hchain := hr.chain
    rw [ho] at hchain
    have hnd := hr.nodup
    rw [ho] at hnd
    have hdec : (v.left + (c.W - 1)) % c.W = v.left - 1 := by
      rw [show v.left + (c.W - 1) = v.left - 1 + c.W by omega, Nat.add_mod_right, Nat.mod_eq_of_lt (by omega)]
    have hunf : tickLoop c hook (fuel + 1) s (prevOf d) p =
        (if v.left - 1 = 0 then
          (if v.per = 0 then (remFromList (s.put p { s.heap p with ntick := v.left - 1 }) p (prevOf d)).bind fun s => .ok (s, prevOf d)
           else .ok ((s.put p { s.heap p with ntick := v.left - 1 }).put p
              { s.heap p with ntick := v.per }, p)).bind fun (s, tprev) =>
          (runCalls c s (hook p)).bind fun s =>
          (tickLoop c hook fuel s tprev (s.heap p).tnext).bind fun (s', posts) =>
            .ok (s', { tmr := p, sma := (s.heap p).sma, evt := (s.heap p).evt } :: posts)
        else tickLoop c hook fuel (s.put p { s.heap p with ntick := v.left - 1 }) p (s.heap p).tnext) := by
      simp [tickLoop, ht0, hu, hnt, hdec, hper]
    rw [hunf]
    by_cases h1 : v.left = 1
    · rw [if_pos (by omega)]
      have hsafe := hs1 hg v hv h1
      have hturn : turn hook x p = ((hook p).foldl call { x with a := expire x.a p v },
          [⟨p, ((((hook p).foldl call { x with a := expire x.a p v }).a.tm p).sched.map (·.sma)).getD v.sma, (x.a.tm p).evt⟩]) := by
        simp [turn, hg, hv, h1]
      simp only [turns]
      rw [hturn] at hs2 ⊢
      have hbe : Bd c (expire x.a p v) := by
        refine ⟨hb.1, fun t h => hb.2 t ?_⟩
        unfold expire at h
        split at h
        · by_cases hx : t = p
          · subst hx; exact hrd
          · simpa [set_ne _ _ hx] using h
        · by_cases hx : t = p
          · subst hx; exact hrd
          · simpa [set_ne _ _ hx] using h
      by_cases hp0 : v.per = 0
      · rw [if_pos hp0]
        have hs1c : Chain (s.put p { s.heap p with ntick := v.left - 1 }).heap
            (s.put p { s.heap p with ntick := v.left - 1 }).thead (d ++ p :: left x ts) := by
          refine Chain.congr hchain fun y _ => ?_
          by_cases hy : y = p
          · subst hy; simp
          · rw [put_ne _ _ hy]
        obtain ⟨s2, e1, e2, e3, e4, e5, e6⟩ := remFromList_ok hs1c hnd
        rw [e1]
        simp only [Res.bind'_ok]
        rw [put_same] at e6
        have hpd : p ∉ d := fun h => (List.nodup_append.mp hnd).2.2 p h p (by simp) rfl
        have hr2 : Rep c s2 (expire x.a p v) := by
          refine rep_expire_oneshot hr hv hp0 (L := d ++ left x ts) ?_ e2 (fun y hy => ?_) ?_
          · rw [ho, List.erase_append_right _ hpd, List.erase_cons_head]
          · obtain ⟨n, hn⟩ := e5 y hy
            exact ⟨n, by rw [hn, put_ne _ _ hy]⟩
          · rw [e6, h1]
        have hnone : ((expire x.a p v).tm p).sched = none := by simp [expire, hp0, set_same]
        have hoe : (expire x.a p v).order = d ++ left { x with a := expire x.a p v } ts := by
          show (expire x.a p v).order = d ++ left x ts
          simp only [expire, hp0, if_true]
          rw [ho, List.erase_append_right _ hpd, List.erase_cons_head]
        obtain ⟨s3, g1, g2, g3, g4, g5, g6⟩ := calls_oneshot ts (hook p) { x with a := expire x.a p v } s2 hr2 hbe hnone (by rw [hp0] at hsafe; exact hsafe)
        rw [g1]
        simp only [Res.bind'_ok]
        have hg4 := g4 d hoe
        obtain ⟨s4, k1, k2, k3⟩ := ih d _ s3 fuel (s3.heap p).tnext (by omega) g2 (bd_foldl _ hbe) (by rw [g3, hg4]; exact hoe)
          (by rw [g5, hg4]; exact chain_hd e4) hs2
        refine ⟨s4, ?_, k2, k3⟩
        rw [k1]
        simp only [Res.bind'_ok, g5, e6, g6, hsma, hevt, Option.map_none, Option.getD_none]
        rfl
      · rw [if_neg hp0]
        simp only [Res.bind'_ok]
        have hpp : (s.put p { s.heap p with ntick := v.left - 1 }).put p { s.heap p with ntick := v.per } = s.put p { s.heap p with ntick := v.per } := by
          simp only [St.put]
          congr 1
          funext y
          by_cases hy : y = p <;> simp [hy]
        rw [hpp]
        have hr2 : Rep c (s.put p { s.heap p with ntick := v.per }) (expire x.a p v) := by
          simp only [expire, hp0, if_false]
          refine rep_resched hr hv rfl ?_
          exact ⟨(hr.tm p).1, hrd, hu, hsma, rfl, hper, by show 0 < v.per; omega, hpW, hpW⟩
        have hoe : (expire x.a p v).order = d ++ [p] ++ left { x with a := expire x.a p v } ts := by
          show (expire x.a p v).order = d ++ [p] ++ left x ts
          simp only [expire, hp0, if_false]
          rw [ho]; simp
        obtain ⟨s3, d', g1, g2, g3⟩ := calls_periodic hp0 ts (hook p) { x with a := expire x.a p v } _ d hr2 hbe hoe hsafe
        rw [g1]
        simp only [Res.bind'_ok]
        have hch : Chain s3.heap (s3.heap p).tnext (left ((hook p).foldl call { x with a := expire x.a p v }) ts) := by
          have := g2.chain
          rw [g3, List.append_assoc] at this
          exact chain_tail _ _ this
        have := ih (d' ++ [p]) _ s3 fuel (s3.heap p).tnext (by omega) g2 (bd_foldl _ hbe) g3 (chain_hd hch) hs2
        rw [prevOf_snoc] at this
        obtain ⟨s4, k1, k2, k3⟩ := this
        refine ⟨s4, ?_, k2, k3⟩
        rw [k1]
        have hm' : p ∈ ((hook p).foldl call { x with a := expire x.a p v }).a.order := by rw [g3]; simp
        obtain ⟨w, hw⟩ : ∃ w, (((hook p).foldl call { x with a := expire x.a p v }).a.tm p).sched = some w := by
          have := (g2.mem p).mp hm'
          cases h : (((hook p).foldl call { x with a := expire x.a p v }).a.tm p).sched with
          | none => rw [h] at this; cases this
          | some v => exact ⟨v, rfl⟩
        have hev := foldl_call_evt (hook p) { x with a := expire x.a p v } p
        have hev2 : ((expire x.a p v).tm p).evt = (x.a.tm p).evt := by simp [expire, hp0, set_same]
        have hw2 := g2.ready hw
        have hw3 := (g2.tm p).1 hw2.1
        simp only [Res.bind'_ok, hw, hw2.2.2.1, hw3, hev.2, hev2, Option.map_some, Option.getD_some]
        rfl
    · rw [if_neg (by omega)]
      have hturn : turn hook x p = ({ x with a := { x.a with tm := set x.a p { x.a.tm p with sched := some { v with left := v.left - 1 } } } }, []) := by
        simp [turn, hg, hv, h1]
      simp only [turns]
      rw [hturn] at hs2 ⊢
      have hr2 : Rep c (s.put p { s.heap p with ntick := v.left - 1 }) { x.a with tm := set x.a p { x.a.tm p with sched := some { v with left := v.left - 1 } } } := by
        refine rep_resched hr hv rfl ?_
        exact ⟨(hr.tm p).1, hrd, hu, hsma, rfl, hper, by show 0 < v.left - 1; omega, by show v.left - 1 < c.W; omega, hpW⟩
      have := ih (d ++ [p]) { x with a := { x.a with tm := set x.a p { x.a.tm p with sched := some { v with left := v.left - 1 } } } }
        (s.put p { s.heap p with ntick := v.left - 1 }) fuel (s.heap p).tnext (by omega) hr2 (by
          refine ⟨hb.1, fun t h => hb.2 t ?_⟩
          by_cases hx : t = p
          · subst hx; exact hrd
          · simpa [set_ne _ _ hx] using h) (by show x.a.order = d ++ [p] ++ left x ts; rw [ho]; simp)
        (chain_hd (chain_tail _ _ hchain)) hs2
      rw [prevOf_snoc] at this
      simpa using this

theorem bd_step {c : Cfg} {a : S} (hb : Bd c a) {op : Op} (h : below c.fuel (.op op)) : Bd c (Spec.step a op).1 := by
  refine ⟨hb.1, fun t ht => ?_⟩
  cases op with
  | init u e =>
    simp only [Spec.step] at ht
    by_cases hx : t = u
    · subst hx; exact h
    · rw [set_ne _ _ hx] at ht; exact hb.2 t ht
  | start u sma i p =>
    simp only [Spec.step] at ht
    by_cases hx : t = u
    · subst hx; rw [set_same] at ht; exact hb.2 t ht
    · rw [set_ne _ _ hx] at ht; exact hb.2 t ht
  | stop u =>
    simp only [Spec.step] at ht
    by_cases hx : t = u
    · subst hx; rw [set_same] at ht; exact hb.2 t ht
    · rw [set_ne _ _ hx] at ht; exact hb.2 t ht
  | tick => exact hb.2 t ht

theorem rep_stepH {c : Cfg} {s : St} {a : S} (hr : Rep c s a) (hb : Bd c a) {op : OpH} (hl : legalH c.W a op) (hbl : below c.fuel op) :
    ∃ s', stepH c s op = .ok (s', (Spec.stepH a op).2) ∧ Rep c s' (Spec.stepH a op).1 ∧ Bd c (Spec.stepH a op).1 := by
  cases op with
  | op o =>
    obtain ⟨s', h1, h2⟩ := rep_step hr hl (hr.short hb)
    exact ⟨s', h1, h2, bd_step hb hbl⟩
  | tick hook =>
    have hleft : left ⟨a, []⟩ a.order = a.order := by simp [left]
    obtain ⟨s', h1, h2, h3⟩ := tickLoop_hooks (hook := hook) a.order [] ⟨a, []⟩ s c.fuel s.thead (hr.short hb) hr hb
      (by rw [hleft]; rfl) (by rw [hleft]; exact chain_hd hr.chain) hl
    refine ⟨s', ?_, h2, h3⟩
    have h1' : tick c hook s = .ok (s', (turns hook ⟨a, []⟩ a.order).2) := h1
    simp [stepH, h1', Res.map', Spec.stepH]

theorem rep_runH {c : Cfg} : ∀ (ops : List OpH) (s : St) (a : S), Rep c s a → Bd c a → LegalH c.W a ops → (∀ op ∈ ops, below c.fuel op) →
    (runOps (stepH c) s ops).1 = (Spec.runH a ops).1 ∧
    ∃ s', (runOps (stepH c) s ops).2 = .ok s' ∧ Rep c s' (Spec.runH a ops).2 := by
  intro ops
  induction ops with
  | nil => intro s a hr _ _ _; exact ⟨rfl, s, rfl, hr⟩
  | cons op ops ih =>
    intro s a hr hb hl hbl
    obtain ⟨s1, h1, h2, h2'⟩ := rep_stepH hr hb hl.1 (hbl op (by simp))
    obtain ⟨h3, s2, h4, h5⟩ := ih s1 _ h2 h2' hl.2 (fun o ho => hbl o (by simp [ho]))
    simp only [runOps, h1, Spec.runH]
    exact ⟨by rw [h3], s2, h4, h5⟩

end Verif.Timer
