import Verif.Timer.Hooks
import Verif.Timer.Props
/-
Properties C57, C86, C87: time-out hooks that start and stop timers.
-/
namespace Verif.Timer
open Verif Spec

/-! ### Refinement -/

/-- **C57, positive part.** If hooks make safe calls only (`Spec.safeCall`: the hook of a periodic timer starts any timer or stops another
one; the hook of a one-shot timer restarts running timers), every history runs without assertion, undefined behaviour or endless loop,
and posts and return values are those of the specification, in which every timer has one turn per tick. -/
theorem hooks_refine_partial {c : Cfg} (heap : Nat → Tmr) (h : List OpH) (hl : LegalH c.W start0 h) (hf : 0 < c.fuel)
    (hb : ∀ op ∈ h, below c.fuel op) :
    (runOps (stepH c) (moduleInit heap) h).1 = (Spec.runH start0 h).1 ∧
    ∃ s, (runOps (stepH c) (moduleInit heap) h).2 = .ok s ∧ Chain s.heap s.thead (Spec.runH start0 h).2.order ∧ (Spec.runH start0 h).2.order.Nodup :=
  let ⟨h1, s, h2, h3⟩ := rep_runH h _ _ (rep_start0 c heap) ⟨hf, by simp [start0]⟩ hl hb
  ⟨h1, s, h2, h3.chain, h3.nodup⟩

/-! ### Timers that no hook touches -/

/-- The history with the calls of hooks left out. -/
def plain : OpH → Op
  | .op o => o
  | .tick _ => .tick

/-- No hook of this tick calls a function about `t`; other calls are not about `t` either. -/
def leavesAlone (t : Nat) : OpH → Prop
  | .op o => concerns t o = false
  | .tick hook => ∀ u, ∀ k ∈ hook u, aboutH t k = false

/-- No hook of this tick calls a function about `t`. -/
def hooksLeaveAlone (t : Nat) : OpH → Prop
  | .op _ => True
  | .tick hook => ∀ u, ∀ k ∈ hook u, aboutH t k = false

theorem call_untouched {x : Mid} {k : Call} {t : Nat} (h : aboutH t k = false) :
    (call x k).a.tm t = x.a.tm t ∧ (t ∈ (call x k).gone ↔ t ∈ x.gone) := by
  cases k with
  | start u sma i p =>
    simp only [aboutH, beq_eq_false_iff_ne] at h
    exact ⟨set_ne _ _ (Ne.symm h), Iff.rfl⟩
  | stop u =>
    simp only [aboutH, beq_eq_false_iff_ne] at h
    exact ⟨set_ne _ _ (Ne.symm h), by simp [call, Ne.symm h]⟩

theorem calls_untouched {t : Nat} : ∀ (l : List Call) (x : Mid), (∀ k ∈ l, aboutH t k = false) →
    (l.foldl call x).a.tm t = x.a.tm t ∧ (t ∈ (l.foldl call x).gone ↔ t ∈ x.gone) := by
  intro l
  induction l with
  | nil => intro x _; exact ⟨rfl, Iff.rfl⟩
  | cons k l ih =>
    intro x h
    have h1 := ih (call x k) (fun k' hk => h k' (by simp [hk]))
    have h2 := call_untouched (x := x) (h k (by simp))
    exact ⟨h1.1.trans h2.1, h1.2.trans h2.2⟩

theorem expire_ne {a : S} {t u : Nat} {v : Sched} (h : u ≠ t) : (expire a t v).tm u = a.tm u := by
  unfold expire; split <;> exact set_ne _ _ h

theorem turn_other {hook : Nat → List Call} {x : Mid} {t u : Nat} (hne : u ≠ t) (h : ∀ k ∈ hook t, aboutH u k = false) :
    (turn hook x t).1.a.tm u = x.a.tm u ∧ (u ∈ (turn hook x t).1.gone ↔ u ∈ x.gone) ∧ (turn hook x t).2.filter (fun q => q.tmr == u) = [] := by
  unfold turn
  split
  · exact ⟨rfl, Iff.rfl, rfl⟩
  · split
    · exact ⟨rfl, Iff.rfl, rfl⟩
    · split
      · rename_i v _ _
        have := calls_untouched (t := u) (hook t) { x with a := expire x.a t v } h
        exact ⟨this.1.trans (expire_ne hne), this.2, by simp [Ne.symm hne]⟩
      · exact ⟨set_ne _ _ hne, Iff.rfl, rfl⟩

theorem turns_other {hook : Nat → List Call} {u : Nat} : ∀ (ts : List Nat) (x : Mid), u ∉ ts → (∀ t ∈ ts, ∀ k ∈ hook t, aboutH u k = false) →
    (turns hook x ts).1.a.tm u = x.a.tm u ∧ (u ∈ (turns hook x ts).1.gone ↔ u ∈ x.gone) ∧ (turns hook x ts).2.filter (fun q => q.tmr == u) = [] := by
  intro ts
  induction ts with
  | nil => intro x _ _; exact ⟨rfl, Iff.rfl, rfl⟩
  | cons t ts ih =>
    intro x hm h
    simp only [List.mem_cons, not_or] at hm
    have h1 := turn_other (x := x) hm.1 (h t (by simp))
    have h2 := ih (turn hook x t).1 hm.2 (fun t' ht => h t' (by simp [ht]))
    simp only [turns, List.filter_append]
    exact ⟨h2.1.trans h1.1, h2.2.1.trans h1.2.1, by rw [h1.2.2, h2.2.2]; rfl⟩

theorem turn_self {hook : Nat → List Call} {x : Mid} {u : Nat} (hg : u ∉ x.gone) (h : ∀ k ∈ hook u, aboutH u k = false) :
    (turn hook x u).1.a.tm u = tickT (x.a.tm u) ∧ (turn hook x u).2.filter (fun q => q.tmr == u) = (fire x.a u).toList := by
  unfold turn
  rw [if_neg hg]
  split
  · rename_i hs
    refine ⟨?_, by simp [fire, hs]⟩
    unfold tickT
    rw [hs]
    generalize x.a.tm u = v at hs
    obtain ⟨r, e, sc⟩ := v
    simp only at hs
    subst hs; rfl
  · rename_i v hs
    split
    · rename_i h1
      have := (calls_untouched (t := u) (hook u) { x with a := expire x.a u v } h).1
      simp only [this]
      constructor
      · unfold expire tickT
        rw [hs]
        simp only [Option.bind_some, tickSched, h1, if_true]
        split <;> simp [set_same]
      · simp only [fire, hs, h1, if_true, Option.toList_some]
        unfold expire
        split <;> simp [set_same]
    · rename_i h1
      constructor
      · simp only [set_same, tickT, hs, Option.bind_some, tickSched, h1, if_false]
      · simp [fire, hs, h1]

theorem turns_append (hook : Nat → List Call) : ∀ (l r : List Nat) (x : Mid),
    turns hook x (l ++ r) = ((turns hook (turns hook x l).1 r).1, (turns hook x l).2 ++ (turns hook (turns hook x l).1 r).2) := by
  intro l
  induction l with
  | nil => intro r x; rfl
  | cons t l ih => intro r x; simp only [List.cons_append, turns, ih, List.append_assoc]

theorem turns_untouched {hook : Nat → List Call} {u : Nat} {ts : List Nat} {x : Mid} (hnd : ts.Nodup) (hm : u ∈ ts) (hg : u ∉ x.gone)
    (h : ∀ t ∈ ts, ∀ k ∈ hook t, aboutH u k = false) :
    (turns hook x ts).1.a.tm u = tickT (x.a.tm u) ∧ (turns hook x ts).2.filter (fun q => q.tmr == u) = (fire x.a u).toList := by
  obtain ⟨d, r, rfl⟩ := List.append_of_mem hm
  have hd : u ∉ d := fun h => (List.nodup_append.mp hnd).2.2 u h u (by simp) rfl
  have hr : u ∉ r := (List.nodup_cons.mp (List.nodup_append.mp hnd).2.1).1
  have h1 := turns_other (hook := hook) d x hd (fun t ht => h t (by simp [ht]))
  have h2 := turn_self (hook := hook) (x := (turns hook x d).1) (u := u) (fun hh => hg (h1.2.1.mp hh)) (h u (by simp))
  have h3 := turns_other (hook := hook) r (turn hook (turns hook x d).1 u).1 hr (fun t ht => h t (by simp [ht]))
  rw [turns_append]
  simp only [turns, List.filter_append]
  have hfire : fire (turns hook x d).1.a u = fire x.a u := by simp only [fire, h1.1]
  exact ⟨by rw [h3.1, h2.1, h1.1], by rw [h1.2.2, h2.2, h3.2.2, hfire]; simp⟩

/-- What is known of a state between two calls. -/
def Good (c : Cfg) (a : S) : Prop := (∃ s, Rep c s a) ∧ Bd c a

theorem good_start0 {c : Cfg} (hf : 0 < c.fuel) : Good c start0 := ⟨⟨_, rep_start0 c fun _ => ⟨0, 0, 0, 0, 0, 0⟩⟩, hf, by simp [start0]⟩

theorem good_stepH {c : Cfg} {a : S} (h : Good c a) {op : OpH} (hl : legalH c.W a op) (hb : below c.fuel op) : Good c (Spec.stepH a op).1 := by
  obtain ⟨⟨s, hr⟩, hbd⟩ := h
  obtain ⟨s', _, h1, h2⟩ := rep_stepH hr hbd hl hb
  exact ⟨⟨s', h1⟩, h2⟩

theorem Good.sinv {c : Cfg} {a : S} (h : Good c a) : SInv a := let ⟨⟨_, hr⟩, _⟩ := h; ⟨hr.nodup, hr.mem⟩

/-- A tick whose hooks leave `t` alone is for `t` a tick without hooks. -/
theorem tick_untouched {a : S} (h : SInv a) {hook : Nat → List Call} {t : Nat} (hk : ∀ u, ∀ k ∈ hook u, aboutH t k = false) :
    (turns hook ⟨a, []⟩ a.order).1.a.tm t = tickT (a.tm t) ∧
    (turns hook ⟨a, []⟩ a.order).2.filter (fun q => q.tmr == t) = (fire a t).toList := by
  by_cases hm : t ∈ a.order
  · exact turns_untouched h.nodup hm (by simp) (fun u _ => hk u)
  · have h1 := turns_other (hook := hook) a.order ⟨a, []⟩ hm (fun u _ => hk u)
    have hn : (a.tm t).sched = none := by
      rw [h.mem] at hm
      cases hs : (a.tm t).sched with
      | none => rfl
      | some v => rw [hs] at hm; simp at hm
    refine ⟨h1.1.trans ?_, h1.2.2.trans (by simp [fire, hn])⟩
    show a.tm t = tickT (a.tm t)
    unfold tickT
    rw [hn]
    generalize a.tm t = v at hn
    obtain ⟨r, e, sc⟩ := v
    simp only at hn
    subst hn; rfl

theorem turns_ready {hook : Nat → List Call} (t : Nat) : ∀ (ts : List Nat) (x : Mid),
    ((turns hook x ts).1.a.tm t).ready = (x.a.tm t).ready ∧ ((turns hook x ts).1.a.tm t).evt = (x.a.tm t).evt := by
  intro ts
  induction ts with
  | nil => intro x; exact ⟨rfl, rfl⟩
  | cons u ts ih =>
    intro x
    have h1 : ((turn hook x u).1.a.tm t).ready = (x.a.tm t).ready ∧ ((turn hook x u).1.a.tm t).evt = (x.a.tm t).evt := by
      unfold turn
      split
      · exact ⟨rfl, rfl⟩
      · split
        · exact ⟨rfl, rfl⟩
        · split
          · rename_i v _ _
            have h2 := foldl_call_evt (hook u) { x with a := expire x.a u v } t
            have h3 : ((expire x.a u v).tm t).ready = (x.a.tm t).ready ∧ ((expire x.a u v).tm t).evt = (x.a.tm t).evt := by
              by_cases ht : t = u
              · subst ht; unfold expire; split <;> simp [set_same]
              · rw [expire_ne ht]; exact ⟨rfl, rfl⟩
            exact ⟨h2.1.trans h3.1, h2.2.trans h3.2⟩
          · by_cases ht : t = u
            · subst ht; simp [set_same]
            · simp [set_ne _ _ ht]
    have h2 := ih (turn hook x u).1
    exact ⟨h2.1.trans h1.1, h2.2.trans h1.2⟩

/-- The posts of timer `t` at each tick. -/
def postsOf (t : Nat) (os : List Out) : List (List Post) := (ticks os).map fun l => l.filter (fun q => q.tmr == t)

/-- What the calls about `t` return. -/
def returnsOf (t : Nat) : List Op → List Out → List Out
  | op :: ops, o :: os => if concerns t op then o :: returnsOf t ops os else returnsOf t ops os
  | _, _ => []

theorem tm_congr {a b : S} {op : Op} {t : Nat} (h : a.tm t = b.tm t) : (Spec.step a op).1.tm t = (Spec.step b op).1.tm t := by
  cases op with
  | init u e => by_cases hu : t = u <;> simp [Spec.step, Spec.set, hu, h]
  | start u _ _ _ => by_cases hu : t = u
                     · subst hu; simp [Spec.step, Spec.set, h]
                     · simp [Spec.step, Spec.set, hu, h]
  | stop u => by_cases hu : t = u
              · subst hu; simp [Spec.step, Spec.set, h]
              · simp [Spec.step, Spec.set, hu, h]
  | tick => simp [Spec.step, h]

/-- The history with and without hooks, seen by a timer that hooks leave alone. -/
theorem plain_run {c : Cfg} {t : Nat} : ∀ (ops : List OpH) (a b : S), Good c a → SInv b → a.tm t = b.tm t →
    (∀ u, (a.tm u).ready = (b.tm u).ready) → LegalH c.W a ops → (∀ op ∈ ops, below c.fuel op) → (∀ op ∈ ops, hooksLeaveAlone t op) →
    Legal c.W b (ops.map plain) ∧ postsOf t (Spec.runH a ops).1 = postsOf t (Spec.run b (ops.map plain)).1 ∧
    returnsOf t (ops.map plain) (Spec.runH a ops).1 = returnsOf t (ops.map plain) (Spec.run b (ops.map plain)).1 ∧
    (Spec.runH a ops).2.tm t = (Spec.run b (ops.map plain)).2.tm t := by
  intro ops
  induction ops with
  | nil => intro a b _ _ h _ _ _ _; exact ⟨trivial, rfl, rfl, h⟩
  | cons op ops ih =>
    intro a b hg hI ht hrd hl hb hk
    have hg' := good_stepH hg hl.1 (hb op (by simp))
    have hb' : ∀ o ∈ ops, below c.fuel o := fun o ho => hb o (by simp [ho])
    have hk' : ∀ o ∈ ops, hooksLeaveAlone t o := fun o ho => hk o (by simp [ho])
    cases op with
    | op o =>
      have hrd' : ∀ u, ((Spec.step a o).1.tm u).ready = ((Spec.step b o).1.tm u).ready := by
        intro u
        cases o with
        | init w e => by_cases hu : u = w <;> simp [Spec.step, Spec.set, hu, hrd u]
        | start w _ _ _ => by_cases hu : u = w
                           · subst hu; simp [Spec.step, Spec.set, hrd u]
                           · simp [Spec.step, Spec.set, hu, hrd u]
        | stop w => by_cases hu : u = w
                    · subst hu; simp [Spec.step, Spec.set, hrd u]
                    · simp [Spec.step, Spec.set, hu, hrd u]
        | tick => simp [Spec.step, tickT, hrd u]
      have hlo : legalOp c.W b o := by
        have := hl.1
        cases o with
        | init w e => exact this
        | start w s i p => exact ⟨by rw [← hrd w]; exact this.1, this.2⟩
        | stop w => show (b.tm w).ready = true; rw [← hrd w]; exact this
        | tick => trivial
      obtain ⟨h1, h2, h3, h4⟩ := ih (Spec.step a o).1 (Spec.step b o).1 hg' (sinv_step hI o) (tm_congr ht) hrd' hl.2 hb' hk'
      refine ⟨⟨hlo, h1⟩, ?_, ?_, h4⟩
      · simp only [List.map_cons, plain, Spec.runH, Spec.run, Spec.stepH]
        cases o with
        | tick =>
          simp only [Spec.step, postsOf, ticks, List.map_cons] at h2 ⊢
          rw [tick_posts_of hg.sinv, tick_posts_of hI]
          simp only [fire, ht]
          rw [h2]
        | init u e => simpa [Spec.step, postsOf, ticks] using h2
        | start u sma i p => simpa [Spec.step, postsOf, ticks] using h2
        | stop u => simpa [Spec.step, postsOf, ticks] using h2
      · simp only [List.map_cons, plain, Spec.runH, Spec.run, Spec.stepH, returnsOf]
        rw [h3]
        by_cases hc : concerns t o = true
        · rw [if_pos hc, if_pos hc]
          congr 1
          cases o with
          | tick => simp [concerns] at hc
          | init u e => rfl
          | start u sma i p => rfl
          | stop u =>
            simp only [concerns, beq_iff_eq] at hc
            subst hc
            simp [Spec.step, running, ht]
        · rw [if_neg hc, if_neg hc]
    | tick hook =>
      have htk := tick_untouched hg.sinv (hook := hook) (t := t) (hk _ (List.mem_cons_self ..))
      obtain ⟨h1, h2, h3, h4⟩ := ih (Spec.stepH a (.tick hook)).1 (Spec.step b .tick).1 hg' (sinv_step hI .tick)
        (by simp only [Spec.stepH, Spec.step, htk.1, ht]) (by intro u; simp only [Spec.stepH, Spec.step, tickT]; rw [(turns_ready u _ _).1]; exact hrd u) hl.2 hb' hk'
      refine ⟨⟨trivial, h1⟩, ?_, ?_, h4⟩
      · simp only [List.map_cons, plain, Spec.runH, Spec.run]
        simp only [Spec.stepH, Spec.step, postsOf, ticks, List.map_cons] at h2 ⊢
        rw [tick_posts_of hI, htk.2]
        simp only [fire, ht]
        rw [h2]
      · simp only [List.map_cons, plain, Spec.runH, Spec.run, returnsOf]
        rw [h3]
        simp [concerns]

/-- **C86.** In every history whose hooks make safe calls, a timer that no hook starts or stops behaves as if the hooks did
nothing: it posts the same events at the same ticks, and calls about it return the same. -/
theorem hooks_leave_other_timers_alone {c : Cfg} (heap : Nat → Tmr) (h : List OpH) (t : Nat) (hl : LegalH c.W start0 h)
    (hb : ∀ op ∈ h, below c.fuel op) (hf : h.length < c.fuel) (hk : ∀ op ∈ h, hooksLeaveAlone t op) :
    postsOf t (runOps (stepH c) (moduleInit heap) h).1 = postsOf t (runOps (step c) (moduleInit heap) (h.map plain)).1 ∧
    returnsOf t (h.map plain) (runOps (stepH c) (moduleInit heap) h).1 = returnsOf t (h.map plain) (runOps (step c) (moduleInit heap) (h.map plain)).1 := by
  obtain ⟨h1, h2, h3, _⟩ := plain_run (t := t) h start0 start0 (good_start0 (by omega)) sinv_start0 rfl (fun _ => rfl) hl hb hk
  rw [(hooks_refine_partial heap h hl (by omega) hb).1, (timers_refine heap _ h1 (by simpa using hf)).1]
  exact ⟨h2, h3⟩

theorem runH_append (a : S) (xs ys : List OpH) :
    Spec.runH a (xs ++ ys) = ((Spec.runH a xs).1 ++ (Spec.runH (Spec.runH a xs).2 ys).1, (Spec.runH (Spec.runH a xs).2 ys).2) := by
  induction xs generalizing a with
  | nil => rfl
  | cons x xs ih => simp only [List.cons_append, Spec.runH, ih]

theorem runH_length (a : S) (xs : List OpH) : (Spec.runH a xs).1.length = xs.length := by
  induction xs generalizing a with
  | nil => rfl
  | cons x xs ih => simp [Spec.runH, ih]

theorem legalH_append (W : Nat) (a : S) (xs ys : List OpH) :
    LegalH W a (xs ++ ys) ↔ LegalH W a xs ∧ LegalH W (Spec.runH a xs).2 ys := by
  induction xs generalizing a with
  | nil => simp [LegalH, Spec.runH]
  | cons x xs ih => simp [LegalH, Spec.runH, ih, and_assoc]

theorem good_runH {c : Cfg} : ∀ (h : List OpH) (a : S), Good c a → LegalH c.W a h → (∀ op ∈ h, below c.fuel op) → Good c (Spec.runH a h).2 := by
  intro h
  induction h with
  | nil => intro a hg _ _; exact hg
  | cons op h ih => intro a hg hl hb; exact ih _ (good_stepH hg hl.1 (hb op (by simp))) hl.2 (fun o ho => hb o (by simp [ho]))

theorem evt_runH : ∀ (h : List OpH) (a : S) (t : Nat), ((Spec.runH a h).2.tm t).evt = if (h.map plain).any (isInit t) then lastEvt t (h.map plain) else (a.tm t).evt := by
  intro h
  induction h with
  | nil => intro a t; simp [Spec.runH]
  | cons op h ih =>
    intro a t
    simp only [Spec.runH]
    rw [ih]
    cases op with
    | tick hook =>
      simp only [List.map_cons, plain, List.any_cons, isInit, Bool.false_or, lastEvt, Spec.stepH, (turns_ready t _ _).2]
    | op o =>
      have h1 := evt_run [o] a t
      simp only [Spec.run, List.any_cons, List.any_nil, Bool.or_false] at h1
      simp only [List.map_cons, plain, Spec.stepH, h1, List.any_cons]
      cases o with
      | tick => simp [isInit, lastEvt]
      | start u s i p => simp [isInit, lastEvt]
      | stop u => simp [isInit, lastEvt]
      | init u e =>
        simp only [lastEvt, isInit, List.any_nil, Bool.false_eq_true, if_false]
        by_cases ha : (h.map plain).any (isInit t) = true
        · simp [ha]
        · by_cases hu : u = t <;> simp [ha, hu]

theorem ready_runH : ∀ (h : List OpH) (a : S) (t : Nat), ((Spec.runH a h).2.tm t).ready = true → (a.tm t).ready = true ∨ (h.map plain).any (isInit t) = true := by
  intro h
  induction h with
  | nil => intro a t h; exact Or.inl h
  | cons op h ih =>
    intro a t hr
    simp only [Spec.runH] at hr
    rcases ih _ t hr with h1 | h1
    · cases op with
      | tick hook => left; simp only [Spec.stepH, (turns_ready t _ _).1] at h1; exact h1
      | op o =>
        rcases ready_run [o] a t h1 with h2 | h2
        · exact Or.inl h2
        · right; simp at h2; simp [plain, h2]
    · right; simp [h1]

/-- Running timers that are left alone post when due, whatever hooks do to other timers. -/
theorem running_runH {c : Cfg} {ops : List OpH} {a : S} {t : Nat} {v : Sched} (hg : Good c a) (hs : (a.tm t).sched = some v)
    (hpos : 0 < v.left) (hl : LegalH c.W a ops) (hb : ∀ op ∈ ops, below c.fuel op) (hk : ∀ op ∈ ops, leavesAlone t op)
    {k : Nat} {posts : List Post} (hp : (ticks (Spec.runH a ops).1)[k]? = some posts) :
    posts.filter (fun p => p.tmr == t) = if Fires v.left v.per (k + 1) then [⟨t, v.sma, (a.tm t).evt⟩] else [] := by
  have hk' : ∀ op ∈ ops, hooksLeaveAlone t op := by
    intro op ho
    have := hk op ho
    cases op with
    | op o => trivial
    | tick hook => exact this
  obtain ⟨_, h2, _⟩ := plain_run (t := t) ops a a hg hg.sinv rfl (fun _ => rfl) hl hb hk'
  have hp2 : (postsOf t (Spec.runH a ops).1)[k]? = some (posts.filter (fun p => p.tmr == t)) := by simp [postsOf, hp]
  rw [h2] at hp2
  simp only [postsOf, List.getElem?_map, Option.map_eq_some_iff] at hp2
  obtain ⟨l, h3, h4⟩ := hp2
  rw [← h4]
  refine running_run (ops.map plain) a t v hg.sinv hs hpos ?_ k l h3
  intro o ho
  obtain ⟨op, hop, rfl⟩ := List.mem_map.mp ho
  have := hk op hop
  cases op with
  | op o => exact this
  | tick hook => rfl

theorem drop_after {h : Nat} (x : Out) (xs ys : List Out) (hy : ys.length = h) : (ys ++ x :: xs).drop (h + 1) = xs := by
  rw [← hy, List.drop_append]
  simp

/-- **C86 (in particular).** A timer started with `itick = n` and period `p` posts exactly when due (C28, C29), whatever hooks do
to other timers. -/
theorem timer_fires_when_due_despite_hooks {c : Cfg} (heap : Nat → Tmr) (h rest : List OpH) (t sma n p : Nat)
    (hl : LegalH c.W start0 (h ++ .op (.start t sma n p) :: rest)) (hb : ∀ op ∈ h ++ .op (.start t sma n p) :: rest, below c.fuel op) (hf : 0 < c.fuel)
    (hc : ∀ op ∈ rest, leavesAlone t op) (k : Nat) (posts : List Post)
    (hk : (ticks ((runOps (stepH c) (moduleInit heap) (h ++ .op (.start t sma n p) :: rest)).1.drop (h.length + 1)))[k]? = some posts) :
    posts.filter (fun q => q.tmr == t) = if Fires n p (k + 1) then [⟨t, sma, lastEvt t (h.map plain)⟩] else [] := by
  rw [(hooks_refine_partial heap _ hl hf hb).1, runH_append] at hk
  rw [legalH_append] at hl
  obtain ⟨hl1, hl2, hl3⟩ := hl
  simp only [Spec.runH] at hk
  rw [drop_after _ _ _ (runH_length _ _)] at hk
  have hg := good_runH h start0 (good_start0 hf) hl1 (fun o ho => hb o (by simp [ho]))
  have hg' := good_stepH hg hl2 (hb _ (by simp))
  have := running_runH (t := t) (v := ⟨sma, n, p⟩) hg' (by simp [Spec.stepH, Spec.step, set_same]) hl2.2.2.1 hl3 (fun o ho => hb o (by simp [ho])) hc hk
  rw [this]
  have he : ((Spec.stepH (Spec.runH start0 h).2 (.op (.start t sma n p))).1.tm t).evt = lastEvt t (h.map plain) := by
    have hr := ready_runH h start0 t hl2.1
    simp only [start0, Bool.false_eq_true, false_or] at hr
    simp only [Spec.stepH, Spec.step, set_same, evt_runH]
    rw [if_pos hr]
  rw [he]

/-! ### Starting a timer in a hook -/

theorem lastEvt_none {t : Nat} : ∀ (l : List Op), l.any (isInit t) = false → lastEvt t l = 0 := by
  intro l
  induction l with
  | nil => intro _; rfl
  | cons op l ih =>
    intro h
    simp only [List.any_cons, Bool.or_eq_false_iff] at h
    cases op with
    | init u e => simp only [isInit, beq_eq_false_iff_ne] at h; simp [lastEvt, h.2, h.1, ih h.2]
    | start u _ _ _ => exact ih h.2
    | stop u => exact ih h.2
    | tick => exact ih h.2

theorem evt_tick (h : List OpH) (hook : Nat → List Call) (u : Nat) :
    ((Spec.stepH (Spec.runH start0 h).2 (.tick hook)).1.tm u).evt = lastEvt u (h.map plain) := by
  simp only [Spec.stepH, (turns_ready u _ _).2, evt_runH]
  split
  · rfl
  · rename_i hn; rw [lastEvt_none _ (by simpa using hn)]; rfl

/-- A hook function of timer `t` that makes one call. -/
def onlyHook (t : Nat) (k : Call) : Nat → List Call := fun x => if x = t then [k] else []

/-- The schedule of `u` after a tick in which the hook of `t` started it. -/
theorem start_in_hook {a : S} (hI : SInv a) {t u sma n p : Nat} {v : Sched} (hv : (a.tm t).sched = some v) (hdue : v.left = 1)
    {d r : List Nat} (ho : a.order = d ++ t :: r) :
    ((turns (onlyHook t (.start u sma n p)) ⟨a, []⟩ a.order).1.a.tm u).sched =
      if u ∈ r then tickSched ⟨sma, n, p⟩ else some ⟨sma, n, p⟩ := by
  have hnd := hI.nodup
  rw [ho] at hnd ⊢
  have htd : t ∉ d := fun h => (List.nodup_append.mp hnd).2.2 t h t (by simp) rfl
  have htr : t ∉ r := (List.nodup_cons.mp (List.nodup_append.mp hnd).2.1).1
  have hndr : r.Nodup := (List.nodup_cons.mp (List.nodup_append.mp hnd).2.1).2
  have hempty : ∀ x, x ≠ t → onlyHook t (.start u sma n p) x = [] := fun x hx => by simp [onlyHook, hx]
  rw [turns_append]
  have h1 := turns_other (hook := onlyHook t (.start u sma n p)) (u := t) d ⟨a, []⟩ htd (fun x hx k hk => by
    rw [hempty x (by rintro rfl; exact htd hx)] at hk; cases hk)
  simp only [turns]
  generalize hx : (turns (onlyHook t (.start u sma n p)) ⟨a, []⟩ d).1 = x at h1
  have hg : t ∉ x.gone := fun h => by simpa using h1.2.1.mp h
  have hgone : x.gone = [] := by
    have : ∀ (l : List Nat) (y : Mid), t ∉ l → (turns (onlyHook t (.start u sma n p)) y l).1.gone = y.gone := by
      intro l
      induction l with
      | nil => intro y _; rfl
      | cons z l ih =>
        intro y hz
        simp only [List.mem_cons, not_or] at hz
        simp only [turns]
        rw [ih _ hz.2]
        unfold turn
        rw [hempty z (Ne.symm hz.1)]
        split
        · rfl
        · split
          · rfl
          · split <;> rfl
    rw [← hx]; exact this d _ htd
  have hxv : (x.a.tm t).sched = some v := by rw [h1.1]; exact hv
  have hturn : ((turn (onlyHook t (.start u sma n p)) x t).1.a.tm u).sched = some ⟨sma, n, p⟩ ∧
      (turn (onlyHook t (.start u sma n p)) x t).1.gone = x.gone := by
    unfold turn
    rw [if_neg hg, hxv]
    simp [hdue, onlyHook, call, Spec.step, set_same]
  by_cases hur : u ∈ r
  · rw [if_pos hur]
    have h2 := turns_untouched (hook := onlyHook t (.start u sma n p)) (u := u) (x := (turn (onlyHook t (.start u sma n p)) x t).1) hndr hur
      (by rw [hturn.2, hgone]; simp) (fun y hy k hk => by
      rw [hempty y (by rintro rfl; exact htr hy)] at hk; cases hk)
    rw [h2.1]
    simp [tickT, hturn.1]
  · rw [if_neg hur]
    have h2 := turns_other (hook := onlyHook t (.start u sma n p)) (u := u) r (turn (onlyHook t (.start u sma n p)) x t).1 hur (fun y hy k hk => by
      rw [hempty y (by rintro rfl; exact htr hy)] at hk; cases hk)
    rw [h2.1, hturn.1]

/-- **C87.** Take any legal history `h` after which timer `t` is due at the next tick, and a tick at which the hook of `t` starts `u` with `n`
ticks and period `p` (a safe call). If `u` does not come after `t` in order of activation (`u` was not running, or is `t` itself, or was activated
later than `t`), then `u` posts at the `n`-th tick after this one, then every `p` ticks, as if started right after the tick. Missing from C87: timers that come after `t`, for which it is false
(`restarted_in_hook_fires_one_tick_early`). -/
theorem started_in_hook_fires_when_due_partial {c : Cfg} (heap : Nat → Tmr) (h rest : List OpH) (t u sma n p : Nat) (v : Sched) (d r : List Nat)
    (hl : LegalH c.W start0 (h ++ .tick (onlyHook t (.start u sma n p)) :: rest))
    (hb : ∀ op ∈ h ++ .tick (onlyHook t (.start u sma n p)) :: rest, below c.fuel op) (hf : 0 < c.fuel)
    (hv : ((Spec.runH start0 h).2.tm t).sched = some v) (hdue : v.left = 1) (ho : (Spec.runH start0 h).2.order = d ++ t :: r) (hu : u ∉ r)
    (hn : 0 < n) (hc : ∀ op ∈ rest, leavesAlone u op) (k : Nat) (posts : List Post)
    (hk : (ticks ((runOps (stepH c) (moduleInit heap) (h ++ .tick (onlyHook t (.start u sma n p)) :: rest)).1.drop (h.length + 1)))[k]? = some posts) :
    posts.filter (fun q => q.tmr == u) = if Fires n p (k + 1) then [⟨u, sma, lastEvt u (h.map plain)⟩] else [] := by
  rw [(hooks_refine_partial heap _ hl hf hb).1, runH_append] at hk
  rw [legalH_append] at hl
  obtain ⟨hl1, hl2, hl3⟩ := hl
  simp only [Spec.runH] at hk
  rw [drop_after _ _ _ (runH_length _ _)] at hk
  have hg := good_runH h start0 (good_start0 hf) hl1 (fun o ho => hb o (by simp [ho]))
  have hg' := good_stepH hg hl2 (hb _ (by simp))
  have hs := start_in_hook (u := u) (sma := sma) (n := n) (p := p) hg.sinv hv hdue ho
  rw [if_neg hu] at hs
  rw [← evt_tick h (onlyHook t (.start u sma n p)) u]
  exact running_runH (t := u) (v := ⟨sma, n, p⟩) hg' hs hn hl3 (fun o ho => hb o (by simp [ho])) hc hk

/-- **C87, other case.** If `u` is running and comes after `t` in order of activation (it was activated earlier than `t`), the tick at
which it is restarted already counts: with `n > 1` it posts at the `n - 1`-st tick after this one. -/
theorem restarted_in_hook_fires_one_tick_early {c : Cfg} (heap : Nat → Tmr) (h rest : List OpH) (t u sma n p : Nat) (v : Sched) (d r : List Nat)
    (hl : LegalH c.W start0 (h ++ .tick (onlyHook t (.start u sma n p)) :: rest))
    (hb : ∀ op ∈ h ++ .tick (onlyHook t (.start u sma n p)) :: rest, below c.fuel op) (hf : 0 < c.fuel)
    (hv : ((Spec.runH start0 h).2.tm t).sched = some v) (hdue : v.left = 1) (ho : (Spec.runH start0 h).2.order = d ++ t :: r) (hu : u ∈ r)
    (hn : 1 < n) (hc : ∀ op ∈ rest, leavesAlone u op) (k : Nat) (posts : List Post)
    (hk : (ticks ((runOps (stepH c) (moduleInit heap) (h ++ .tick (onlyHook t (.start u sma n p)) :: rest)).1.drop (h.length + 1)))[k]? = some posts) :
    posts.filter (fun q => q.tmr == u) = if Fires (n - 1) p (k + 1) then [⟨u, sma, lastEvt u (h.map plain)⟩] else [] := by
  rw [(hooks_refine_partial heap _ hl hf hb).1, runH_append] at hk
  rw [legalH_append] at hl
  obtain ⟨hl1, hl2, hl3⟩ := hl
  simp only [Spec.runH] at hk
  rw [drop_after _ _ _ (runH_length _ _)] at hk
  have hg := good_runH h start0 (good_start0 hf) hl1 (fun o ho => hb o (by simp [ho]))
  have hg' := good_stepH hg hl2 (hb _ (by simp))
  have hs := start_in_hook (u := u) (sma := sma) (n := n) (p := p) hg.sinv hv hdue ho
  rw [if_pos hu] at hs
  have hs' : tickSched ⟨sma, n, p⟩ = some ⟨sma, n - 1, p⟩ := by simp [tickSched, show n ≠ 1 by omega]
  rw [hs'] at hs
  rw [← evt_tick h (onlyHook t (.start u sma n p)) u]
  exact running_runH (t := u) (v := ⟨sma, n - 1, p⟩) hg' hs (by show 0 < n - 1; omega) hl3 (fun o ho => hb o (by simp [ho])) hc hk

namespace HookDemo

/-- Timer 1 (one-shot) is activated first, then 2 (periodic), then 3 (periodic). At the fourth tick timer 2 expires; its hook stops 3,
starts it again and starts 1 with 3 ticks. -/
def hist : List OpH := [.op (.init 1 11), .op (.init 2 22), .op (.init 3 33), .op (.start 1 5 9 0), .op (.start 2 6 2 2), .op (.start 3 7 3 3), .tick fun _ => [],
  .tick fun t => if t = 2 then [.stop 3, .start 3 8 4 1, .start 1 5 3 0] else [], .tick fun _ => [], .tick fun _ => [], .tick fun _ => []]
example : LegalH 256 start0 hist := by
  simp [hist, LegalH, legalH, legalOp, Spec.stepH, Spec.step, start0, Spec.set, SafeTurns, turns, turn, SafeCalls, safeCall, call, expire, running]
example : ∀ op ∈ hist, below 100 op := by simp [hist, below]
example : ticks (runOps (stepH ⟨256, true, 100⟩) (moduleInit fun _ => ⟨9, 9, 9, 9, 9, 1⟩) hist).1 =
    [[], [⟨2, 6, 22⟩], [], [⟨2, 6, 22⟩, ⟨1, 5, 11⟩], []] := by decide
/-- Hooks leave timer 2 alone. -/
example : ∀ op ∈ hist, hooksLeaveAlone 2 op := by
  simp only [hist, List.mem_cons, List.not_mem_nil, or_false, forall_eq_or_imp, forall_eq, hooksLeaveAlone, true_and, false_implies, implies_true]
  refine ⟨fun u k hk => ?_, trivial⟩
  split at hk
  · simp only [List.mem_cons, List.not_mem_nil, or_false] at hk
    rcases hk with rfl | rfl | rfl <;> rfl
  · cases hk

/-- Timer 2 is due, is periodic and its hook restarts timer 1, which was activated before it (C87, second case); or starts timer 3, which
is not running (first case). -/
def before : List OpH := [.op (.init 1 11), .op (.init 2 22), .op (.init 3 33), .op (.start 1 5 9 0), .op (.start 2 6 1 4)]
example : (Spec.runH start0 before).2.order = [] ++ 2 :: [1] ∧ ((Spec.runH start0 before).2.tm 2).sched = some ⟨6, 1, 4⟩ := by decide
example (u : Nat) (hu : u = 1 ∨ u = 3) : LegalH 256 start0 (before ++ [.tick (onlyHook 2 (.start u 5 2 0)), .tick fun _ => [], .tick fun _ => []]) := by
  rcases hu with rfl | rfl <;>
  simp [before, onlyHook, LegalH, legalH, legalOp, Spec.stepH, Spec.step, start0, Spec.set, SafeTurns, turns, turn, SafeCalls, safeCall, call, expire, running]
example : ticks (runOps (stepH ⟨256, true, 100⟩) (moduleInit fun _ => ⟨9, 9, 9, 9, 9, 1⟩)
    (before ++ [.tick (onlyHook 2 (.start 1 5 2 0)), .tick fun _ => [], .tick fun _ => []])).1 = [[⟨2, 6, 22⟩], [⟨1, 5, 11⟩], []] := by decide
example : ticks (runOps (stepH ⟨256, true, 100⟩) (moduleInit fun _ => ⟨9, 9, 9, 9, 9, 1⟩)
    (before ++ [.tick (onlyHook 2 (.start 3 5 2 0)), .tick fun _ => [], .tick fun _ => []])).1 = [[⟨2, 6, 22⟩], [], [⟨3, 5, 33⟩]] := by decide

end HookDemo

/-! ### Calls that are not safe -/

/-- **C57, negation.** The hook of a one-shot timer (1) starts a timer (3) that is not running, and the next timer of the list (2), one-shot
too, expires at the same tick: the tick dereferences a NULL pointer. All calls before return; no loop bound helps. -/
theorem oneshot_hook_starting_idle_timer_crashes (heap : Nat → Tmr) (n : Nat) :
    runOps (stepH ⟨256, true, n + 10⟩) (moduleInit fun t => { heap t with used := 0 })
      [.op (.init 1 11), .op (.init 2 22), .op (.init 3 33), .op (.start 2 5 1 0), .op (.start 1 5 1 0), .tick (onlyHook 1 (.start 3 5 9 0))] =
    ([.unit, .unit, .unit, .unit, .unit], .ub) := by
  simp [runOps, stepH, step, init, start, tick, tickLoop, onlyHook, runCalls, stop, searchAndRemove, searchLoop, remFromList, moduleInit, St.put, Res.map', Res.bind]

/-- **C57, negation.** The hook of a one-shot timer (1) stops the next timer (2) of the list: the tick dereferences a NULL pointer. -/
theorem oneshot_hook_stopping_next_timer_crashes (heap : Nat → Tmr) (n : Nat) :
    runOps (stepH ⟨256, true, n + 10⟩) (moduleInit fun t => { heap t with used := 0 })
      [.op (.init 1 11), .op (.init 2 22), .op (.start 2 5 9 0), .op (.start 1 5 1 0), .tick (onlyHook 1 (.stop 2))] =
    ([.unit, .unit, .unit, .unit], .ub) := by
  simp [runOps, stepH, step, init, start, tick, tickLoop, onlyHook, runCalls, stop, searchAndRemove, searchLoop, remFromList, moduleInit, St.put, Res.map', Res.bind]

/-- A periodic timer linked to itself keeps the tick busy for ever. -/
theorem self_loop {c : Cfg} {hook : Nat → List Call} {y per : Nat} (hy : y ≠ 0) (hh : hook y = []) (hp : per ≠ 0) : ∀ (fuel : Nat) (s : St) (q : Nat),
    (s.heap y).tnext = y → (s.heap y).used = 1 → (s.heap y).period = per → tickLoop c hook fuel s q y = .ub := by
  intro fuel
  induction fuel with
  | zero => intros; rfl
  | succ fuel ih =>
    intro s q h1 h2 h3
    by_cases hn : ((s.heap y).ntick + (c.W - 1)) % c.W = 0
    · simp only [tickLoop, hy, h2, put_same, hn, h3, hp, hh, runCalls, Res.bind, h1, if_true, if_false, Nat.one_ne_zero]
      rw [ih _ _ (by simp [h1]) (by simp [h2]) (by simp [h3])]
    · simp only [tickLoop, hy, h2, put_same, hn, h1, if_false, Nat.one_ne_zero]
      rw [ih _ _ (by simp [h1]) (by simp [h2]) (by simp [h3])]

/-- **C57, negation.** The hook of a periodic timer (2) stops its own timer while a one-shot timer (1) behind it in the list expires at the same
tick. The tick returns, but timer 1 stays in the list; when it is started again the list becomes circular, and the next tick never
ends, whatever the loop bound. -/
theorem hook_stopping_its_own_timer_hangs_later (heap : Nat → Tmr) (n : Nat) :
    runOps (stepH ⟨256, true, n + 10⟩) (moduleInit fun t => { heap t with used := 0 })
      [.op (.init 1 11), .op (.init 2 22), .op (.init 3 33), .op (.start 1 5 1 0), .op (.start 2 5 1 4), .op (.start 3 5 7 7),
       .tick (onlyHook 2 (.stop 2)), .op (.start 1 5 1 0), .tick (fun _ => [])] =
    ([.unit, .unit, .unit, .unit, .unit, .unit, .posts [⟨2, 5, 22⟩, ⟨1, 5, 11⟩], .unit], .ub) := by
  have key : ∀ k s q, (s.heap 3).tnext = 3 → (s.heap 3).used = 1 → (s.heap 3).period = 7 →
      tickLoop ⟨256, true, n + 10⟩ (fun _ => []) k s q 3 = .ub := fun k s q h1 h2 h3 => self_loop (by decide) rfl (by decide) k s q h1 h2 h3
  obtain ⟨j, hj⟩ : ∃ j, n + 10 = j + 4 := ⟨n + 6, by omega⟩
  rw [hj] at key ⊢
  simp [runOps, stepH, step, init, start, tick, tickLoop, onlyHook, runCalls, stop, searchAndRemove, searchLoop, remFromList, moduleInit, St.put, Res.map', Res.bind]
  rw [key _ _ _ (by simp) (by simp) (by simp)]
  exact ⟨rfl, rfl⟩

end Verif.Timer
