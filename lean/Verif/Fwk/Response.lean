import Verif.Fwk.Life
/-
Two consequences of the way the scheduler picks objects and of the way queues are filled: how long the most urgent
object can be kept waiting, and where every event sent to an object goes.
-/
namespace Verif.Fwk.Obs
open Verif Verif.Fwk

/-- Everything sent to active object `ao` over a history, whichever way: FIFO posts, LIFO posts, publications on channels it is
subscribed to, and recalls on its behalf that found an event. `prio`, `reg` and `sub` describe the situation at the
beginning of the history. -/
def sentAny (ao : Nat) : Hist → List Nat → (Nat → Option Nat) → (Nat → Nat → Bool) → List Nat
  | [], _, _, _ => []
  | (op, o) :: h, prio, reg, sub =>
    (match op with
     | .postFifo i e => if i = ao then [e] else []
     | .postLifo i e => if i = ao then [e] else []
     | .recall i _ => (match o with | .evt e => if i = ao ∧ e ≠ 0 then [e] else [] | _ => [])
     | .publish ch e s =>
       (match prio[ao]? with
        | some p => if reg p = some ao ∧ sub ch p = true ∧ s ≠ some ao then [e] else []
        | none => [])
     | _ => []) ++
    sentAny ao h (prio ++ activations [op]) (registry [op] prio reg) (fun ch p => subscribed ch p [op] prio (sub ch p))

/-- The events taken out of a deferred queue by recalls of `ao` that have not put them into its event queue yet: those
`rkh_sma_recall` holds between its two critical sections. -/
def recalling (ao : Nat) : List Cont → List Nat
  | [] => []
  | .rc2 i e :: t => (if i = ao then [e] else []) ++ recalling ao t
  | _ :: t => recalling ao t

/-- How many of the dispatches were to objects of a lower priority than `p` (a larger number); `prs` are the priorities of the
objects in order of activation. -/
def lower (prs : List Nat) (p : Nat) : List Out → Nat
  | [] => 0
  | .dispatch i _ :: outs => (if p < prs[i]?.getD 0 then 1 else 0) + lower prs p outs
  | _ :: outs => lower prs p outs

/-- How many dispatches there were to objects other than `ao`. -/
def others (ao : Nat) : List Out → Nat
  | [] => 0
  | .dispatch i _ :: outs => (if i = ao then 0 else 1) + others ao outs
  | _ :: outs => others ao outs

end Verif.Fwk.Obs

namespace Verif.Fwk
open Verif Verif.Fwk.Spec

section
variable {c : Cfg} {w : World} {a : Abs}

/-- What one operation with result `o` sends to `ao`. -/
def sentAny1 (ao : Nat) (a : Abs) (op : Op) (o : Out) : List Nat :=
  match op with
  | .postFifo i e => if i = ao then [e] else []
  | .postLifo i e => if i = ao then [e] else []
  | .recall i _ => (match o with | .evt e => if i = ao ∧ e ≠ 0 then [e] else [] | _ => [])
  | .publish ch e s =>
    match a.aos[ao]? with
    | some x => if a.reg x.prio = some ao ∧ a.sub ch x.prio = true ∧ s ≠ some ao then [e] else []
    | none => []
  | _ => []

theorem recalling_cons_other {t : Cont} (ao : Nat) (l : List Cont) (h : ∀ i e, t ≠ .rc2 i e) :
    Obs.recalling ao (t :: l) = Obs.recalling ao l := by
  cases t with
  | rc2 i e => exact absurd rfl (h i e)
  | _ => rfl

theorem recalling_erase (ao : Nat) : ∀ (l : List Cont) (k : Nat) (t : Cont), l[k]? = some t →
    (Obs.recalling ao l).Perm (Obs.recalling ao [t] ++ Obs.recalling ao (l.eraseIdx k)) := by
  intro l
  induction l with
  | nil => intro k t h; simp at h
  | cons u l ih =>
    intro k t h
    cases k with
    | zero =>
      simp only [List.getElem?_cons_zero, Option.some.injEq] at h
      subst h
      cases u <;> simp [Obs.recalling]
    | succ k =>
      simp only [List.getElem?_cons_succ] at h
      have := ih k t h
      have hc : ∀ m, Obs.recalling ao (u :: m) = Obs.recalling ao [u] ++ Obs.recalling ao m := by
        intro m; cases u <;> simp [Obs.recalling]
      rw [List.eraseIdx_cons_succ, hc l, hc (l.eraseIdx k)]
      refine (List.Perm.append_left _ this).trans ?_
      rw [← List.append_assoc, ← List.append_assoc]
      exact List.Perm.append_right _ List.perm_append_comm

/-- Conservation of the events of one object over one operation. -/
def Kept (ao : Nat) (a : Abs) (op : Op) (o : Out) (a1 : Abs) : Prop :=
  (itemsOf a ao ++ Obs.recalling ao a.conts ++ sentAny1 ao a op o).Perm
    (Obs.dispatched ao [o] ++ (itemsOf a1 ao ++ Obs.recalling ao a1.conts))

theorem flow_step (h : R c w a) (ao : Nat) {op : Op} {o : Out} {a1 : Abs} (hl : Legal c a op)
    (hs : Spec.step c a op = .ok (a1, o)) : Kept ao a op o a1 := by
  unfold Kept
  have plain' : ∀ b : Abs, itemsOf b ao = itemsOf a ao → (Obs.recalling ao a.conts).Perm (Obs.recalling ao b.conts) →
      sentAny1 ao a op o = [] → Obs.dispatched ao [o] = [] →
      (itemsOf a ao ++ Obs.recalling ao a.conts ++ sentAny1 ao a op o).Perm
        (Obs.dispatched ao [o] ++ (itemsOf b ao ++ Obs.recalling ao b.conts)) := by
    intro b h1 h2 h3 h4
    rw [h1, h3, h4, List.append_nil, List.nil_append]
    exact List.Perm.append_left _ h2
  have plain : ∀ b : Abs, b.aos = a.aos → (Obs.recalling ao a.conts).Perm (Obs.recalling ao b.conts) →
      sentAny1 ao a op o = [] → Obs.dispatched ao [o] = [] →
      (itemsOf a ao ++ Obs.recalling ao a.conts ++ sentAny1 ao a op o).Perm
        (Obs.dispatched ao [o] ++ (itemsOf b ao ++ Obs.recalling ao b.conts)) := by
    intro b h1
    exact plain' b (by unfold itemsOf; rw [h1])
  cases op with
  | activate p mem n =>
    simp only [Spec.step] at hs
    split at hs
    · cases hs
    · simp only [Res.ok.injEq, Prod.mk.injEq] at hs
      obtain ⟨rfl, rfl⟩ := hs
      refine plain' _ ?_ (.refl _) rfl rfl
      simp only [itemsOf]
      by_cases hao : ao < a.aos.length
      · rw [List.getElem?_append_left hao]
      · rw [List.getElem?_eq_none (l := a.aos) (by omega)]
        by_cases h2 : ao = a.aos.length
        · subst h2; simp
        · rw [List.getElem?_eq_none (by simp; omega)]
  | terminate i =>
    simp only [Spec.step] at hs
    split at hs
    · cases hs
    split at hs
    · simp only [Res.ok.injEq, Prod.mk.injEq] at hs
      obtain ⟨rfl, rfl⟩ := hs
      exact plain _ rfl (.refl _) rfl rfl
    · cases hs
  | newDefer mem n =>
    simp only [Spec.step, Res.ok.injEq, Prod.mk.injEq] at hs
    obtain ⟨rfl, rfl⟩ := hs
    exact plain _ rfl (.refl _) rfl rfl
  | regPool m s n es =>
    simp only [Spec.step] at hs
    split at hs
    · cases hs
    · simp only [Res.ok.injEq, Prod.mk.injEq] at hs
      obtain ⟨rfl, rfl⟩ := hs
      exact plain _ rfl (.refl _) rfl rfl
  | alloc n sg =>
    simp only [Spec.step] at hs
    split at hs
    · cases hs
    split at hs
    · cases hs
    split at hs
    · cases hs
    · simp only [Res.ok.injEq, Prod.mk.injEq] at hs
      obtain ⟨rfl, rfl⟩ := hs
      exact plain _ rfl (.refl _) rfl rfl
  | postFifo i e =>
    simp only [Spec.step, Res.map'_eq_ok] at hs
    obtain ⟨a1, h1, h2⟩ := hs
    simp only [Prod.mk.injEq] at h2
    obtain ⟨rfl, rfl⟩ := h2
    obtain ⟨x, q, hx, rfl, rfl, _⟩ := post_facts h1
    rw [itemsOf_set hx]
    by_cases hi : ao = i
    · subst hi
      have : itemsOf a ao = x.q.items := by simp [itemsOf, hx]
      simp only [sentAny1, Obs.dispatched, if_true, List.nil_append, this, Bool.false_eq_true, if_false, List.append_assoc]
      exact List.Perm.append_left _ List.perm_append_comm
    · simp [sentAny1, Obs.dispatched, hi, Ne.symm hi]
  | postLifo i e =>
    simp only [Spec.step, Res.map'_eq_ok] at hs
    obtain ⟨a1, h1, h2⟩ := hs
    simp only [Prod.mk.injEq] at h2
    obtain ⟨rfl, rfl⟩ := h2
    obtain ⟨x, q, hx, rfl, rfl, _⟩ := post_facts h1
    rw [itemsOf_set hx]
    by_cases hi : ao = i
    · subst hi
      have : itemsOf a ao = x.q.items := by simp [itemsOf, hx]
      simp only [sentAny1, Obs.dispatched, if_true, List.nil_append, this]
      exact List.perm_append_comm
    · simp [sentAny1, Obs.dispatched, hi, Ne.symm hi]
  | defer i e =>
    simp only [Spec.step] at hs
    split at hs
    · cases hs
    · simp only [Res.map'_eq_ok] at hs
      obtain ⟨q, h1, h2⟩ := hs
      simp only [Prod.mk.injEq] at h2
      obtain ⟨rfl, rfl⟩ := h2
      exact plain _ rfl (.refl _) rfl rfl
  | recall i j =>
    simp only [Spec.step] at hs
    split at hs
    · cases hs
    rename_i q hq
    split at hs
    · simp only [Res.ok.injEq, Prod.mk.injEq] at hs
      obtain ⟨rfl, rfl⟩ := hs
      exact plain _ rfl (.refl _) (by simp [sentAny1]) rfl
    · rename_i e rest hi
      simp only [Res.ok.injEq, Prod.mk.injEq] at hs
      obtain ⟨rfl, rfl⟩ := hs
      have he0 : e ≠ 0 := (h.ev.hold e (by
        unfold holders
        simp only [List.mem_append, List.mem_flatMap]
        exact .inl (.inl (.inl (.inr ⟨q, List.mem_of_getElem? hq, by rw [hi]; simp⟩))))).1
      simp only [sentAny1, Obs.dispatched, Obs.recalling, List.nil_append, List.append_assoc]
      refine List.Perm.append_left _ ?_
      rw [show (if i = ao ∧ e ≠ 0 then [e] else []) = (if i = ao then [e] else []) by simp [he0]]
      exact List.perm_append_comm
  | reserve e =>
    simp only [Spec.step, Res.ok.injEq, Prod.mk.injEq] at hs
    obtain ⟨rfl, rfl⟩ := hs
    exact plain _ rfl (.refl _) rfl rfl
  | gc e =>
    simp only [Spec.step, Res.ok.injEq, Prod.mk.injEq] at hs
    obtain ⟨rfl, rfl⟩ := hs
    exact plain _ rfl (.refl _) rfl rfl
  | subscribe ch i =>
    simp only [Spec.step] at hs
    split at hs
    · cases hs
    split at hs
    · cases hs
    · simp only [Res.ok.injEq, Prod.mk.injEq] at hs
      obtain ⟨rfl, rfl⟩ := hs
      exact plain _ rfl (.refl _) rfl rfl
  | unsubscribe ch i =>
    simp only [Spec.step] at hs
    split at hs
    · cases hs
    split at hs
    · cases hs
    · simp only [Res.ok.injEq, Prod.mk.injEq] at hs
      obtain ⟨rfl, rfl⟩ := hs
      exact plain _ rfl (.refl _) rfl rfl
  | unsubscribeAll i =>
    simp only [Spec.step] at hs
    split at hs
    · cases hs
    · simp only [Res.ok.injEq, Prod.mk.injEq] at hs
      obtain ⟨rfl, rfl⟩ := hs
      exact plain _ rfl (.refl _) rfl rfl
  | publish ch e s =>
    simp only [Spec.step, Res.map'_eq_ok] at hs
    obtain ⟨a1, h1, h2⟩ := hs
    simp only [Prod.mk.injEq] at h2
    obtain ⟨rfl, rfl⟩ := h2
    have hfr : (a.fresh.erase e).erase e = a.fresh.erase e := by
      apply List.erase_of_not_mem; exact h.ev.freshND.not_mem_erase
    obtain ⟨k1, k2⟩ := deliver_fold (e := e) (s := s) (subscribers c.maxSma a ch)
      { a with conts := .gc1 e :: a.conts, fresh := a.fresh.erase e }
      (fun p i hi => (h.ao.regOk p i hi).2) (List.nodup_range.filter _) hfr
    by_cases hct : ∀ p ∈ subscribers c.maxSma a ch, CanTake { a with conts := .gc1 e :: a.conts, fresh := a.fresh.erase e } s p
    · rw [k1 hct] at h1
      simp only [Res.ok.injEq] at h1
      subst h1
      simp only [Obs.dispatched, List.nil_append, itemsOf, delivered, List.getElem?_mapIdx, sentAny1, Obs.recalling,
        List.append_assoc]
      cases hx : a.aos[ao]? with
      | none => simp
      | some x =>
        have hpm := h.ao.prioOk x (List.mem_of_getElem? hx)
        have hmem : x.prio ∈ subscribers c.maxSma a ch ↔ a.sub ch x.prio = true := by
          simp [subscribers, hpm]
        simp only [Option.map_some, Option.getD_some, hmem]
        by_cases hc : a.reg x.prio = some ao ∧ a.sub ch x.prio = true ∧ s ≠ some ao
        · rw [if_pos hc, if_pos ⟨hc.1, hc.2.1, Ne.symm hc.2.2⟩]
          simp only [List.append_assoc]
          exact List.Perm.append_left _ List.perm_append_comm
        · rw [if_neg hc, if_neg (fun h => hc ⟨h.1, h.2.1, Ne.symm h.2.2⟩)]; simp
    · rw [k2 hct] at h1; cases h1
  | select =>
    simp only [Spec.step] at hs
    split at hs
    · simp only [Res.ok.injEq, Prod.mk.injEq] at hs
      obtain ⟨rfl, rfl⟩ := hs
      exact plain _ rfl (.refl _) rfl rfl
    · split at hs
      · cases hs
      · simp only [Res.ok.injEq, Prod.mk.injEq] at hs
        obtain ⟨rfl, rfl⟩ := hs
        exact plain _ rfl (.refl _) rfl rfl
  | fetch =>
    simp only [Spec.step] at hs
    split at hs
    · rename_i i hph
      split at hs
      · cases hs
      · rename_i x hx
        split at hs
        · cases hs
        · rename_i e rest hi
          simp only [Res.ok.injEq, Prod.mk.injEq] at hs
          obtain ⟨rfl, rfl⟩ := hs
          have := itemsOf_set (j := ao) hx { x.q with items := rest } a.fresh
          unfold itemsOf at this ⊢
          simp only at this
          rw [this]
          by_cases hai : ao = i
          · subst hai; simp [sentAny1, Obs.dispatched, Obs.recalling, hx, hi]
          · simp [sentAny1, Obs.dispatched, Obs.recalling, hai, Ne.symm hai]
    · cases hs
  | take i =>
    simp only [Spec.step] at hs
    split at hs
    · cases hs
    · rename_i x hx
      split at hs
      · cases hs
      · rename_i e rest hi
        simp only [Res.ok.injEq, Prod.mk.injEq] at hs
        obtain ⟨rfl, rfl⟩ := hs
        have := itemsOf_set (j := ao) hx { x.q with items := rest } a.fresh
        unfold itemsOf at this ⊢
        simp only at this
        rw [this]
        by_cases hai : ao = i
        · subst hai; simp [sentAny1, Obs.dispatched, Obs.recalling, hx, hi]
        · simp [sentAny1, Obs.dispatched, Obs.recalling, hai, Ne.symm hai]
  | done =>
    simp only [Spec.step] at hs
    split at hs
    · simp only [Res.ok.injEq, Prod.mk.injEq] at hs
      obtain ⟨rfl, rfl⟩ := hs
      exact plain _ rfl (.refl _) rfl rfl
    · cases hs
  | resume k =>
    simp only [Spec.step] at hs
    split at hs
    · cases hs
    · rename_i t ht
      have hE := recalling_erase ao a.conts k t ht
      simp only [Res.map'_eq_ok] at hs
      obtain ⟨a1, h1, h2⟩ := hs
      simp only [Prod.mk.injEq] at h2
      obtain ⟨rfl, rfl⟩ := h2
      cases t with
      | gc1 e =>
        have hsub : (Obs.recalling ao a.conts).Perm (Obs.recalling ao (a.conts.eraseIdx k)) := hE
        simp only [Spec.resumeCont, Res.ok.injEq] at h1
        subst h1
        split
        · exact plain _ rfl hsub rfl rfl
        · exact plain _ rfl hsub rfl rfl
      | thr o e =>
        have hsub : (Obs.recalling ao a.conts).Perm (Obs.recalling ao (a.conts.eraseIdx k)) := hE
        simp only [Spec.resumeCont, Res.ok.injEq] at h1
        subst h1
        split
        · exact plain _ rfl hsub rfl rfl
        · exact plain _ rfl hsub rfl rfl
      | gc2 e =>
        have hsub : (Obs.recalling ao a.conts).Perm (Obs.recalling ao (a.conts.eraseIdx k)) := hE
        simp only [Spec.resumeCont, Res.ok.injEq] at h1
        subst h1
        split
        · exact plain _ rfl hsub rfl rfl
        · exact plain _ rfl hsub rfl rfl
      | put i e =>
        have hsub : (Obs.recalling ao a.conts).Perm (Obs.recalling ao (a.conts.eraseIdx k)) := hE
        simp only [Spec.resumeCont] at h1
        split at h1
        · cases h1
        · simp only [Res.ok.injEq] at h1
          subst h1
          exact plain _ rfl hsub rfl rfl
      | rc2 i e =>
        simp only [Spec.resumeCont, Res.map'_eq_ok] at h1
        obtain ⟨a2, h2, h3⟩ := h1
        subst h3
        obtain ⟨x, q, hx, rfl, rfl, _⟩ := post_facts h2
        have := itemsOf_set (a := { a with conts := a.conts.eraseIdx k }) (j := ao) hx { x.q with items := e :: x.q.items } (a.fresh.erase e)
        unfold itemsOf at this ⊢
        simp only [if_true] at this ⊢
        rw [this]
        simp only [sentAny1, Obs.dispatched, Obs.recalling, List.append_nil, List.nil_append]
        refine (List.Perm.append_left _ hE).trans ?_
        simp only at hx
        by_cases hi : ao = i
        · subst hi
          simp only [Obs.recalling, if_true, hx, Option.map_some, Option.getD_some, List.append_nil]
          rw [← List.append_assoc]
          exact List.Perm.append_right _ (List.perm_append_comm (l₁ := x.q.items) (l₂ := [e]))
        · simp [Obs.recalling, hi, Ne.symm hi]
      | rc3 o e =>
        have hsub : (Obs.recalling ao a.conts).Perm (Obs.recalling ao (a.conts.eraseIdx k)) := hE
        simp only [Spec.resumeCont, Res.ok.injEq] at h1
        subst h1
        exact plain _ rfl hsub rfl rfl
  | numUsed i =>
    simp only [Spec.step] at hs
    split at hs
    · cases hs
    · simp only [Res.ok.injEq, Prod.mk.injEq] at hs
      obtain ⟨rfl, rfl⟩ := hs
      exact plain _ rfl (.refl _) rfl rfl

/-- What one operation does to the events waiting for an object: they stay as they are, in order, with possibly something
new before or after them; a dispatch takes the first. -/
theorem grow_step (h : R c w a) (ao : Nat) {op : Op} {o : Out} {a1 : Abs}
    (hs : Spec.step c a op = .ok (a1, o)) :
    ∃ f b, Obs.dispatched ao [o] ++ itemsOf a1 ao = f ++ (itemsOf a ao ++ b) := by
  have keep : ∀ b1 : Abs, b1.aos = a.aos → Obs.dispatched ao [o] = [] →
      ∃ f b, Obs.dispatched ao [o] ++ itemsOf b1 ao = f ++ (itemsOf a ao ++ b) := by
    intro b1 h1 h2
    refine ⟨[], [], ?_⟩
    rw [h2]; unfold itemsOf; rw [h1]; simp
  cases op with
  | activate p mem n =>
    simp only [Spec.step] at hs
    split at hs
    · cases hs
    · simp only [Res.ok.injEq, Prod.mk.injEq] at hs
      obtain ⟨rfl, rfl⟩ := hs
      refine ⟨[], [], ?_⟩
      simp only [Obs.dispatched, List.append_nil, List.nil_append, itemsOf]
      by_cases hao : ao < a.aos.length
      · rw [List.getElem?_append_left hao]
      · rw [List.getElem?_eq_none (l := a.aos) (by omega)]
        by_cases h2 : ao = a.aos.length
        · subst h2; simp
        · rw [List.getElem?_eq_none (by simp; omega)]
  | terminate i =>
    simp only [Spec.step] at hs
    split at hs
    · cases hs
    split at hs
    · simp only [Res.ok.injEq, Prod.mk.injEq] at hs
      obtain ⟨rfl, rfl⟩ := hs
      exact keep _ rfl rfl
    · cases hs
  | newDefer mem n =>
    simp only [Spec.step, Res.ok.injEq, Prod.mk.injEq] at hs
    obtain ⟨rfl, rfl⟩ := hs
    exact keep _ rfl rfl
  | regPool m s n es =>
    simp only [Spec.step] at hs
    split at hs
    · cases hs
    · simp only [Res.ok.injEq, Prod.mk.injEq] at hs
      obtain ⟨rfl, rfl⟩ := hs
      exact keep _ rfl rfl
  | alloc n sg =>
    simp only [Spec.step] at hs
    split at hs
    · cases hs
    split at hs
    · cases hs
    split at hs
    · cases hs
    · simp only [Res.ok.injEq, Prod.mk.injEq] at hs
      obtain ⟨rfl, rfl⟩ := hs
      exact keep _ rfl rfl
  | postFifo i e =>
    simp only [Spec.step, Res.map'_eq_ok] at hs
    obtain ⟨a1, h1, h2⟩ := hs
    simp only [Prod.mk.injEq] at h2
    obtain ⟨rfl, rfl⟩ := h2
    obtain ⟨x, q, hx, rfl, rfl, _⟩ := post_facts h1
    rw [itemsOf_set hx]
    by_cases hi : ao = i
    · subst hi
      exact ⟨[], [e], by simp [Obs.dispatched, itemsOf, hx]⟩
    · exact ⟨[], [], by simp [Obs.dispatched, hi]⟩
  | postLifo i e =>
    simp only [Spec.step, Res.map'_eq_ok] at hs
    obtain ⟨a1, h1, h2⟩ := hs
    simp only [Prod.mk.injEq] at h2
    obtain ⟨rfl, rfl⟩ := h2
    obtain ⟨x, q, hx, rfl, rfl, _⟩ := post_facts h1
    rw [itemsOf_set hx]
    by_cases hi : ao = i
    · subst hi
      exact ⟨[e], [], by simp [Obs.dispatched, itemsOf, hx]⟩
    · exact ⟨[], [], by simp [Obs.dispatched, hi]⟩
  | defer i e =>
    simp only [Spec.step] at hs
    split at hs
    · cases hs
    · simp only [Res.map'_eq_ok] at hs
      obtain ⟨q, h1, h2⟩ := hs
      simp only [Prod.mk.injEq] at h2
      obtain ⟨rfl, rfl⟩ := h2
      exact keep _ rfl rfl
  | recall i j =>
    simp only [Spec.step] at hs
    split at hs
    · cases hs
    split at hs
    · simp only [Res.ok.injEq, Prod.mk.injEq] at hs
      obtain ⟨rfl, rfl⟩ := hs
      exact keep _ rfl rfl
    · simp only [Res.ok.injEq, Prod.mk.injEq] at hs
      obtain ⟨rfl, rfl⟩ := hs
      exact keep _ rfl rfl
  | reserve e =>
    simp only [Spec.step, Res.ok.injEq, Prod.mk.injEq] at hs
    obtain ⟨rfl, rfl⟩ := hs
    exact keep _ rfl rfl
  | gc e =>
    simp only [Spec.step, Res.ok.injEq, Prod.mk.injEq] at hs
    obtain ⟨rfl, rfl⟩ := hs
    exact keep _ rfl rfl
  | subscribe ch i =>
    simp only [Spec.step] at hs
    split at hs
    · cases hs
    split at hs
    · cases hs
    · simp only [Res.ok.injEq, Prod.mk.injEq] at hs
      obtain ⟨rfl, rfl⟩ := hs
      exact keep _ rfl rfl
  | unsubscribe ch i =>
    simp only [Spec.step] at hs
    split at hs
    · cases hs
    split at hs
    · cases hs
    · simp only [Res.ok.injEq, Prod.mk.injEq] at hs
      obtain ⟨rfl, rfl⟩ := hs
      exact keep _ rfl rfl
  | unsubscribeAll i =>
    simp only [Spec.step] at hs
    split at hs
    · cases hs
    · simp only [Res.ok.injEq, Prod.mk.injEq] at hs
      obtain ⟨rfl, rfl⟩ := hs
      exact keep _ rfl rfl
  | publish ch e s =>
    simp only [Spec.step, Res.map'_eq_ok] at hs
    obtain ⟨a1, h1, h2⟩ := hs
    simp only [Prod.mk.injEq] at h2
    obtain ⟨rfl, rfl⟩ := h2
    have hfr : (a.fresh.erase e).erase e = a.fresh.erase e := by
      apply List.erase_of_not_mem; exact h.ev.freshND.not_mem_erase
    obtain ⟨k1, k2⟩ := deliver_fold (e := e) (s := s) (subscribers c.maxSma a ch)
      { a with conts := .gc1 e :: a.conts, fresh := a.fresh.erase e }
      (fun p i hi => (h.ao.regOk p i hi).2) (List.nodup_range.filter _) hfr
    by_cases hct : ∀ p ∈ subscribers c.maxSma a ch, CanTake { a with conts := .gc1 e :: a.conts, fresh := a.fresh.erase e } s p
    · rw [k1 hct] at h1
      simp only [Res.ok.injEq] at h1
      subst h1
      simp only [Obs.dispatched, List.nil_append, itemsOf, delivered, List.getElem?_mapIdx]
      cases hx : a.aos[ao]? with
      | none => exact ⟨[], [], by simp⟩
      | some x =>
        simp only [Option.map_some, Option.getD_some]
        split
        · exact ⟨[], [e], by simp⟩
        · exact ⟨[], [], by simp⟩
    · rw [k2 hct] at h1; cases h1
  | select =>
    simp only [Spec.step] at hs
    split at hs
    · simp only [Res.ok.injEq, Prod.mk.injEq] at hs
      obtain ⟨rfl, rfl⟩ := hs
      exact keep _ rfl rfl
    · split at hs
      · cases hs
      · simp only [Res.ok.injEq, Prod.mk.injEq] at hs
        obtain ⟨rfl, rfl⟩ := hs
        exact keep _ rfl rfl
  | fetch =>
    simp only [Spec.step] at hs
    split at hs
    · rename_i i hph
      split at hs
      · cases hs
      · rename_i x hx
        split at hs
        · cases hs
        · rename_i e rest hi
          simp only [Res.ok.injEq, Prod.mk.injEq] at hs
          obtain ⟨rfl, rfl⟩ := hs
          have := itemsOf_set (j := ao) hx { x.q with items := rest } a.fresh
          unfold itemsOf at this ⊢
          simp only at this
          rw [this]
          by_cases hai : ao = i
          · subst hai; exact ⟨[], [], by simp [Obs.dispatched, hx, hi]⟩
          · exact ⟨[], [], by simp [Obs.dispatched, hai, Ne.symm hai]⟩
    · cases hs
  | take i =>
    simp only [Spec.step] at hs
    split at hs
    · cases hs
    · rename_i x hx
      split at hs
      · cases hs
      · rename_i e rest hi
        simp only [Res.ok.injEq, Prod.mk.injEq] at hs
        obtain ⟨rfl, rfl⟩ := hs
        have := itemsOf_set (j := ao) hx { x.q with items := rest } a.fresh
        unfold itemsOf at this ⊢
        simp only at this
        rw [this]
        by_cases hai : ao = i
        · subst hai; exact ⟨[], [], by simp [Obs.dispatched, hx, hi]⟩
        · exact ⟨[], [], by simp [Obs.dispatched, hai, Ne.symm hai]⟩
  | done =>
    simp only [Spec.step] at hs
    split at hs
    · simp only [Res.ok.injEq, Prod.mk.injEq] at hs
      obtain ⟨rfl, rfl⟩ := hs
      exact keep _ rfl rfl
    · cases hs
  | resume k =>
    simp only [Spec.step] at hs
    split at hs
    · cases hs
    · rename_i t ht
      simp only [Res.map'_eq_ok] at hs
      obtain ⟨a1, h1, h2⟩ := hs
      simp only [Prod.mk.injEq] at h2
      obtain ⟨rfl, rfl⟩ := h2
      cases t with
      | gc1 e =>
        simp only [Spec.resumeCont, Res.ok.injEq] at h1
        subst h1
        split
        · exact keep _ rfl rfl
        · exact keep _ rfl rfl
      | thr o e =>
        simp only [Spec.resumeCont, Res.ok.injEq] at h1
        subst h1
        split
        · exact keep _ rfl rfl
        · exact keep _ rfl rfl
      | gc2 e =>
        simp only [Spec.resumeCont, Res.ok.injEq] at h1
        subst h1
        split
        · exact keep _ rfl rfl
        · exact keep _ rfl rfl
      | put i e =>
        simp only [Spec.resumeCont] at h1
        split at h1
        · cases h1
        · simp only [Res.ok.injEq] at h1
          subst h1
          exact keep _ rfl rfl
      | rc2 i e =>
        simp only [Spec.resumeCont, Res.map'_eq_ok] at h1
        obtain ⟨a2, h2, h3⟩ := h1
        subst h3
        obtain ⟨x, q, hx, rfl, rfl, _⟩ := post_facts h2
        have := itemsOf_set (a := { a with conts := a.conts.eraseIdx k }) (j := ao) hx { x.q with items := e :: x.q.items } (a.fresh.erase e)
        unfold itemsOf at this ⊢
        simp only [if_true] at this ⊢
        rw [this]
        simp only at hx
        by_cases hi : ao = i
        · subst hi
          exact ⟨[e], [], by simp [Obs.dispatched, hx]⟩
        · exact ⟨[], [], by simp [Obs.dispatched, hi]⟩
      | rc3 o e =>
        simp only [Spec.resumeCont, Res.ok.injEq] at h1
        subst h1
        exact keep _ rfl rfl
  | numUsed i =>
    simp only [Spec.step] at hs
    split at hs
    · cases hs
    · simp only [Res.ok.injEq, Prod.mk.injEq] at hs
      obtain ⟨rfl, rfl⟩ := hs
      exact keep _ rfl rfl


/-- The scheduler's phase only moves with the scheduler's own operations. -/
theorem ph_step (h : R c w a) {op : Op} {o : Out} {a1 : Abs} (hs : Spec.step c a op = .ok (a1, o)) :
    (op = .select ∧ (a1.ph = a.ph ∧ o = .idle ∨
        ∃ i p, a.reg p = some i ∧ (List.range c.maxSma).find? (pending a) = some p ∧ a1.ph = .fetch i ∧ o = .chose i)) ∨
      (op = .fetch ∧ ∃ i e x, a.ph = .fetch i ∧ a.aos[i]? = some x ∧ a1.ph = .run i e ∧ o = .dispatch i e) ∨
      (op = .done ∧ a1.ph = .none ∧ o = .unit) ∨
      (∃ i e, op = .take i ∧ o = .dispatch i e) ∨
      (a1.ph = a.ph ∧ ∀ i e, o ≠ .dispatch i e) := by
  cases op with
  | select =>
    left
    refine ⟨rfl, ?_⟩
    simp only [Spec.step] at hs
    split at hs
    · simp only [Res.ok.injEq, Prod.mk.injEq] at hs
      obtain ⟨rfl, rfl⟩ := hs
      exact .inl ⟨rfl, rfl⟩
    · rename_i p hp
      split at hs
      · cases hs
      · rename_i i hi
        simp only [Res.ok.injEq, Prod.mk.injEq] at hs
        obtain ⟨rfl, rfl⟩ := hs
        exact .inr ⟨i, p, hi, hp, rfl, rfl⟩
  | fetch =>
    right; left
    refine ⟨rfl, ?_⟩
    simp only [Spec.step] at hs
    split at hs
    · rename_i i hph
      split at hs
      · cases hs
      · rename_i x hx
        split at hs
        · cases hs
        · rename_i e rest hi
          simp only [Res.ok.injEq, Prod.mk.injEq] at hs
          obtain ⟨rfl, rfl⟩ := hs
          exact ⟨i, e, x, hph, hx, rfl, rfl⟩
    · cases hs
  | done =>
    right; right; left
    simp only [Spec.step] at hs
    split at hs
    · simp only [Res.ok.injEq, Prod.mk.injEq] at hs
      obtain ⟨rfl, rfl⟩ := hs
      exact ⟨rfl, rfl, rfl⟩
    · cases hs
  | take i =>
    right; right; right; left
    simp only [Spec.step] at hs
    split at hs
    · cases hs
    · split at hs
      · cases hs
      · rename_i e rest hi
        simp only [Res.ok.injEq, Prod.mk.injEq] at hs
        obtain ⟨rfl, rfl⟩ := hs
        exact ⟨i, e, rfl, rfl⟩
  | publish ch e s =>
    right; right; right; right
    simp only [Spec.step, Res.map'_eq_ok] at hs
    obtain ⟨a1, h1, h2⟩ := hs
    simp only [Prod.mk.injEq] at h2
    obtain ⟨rfl, rfl⟩ := h2
    have hfr : (a.fresh.erase e).erase e = a.fresh.erase e := by
      apply List.erase_of_not_mem; exact h.ev.freshND.not_mem_erase
    obtain ⟨k1, k2⟩ := deliver_fold (e := e) (s := s) (subscribers c.maxSma a ch)
      { a with conts := .gc1 e :: a.conts, fresh := a.fresh.erase e }
      (fun p i hi => (h.ao.regOk p i hi).2) (List.nodup_range.filter _) hfr
    by_cases hct : ∀ p ∈ subscribers c.maxSma a ch, CanTake { a with conts := .gc1 e :: a.conts, fresh := a.fresh.erase e } s p
    · rw [k1 hct] at h1
      simp only [Res.ok.injEq] at h1
      subst h1
      exact ⟨rfl, by intro i e hh; cases hh⟩
    · rw [k2 hct] at h1; cases h1
  | postFifo i e =>
    right; right; right; right
    simp only [Spec.step, Res.map'_eq_ok] at hs
    obtain ⟨a1, h1, h2⟩ := hs
    simp only [Prod.mk.injEq] at h2
    obtain ⟨rfl, rfl⟩ := h2
    obtain ⟨x, q, hx, rfl, rfl, _⟩ := post_facts h1
    exact ⟨rfl, by intro i e hh; cases hh⟩
  | postLifo i e =>
    right; right; right; right
    simp only [Spec.step, Res.map'_eq_ok] at hs
    obtain ⟨a1, h1, h2⟩ := hs
    simp only [Prod.mk.injEq] at h2
    obtain ⟨rfl, rfl⟩ := h2
    obtain ⟨x, q, hx, rfl, rfl, _⟩ := post_facts h1
    exact ⟨rfl, by intro i e hh; cases hh⟩
  | defer i e =>
    right; right; right; right
    simp only [Spec.step] at hs
    split at hs
    · cases hs
    · simp only [Res.map'_eq_ok] at hs
      obtain ⟨q, h1, h2⟩ := hs
      simp only [Prod.mk.injEq] at h2
      obtain ⟨rfl, rfl⟩ := h2
      exact ⟨rfl, by intro i e hh; cases hh⟩
  | resume k =>
    right; right; right; right
    simp only [Spec.step] at hs
    split at hs
    · cases hs
    · rename_i t ht
      simp only [Res.map'_eq_ok] at hs
      obtain ⟨a1, h1, h2⟩ := hs
      simp only [Prod.mk.injEq] at h2
      obtain ⟨rfl, rfl⟩ := h2
      refine ⟨?_, by intro i e hh; cases hh⟩
      cases t with
      | gc1 e => simp only [Spec.resumeCont, Res.ok.injEq] at h1; subst h1; split <;> rfl
      | thr o e => simp only [Spec.resumeCont, Res.ok.injEq] at h1; subst h1; split <;> rfl
      | gc2 e => simp only [Spec.resumeCont, Res.ok.injEq] at h1; subst h1; split <;> rfl
      | put i e =>
        simp only [Spec.resumeCont] at h1
        split at h1
        · cases h1
        · simp only [Res.ok.injEq] at h1; subst h1; rfl
      | rc2 i e =>
        simp only [Spec.resumeCont, Res.map'_eq_ok] at h1
        obtain ⟨a2, h2, h3⟩ := h1
        subst h3
        obtain ⟨x, q, hx, rfl, _⟩ := post_facts h2
        rfl
      | rc3 o e => simp only [Spec.resumeCont, Res.ok.injEq] at h1; subst h1; rfl
  | _ =>
    right; right; right; right
    simp only [Spec.step] at hs
    (repeat' split at hs) <;> simp only [Res.ok.injEq, Prod.mk.injEq, reduceCtorEq] at hs <;> obtain ⟨rfl, rfl⟩ := hs <;>
      exact ⟨rfl, by intro i e hh; cases hh⟩

/-- Something is waiting for `ao`, which is registered at priority `p`. -/
def Waits (a : Abs) (ao p : Nat) : Prop :=
  a.reg p = some ao ∧ ∃ y, a.aos[ao]? = some y ∧ y.prio = p ∧ y.q.items ≠ []

/-- An object of a lower priority than `p` has been selected and not dispatched yet. -/
def lo (a : Abs) (p : Nat) : Nat :=
  match a.ph with
  | .fetch i => if p < (a.aos.map (·.prio))[i]?.getD 0 then 1 else 0
  | _ => 0

theorem waits_step (h : R c w a) {ao p : Nat} {op : Op} {o : Out} {a1 : Abs} (hl : Legal c a op)
    (hs : Spec.step c a op = .ok (a1, o)) (hw : Waits a ao p) (hd : ∀ e, o ≠ .dispatch ao e) : Waits a1 ao p := by
  obtain ⟨hr, y, hy, hyp, hi⟩ := hw
  have hb := books h hs
  have hlt : ao < a.aos.length := (List.getElem?_eq_some_iff.mp hy).1
  have hpr : (a1.aos.map (·.prio))[ao]? = some p := by
    rw [hb.prio, List.getElem?_append_left (by simpa using hlt), List.getElem?_map, hy]
    simp [hyp]
  obtain ⟨f, b, hg⟩ := grow_step h ao hs
  have hdd : Obs.dispatched ao [o] = [] := by
    cases o with
    | dispatch i e =>
      by_cases hia : i = ao
      · subst hia; exact absurd rfl (hd e)
      · simp [Obs.dispatched, hia]
    | _ => rfl
  rw [hdd, List.nil_append] at hg
  refine ⟨?_, ?_⟩
  · rw [hb.reg]
    cases op with
    | activate q mem n =>
      simp only [Spec.step] at hs
      split at hs
      · cases hs
      rename_i hn
      simp only [Obs.registry]
      rw [if_neg]
      · exact hr
      · rintro rfl
        exact hn (.inr (.inr (by rw [hr]; simp)))
    | terminate i =>
      obtain ⟨z, hz, hzr, hze⟩ := hl
      simp only [Obs.registry]
      rw [if_neg]
      · exact hr
      · intro hh
        rw [List.getElem?_map, hz] at hh
        simp only [Option.map_some, Option.some.injEq] at hh
        rw [hh, hr] at hzr
        cases hzr
        rw [hy] at hz; cases hz
        exact hi hze
    | _ => simpa [Obs.registry] using hr
  · rw [List.getElem?_map] at hpr
    cases hy1 : a1.aos[ao]? with
    | none => rw [hy1] at hpr; cases hpr
    | some z =>
      rw [hy1] at hpr
      simp only [Option.map_some, Option.some.injEq] at hpr
      refine ⟨z, rfl, hpr, ?_⟩
      simp only [itemsOf, hy1, hy, Option.map_some, Option.getD_some] at hg
      rw [hg]
      simp [hi]

theorem lo_step (h : R c w a) {ao p : Nat} {op : Op} {o : Out} {a1 : Abs}
    (hs : Spec.step c a op = .ok (a1, o)) (hw : Waits a ao p) (ht : ∀ i, op ≠ .take i)
    {prs t : List Nat} (hp : prs = a.aos.map (·.prio) ++ t) : Obs.lower prs p [o] + lo a1 p ≤ lo a p := by
  have hb := books h hs
  have pre : ∀ i, i < a.aos.length → (a1.aos.map (·.prio))[i]? = (a.aos.map (·.prio))[i]? := by
    intro i hi
    rw [hb.prio, List.getElem?_append_left (by simpa using hi)]
  rcases ph_step h hs with ⟨rfl, hc⟩ | ⟨rfl, i, e, x, h1, hx, h2, rfl⟩ | ⟨rfl, h1, rfl⟩ | ⟨i, e, rfl, _⟩ | ⟨h1, h2⟩
  · rcases hc with ⟨h1, rfl⟩ | ⟨i, q, hi, hf, h1, rfl⟩
    · have : lo a1 p = lo a p := by
        unfold lo
        rw [h1]
        cases hph : a.ph with
        | fetch i =>
          simp only
          by_cases hi : i < a.aos.length
          · rw [pre i hi]
          · have hl1 : (a1.aos.map (·.prio)) = a.aos.map (·.prio) := by rw [hb.prio]; simp [Obs.activations]
            rw [hl1]
        | _ => rfl
      simp [Obs.lower, this]
    · have hlo : lo a1 p = 0 := by
        unfold lo
        rw [h1]
        simp only
        rw [if_neg]
        obtain ⟨hr, y, hy, hyp, hne⟩ := hw
        obtain ⟨x, hx, hxq⟩ := (h.ao.regOk q i hi).2
        rw [pre i (List.getElem?_eq_some_iff.mp hx).1, List.getElem?_map, hx]
        simp only [Option.map_some, Option.getD_some, hxq]
        have hpm : p < c.maxSma := by rw [← hyp]; exact h.ao.prioOk y (List.mem_of_getElem? hy)
        intro hlt
        have hpend : pending a p = true := by
          simp [pending, hr, hy, hne]
        rw [List.find?_range_eq_some] at hf
        have := hf.2.2 p hlt
        rw [hpend] at this
        simp at this
      simp [Obs.lower, hlo]
  · have hlo : lo a1 p = 0 := by unfold lo; rw [h2]
    have hlt := (List.getElem?_eq_some_iff.mp hx).1
    have : prs[i]? = (a.aos.map (·.prio))[i]? := by rw [hp, List.getElem?_append_left (by simpa using hlt)]
    rw [hlo]
    simp only [Obs.lower, this, lo, h1]
    omega
  · have hlo : lo a1 p = 0 := by unfold lo; rw [h1]
    simp [Obs.lower, hlo]
  · exact absurd rfl (ht i)
  · have hz : Obs.lower prs p [o] = 0 := by
      cases o with
      | dispatch i e => exact absurd rfl (h2 i e)
      | _ => rfl
    have : lo a1 p ≤ lo a p := by
      unfold lo
      rw [h1]
      cases hph : a.ph with
      | fetch i =>
        simp only
        by_cases hi : i < a.aos.length
        · rw [pre i hi]; exact Nat.le_refl _
        · obtain ⟨x, hx, _⟩ := h.fetchOk i hph
          exact absurd (List.getElem?_eq_some_iff.mp hx).1 hi
      | _ => exact Nat.le_refl _
    omega

theorem lower_cons (prs : List Nat) (p : Nat) (o : Out) (outs : List Out) :
    Obs.lower prs p (o :: outs) = Obs.lower prs p [o] + Obs.lower prs p outs := by
  cases o <;> simp [Obs.lower]

theorem waits_run (wf : Wf c) (ao p : Nat) : ∀ (ops : List Op) (w : World) (a : Abs) (outs : List Out) (a' : Abs), R c w a →
    LegalRun c a ops → runOps (Spec.step c) a ops = (outs, .ok a') →
    (∃ t, a'.aos.map (·.prio) = a.aos.map (·.prio) ++ t) ∧
    (Waits a ao p → (∀ i, Op.take i ∉ ops) → (∀ e, Out.dispatch ao e ∉ outs) →
      Waits a' ao p ∧ Obs.lower (a'.aos.map (·.prio)) p outs + lo a' p ≤ lo a p) := by
  refine run_induct wf (P := fun ops outs a a' => (∃ t, a'.aos.map (·.prio) = a.aos.map (·.prio) ++ t) ∧
    (Waits a ao p → (∀ i, Op.take i ∉ ops) → (∀ e, Out.dispatch ao e ∉ outs) →
      Waits a' ao p ∧ Obs.lower (a'.aos.map (·.prio)) p outs + lo a' p ≤ lo a p)) ?_ ?_
  · intro a
    exact ⟨⟨[], by simp⟩, fun hw _ _ => ⟨hw, by simp [Obs.lower]⟩⟩
  · intro w a op o a1 ops outs a2 hR hl hs ⟨⟨t, ht⟩, ih⟩
    have hb := books hR hs
    have hpre : a2.aos.map (·.prio) = a.aos.map (·.prio) ++ (Obs.activations [op] ++ t) := by
      rw [ht, hb.prio, List.append_assoc]
    refine ⟨⟨_, hpre⟩, fun hw htk hd => ?_⟩
    have hw1 := waits_step hR hl hs hw (fun e he => hd e (by simp [he]))
    have h1 := lo_step hR hs hw (fun i hi => htk i (by simp [hi])) hpre
    obtain ⟨hw2, h2⟩ := ih hw1 (fun i hi => htk i (by simp [hi])) (fun e he => hd e (by simp [he]))
    refine ⟨hw2, ?_⟩
    rw [lower_cons]
    omega

theorem order_run (wf : Wf c) (ao : Nat) : ∀ (ops : List Op) (w : World) (a : Abs) (outs : List Out) (a' : Abs), R c w a →
    LegalRun c a ops → runOps (Spec.step c) a ops = (outs, .ok a') →
    (itemsOf a ao).Sublist (Obs.dispatched ao outs ++ itemsOf a' ao) := by
  refine run_induct wf (P := fun ops outs a a' => (itemsOf a ao).Sublist (Obs.dispatched ao outs ++ itemsOf a' ao)) ?_ ?_
  · intro a; simp [Obs.dispatched]
  · intro w a op o a1 ops outs a2 hR hl hs ih
    obtain ⟨f, b, hg⟩ := grow_step hR ao hs
    have h1 : (itemsOf a ao).Sublist (Obs.dispatched ao [o] ++ itemsOf a1 ao) := by
      rw [hg]
      exact (List.sublist_append_left _ _).trans (List.sublist_append_right _ _)
    rw [dispatched_cons, List.append_assoc]
    exact h1.trans (List.Sublist.append_left ih _)

/-- Only existing objects are dispatched to. -/
theorem known_run (wf : Wf c) : ∀ (ops : List Op) (w : World) (a : Abs) (outs : List Out) (a' : Abs), R c w a →
    LegalRun c a ops → runOps (Spec.step c) a ops = (outs, .ok a') →
    a.aos.length ≤ a'.aos.length ∧ ∀ i e, Out.dispatch i e ∈ outs → i < a'.aos.length := by
  refine run_induct wf (P := fun ops outs a a' =>
    a.aos.length ≤ a'.aos.length ∧ ∀ i e, Out.dispatch i e ∈ outs → i < a'.aos.length) ?_ ?_
  · intro a; simp
  · intro w a op o a1 ops outs a2 hR hl hs ⟨h1, h2⟩
    have hlen : a.aos.length ≤ a1.aos.length := by
      have := congrArg List.length (books hR hs).prio
      simp only [List.length_map, List.length_append] at this
      omega
    refine ⟨Nat.le_trans hlen h1, fun i e he => ?_⟩
    rcases List.mem_cons.mp he with rfl | he
    · have : i < a.aos.length := by
        rcases ph_step hR hs with ⟨_, ⟨_, hc⟩ | ⟨_, _, _, _, _, hc⟩⟩ | ⟨_, j, e', x, _, hx, _, hc⟩ | ⟨_, _, hc⟩ | ⟨j, e', rfl, hc⟩ | ⟨_, hc⟩
        · cases hc
        · cases hc
        · cases hc; exact (List.getElem?_eq_some_iff.mp hx).1
        · cases hc
        · cases hc
          obtain ⟨⟨x, hx, _⟩, _⟩ := hl
          exact (List.getElem?_eq_some_iff.mp hx).1
        · exact absurd rfl (hc i e)
      omega
    · exact h2 i e he

theorem sentAny_cons (ao : Nat) (op : Op) (o : Out) (hs : Obs.Hist) (a : Abs) :
    Obs.sentAny ao ((op, o) :: hs) (a.aos.map (·.prio)) a.reg a.sub =
      sentAny1 ao a op o ++ Obs.sentAny ao hs (a.aos.map (·.prio) ++ Obs.activations [op]) (Obs.registry [op] (a.aos.map (·.prio)) a.reg)
        (fun ch p => Obs.subscribed ch p [op] (a.aos.map (·.prio)) (a.sub ch p)) := by
  simp only [Obs.sentAny]
  congr 1
  cases op <;> simp only [sentAny1]
  rw [List.getElem?_map]
  cases a.aos[ao]? <;> rfl

theorem flow_run (wf : Wf c) (ao : Nat) : ∀ (ops : List Op) (w : World) (a : Abs) (outs : List Out) (a' : Abs), R c w a →
    LegalRun c a ops → runOps (Spec.step c) a ops = (outs, .ok a') →
    (itemsOf a ao ++ Obs.recalling ao a.conts ++ Obs.sentAny ao (ops.zip outs) (a.aos.map (·.prio)) a.reg a.sub).Perm
      (Obs.dispatched ao outs ++ (itemsOf a' ao ++ Obs.recalling ao a'.conts)) := by
  refine run_induct wf (P := fun ops outs a a' =>
    (itemsOf a ao ++ Obs.recalling ao a.conts ++ Obs.sentAny ao (ops.zip outs) (a.aos.map (·.prio)) a.reg a.sub).Perm
      (Obs.dispatched ao outs ++ (itemsOf a' ao ++ Obs.recalling ao a'.conts))) ?_ ?_
  · intro a; simp [Obs.sentAny, Obs.dispatched]
  · intro w a op o a1 ops outs a2 hR hl hs ih
    have h1 : (_ : List Nat).Perm _ := flow_step hR ao hl hs
    have hb := books hR hs
    have e1 : Obs.sentAny ao (ops.zip outs) (a.aos.map (·.prio) ++ Obs.activations [op])
        (Obs.registry [op] (a.aos.map (·.prio)) a.reg)
        (fun ch p => Obs.subscribed ch p [op] (a.aos.map (·.prio)) (a.sub ch p)) =
        Obs.sentAny ao (ops.zip outs) (a1.aos.map (·.prio)) a1.reg a1.sub := by
      rw [hb.prio, hb.reg]
      congr 1
      funext ch p
      exact (hb.sub ch p).symm
    rw [List.zip_cons_cons, sentAny_cons, e1, dispatched_cons ao o outs, List.append_assoc (Obs.dispatched ao [o])]
    refine List.Perm.trans ?_ (List.Perm.append_left _ ih)
    rw [← List.append_assoc, ← List.append_assoc]
    refine List.Perm.append_right _ ?_
    exact h1

end

section
variable {c : Cfg} {slots : List MemPool.Pool} {hdr : Nat → Evt} {ops : List Op} {outs : List Out} {w : World}

/-! ### C129: every event sent is dispatched exactly once -/

/-- **C129.** Whatever mixture of FIFO posts, LIFO posts, publications and recalls was used, the events sent to an object are
exactly, with multiplicity, the events dispatched to it together with those in its queue and those a recall is about to
put there: nothing is lost, duplicated or invented. -/
theorem sent_is_dispatched_or_waiting (h : Run c slots hdr ops outs w) {ao : Nat} {x : Ao} (hx : w.aos[ao]? = some x) :
    (Obs.sentAny ao (ops.zip outs) [] (fun _ => none) (fun _ _ => false)).Perm
      (Obs.dispatched ao outs ++ (Obs.contents x.q ++ Obs.recalling ao w.conts)) := by
  obtain ⟨a, hR, hr, hb⟩ := h.full
  have := flow_run h.env.wf ao ops _ _ _ _ (R_init h.env) h.legal hr
  have h0 : itemsOf (Spec.init fun e => (hdr e).sig) ao = [] := rfl
  have h1 : Obs.recalling ao (Spec.init fun e => (hdr e).sig).conts = [] := rfl
  rw [h0, h1, List.nil_append, List.nil_append] at this
  refine List.Perm.trans (by exact .refl _) (this.trans ?_)
  have hlt : ao < a.aos.length := by rw [← hR.ao.aos.1]; exact (List.getElem?_eq_some_iff.mp hx).1
  have hrel := (hR.ao.aos.2 ao x _ hx (List.getElem?_eq_getElem hlt)).2
  rw [contents_eq hrel, hR.conts]
  simp [itemsOf, List.getElem?_eq_getElem hlt]

/-- **C129.** When its queue is empty and no recall is under way, an object has been dispatched exactly what was sent to it. -/
theorem all_sent_is_dispatched (h : Run c slots hdr ops outs w) {ao : Nat} {x : Ao} (hx : w.aos[ao]? = some x)
    (hq : Obs.contents x.q = []) (hr : ∀ e, Cont.rc2 ao e ∉ w.conts) :
    (Obs.sentAny ao (ops.zip outs) [] (fun _ => none) (fun _ _ => false)).Perm (Obs.dispatched ao outs) := by
  have h1 := sent_is_dispatched_or_waiting h hx
  have : ∀ l : List Cont, (∀ e, Cont.rc2 ao e ∉ l) → Obs.recalling ao l = [] := by
    intro l
    induction l with
    | nil => intro _; rfl
    | cons t l ih =>
      intro hl
      have := ih (fun e he => hl e (by simp [he]))
      cases t with
      | rc2 i e =>
        by_cases hi : i = ao
        · subst hi; exact absurd (by simp) (hl e)
        · simp [Obs.recalling, hi, this]
      | _ => exact this
  rw [hq, this _ hr] at h1
  simpa using h1

/-! ### C128, C130: what happens to waiting events -/

/-- The second of two runs continues the abstract state of the first. -/
theorem Run.more {ops2 : List Op} {outs2 : List Out} {w2 : World} (h : Run c slots hdr ops outs w)
    (h2 : Run c slots hdr (ops ++ ops2) (outs ++ outs2) w2) :
    ∃ a a2, R c w a ∧ R c w2 a2 ∧ LegalRun c a ops2 ∧ runOps (Spec.step c) a ops2 = (outs2, .ok a2) ∧
      BooksRun ops outs (Spec.init fun e => (hdr e).sig) a ∧
      BooksRun (ops ++ ops2) (outs ++ outs2) (Spec.init fun e => (hdr e).sig) a2 := by
  obtain ⟨a, hR, hr, hb⟩ := h.full
  obtain ⟨a2, hR2, hr2, hb2⟩ := h2.full
  obtain ⟨k1, k2⟩ := runOps_append_ok ops ops2 (Spec.init fun e => (hdr e).sig) a (f := Spec.step c) (by rw [hr])
  rw [hr2, hr] at k1
  rw [hr2] at k2
  refine ⟨a, a2, hR, hR2, (legalRun_append.mp h2.legal).2 _ _ hr, ?_, hb, hb2⟩
  exact Prod.ext (List.append_cancel_left k1).symm k2.symm

theorem items_of_contents {a : Abs} (hR : R c w a) {ao : Nat} {x : Ao} (hx : w.aos[ao]? = some x) :
    ∃ y, a.aos[ao]? = some y ∧ y.prio = x.prio ∧ y.q.items = Obs.contents x.q := by
  have hlt : ao < a.aos.length := by rw [← hR.ao.aos.1]; exact (List.getElem?_eq_some_iff.mp hx).1
  have hrel := hR.ao.aos.2 ao x _ hx (List.getElem?_eq_getElem hlt)
  exact ⟨_, List.getElem?_eq_getElem hlt, hrel.1.symm, (contents_eq hrel.2).symm⟩

/-- The common part of the two statements of C128. -/
theorem response_core {ops2 : List Op} {outs2 : List Out} {w2 : World} (h : Run c slots hdr ops outs w)
    (h2 : Run c slots hdr (ops ++ ops2) (outs ++ outs2) w2) {ao : Nat} {x : Ao} (hx : w.aos[ao]? = some x)
    (hreg : Obs.registry ops [] (fun _ => none) x.prio = some ao) (hc : Obs.contents x.q ≠ [])
    (ht : ∀ i, Op.take i ∉ ops2) (hd : ∀ e, Out.dispatch ao e ∉ outs2) :
    ∃ a, R c w a ∧ (∃ x2, w2.aos[ao]? = some x2 ∧ Obs.contents x2.q ≠ []) ∧
      Obs.lower (Obs.activations (ops ++ ops2)) x.prio outs2 ≤ lo a x.prio := by
  obtain ⟨a, a2, hR, hR2, hl, hr, hb, hb2⟩ := h.more h2
  obtain ⟨y, hy, hyp, hyi⟩ := items_of_contents hR hx
  have hw : Waits a ao x.prio := by
    refine ⟨?_, y, hy, hyp, by rw [hyi]; exact hc⟩
    rw [hb.reg]
    exact hreg
  obtain ⟨_, k⟩ := waits_run h.env.wf ao x.prio ops2 w a outs2 a2 hR hl hr
  obtain ⟨⟨_, z, hz, _, hze⟩, hlow⟩ := k hw ht hd
  refine ⟨a, hR, ?_, ?_⟩
  · have hlt : ao < w2.aos.length := by rw [hR2.ao.aos.1]; exact (List.getElem?_eq_some_iff.mp hz).1
    obtain ⟨z', hz', _, hzi⟩ := items_of_contents hR2 (List.getElem?_eq_getElem hlt)
    rw [hz] at hz'; cases hz'
    exact ⟨_, List.getElem?_eq_getElem hlt, by rw [← hzi]; exact hze⟩
  · have : a2.aos.map (·.prio) = Obs.activations (ops ++ ops2) := by
      rw [hb2.prio]; rfl
    rw [← this]
    omega

/-- **C128.** Bounded priority inversion under the cooperative scheduler. From the moment an event waits for an object until the
object is dispatched, at most one event is dispatched to objects of lower priority, whatever is called meanwhile and
however many events are posted to them; and the object keeps being ready. -/
theorem response (h : Run c slots hdr ops outs w) {ops2 : List Op} {outs2 : List Out} {w2 : World}
    (h2 : Run c slots hdr (ops ++ ops2) (outs ++ outs2) w2) {ao : Nat} {x : Ao} (hx : w.aos[ao]? = some x)
    (hreg : Obs.registry ops [] (fun _ => none) x.prio = some ao) (hc : Obs.contents x.q ≠ [])
    (ht : ∀ i, Op.take i ∉ ops2) (hd : ∀ e, Out.dispatch ao e ∉ outs2) :
    (∃ x2, w2.aos[ao]? = some x2 ∧ Obs.contents x2.q ≠ []) ∧
      Obs.lower (Obs.activations (ops ++ ops2)) x.prio outs2 ≤ 1 := by
  obtain ⟨a, _, h3, h4⟩ := response_core h h2 hx hreg hc ht hd
  refine ⟨h3, Nat.le_trans h4 ?_⟩
  unfold lo
  split
  · split <;> omega
  · omega

/-- **C128.** The one exception is the object selected before the event arrived: if the scheduler is not between selecting an
object and fetching its event, that is, it is idle or in the middle of a run-to-completion step, no object of lower
priority is dispatched at all before the waiting one. -/
theorem response_at_once (h : Run c slots hdr ops outs w) {ops2 : List Op} {outs2 : List Out} {w2 : World}
    (h2 : Run c slots hdr (ops ++ ops2) (outs ++ outs2) w2) {ao : Nat} {x : Ao} (hx : w.aos[ao]? = some x)
    (hreg : Obs.registry ops [] (fun _ => none) x.prio = some ao) (hc : Obs.contents x.q ≠ [])
    (ht : ∀ i, Op.take i ∉ ops2) (hd : ∀ e, Out.dispatch ao e ∉ outs2) (hph : ∀ i, w.ph ≠ .fetch i) :
    Obs.lower (Obs.activations (ops ++ ops2)) x.prio outs2 = 0 := by
  obtain ⟨a, hR, h3, h4⟩ := response_core h h2 hx hreg hc ht hd
  have : lo a x.prio = 0 := by
    unfold lo
    rw [← hR.ph]
    split
    · rename_i i hi; exact absurd hi (hph i)
    · rfl
  omega

/-- **C128.** For an object of the highest priority of all: at most one other dispatch before its next one. -/
theorem response_of_highest (h : Run c slots hdr ops outs w) {ops2 : List Op} {outs2 : List Out} {w2 : World}
    (h2 : Run c slots hdr (ops ++ ops2) (outs ++ outs2) w2) {ao : Nat} {x : Ao} (hx : w.aos[ao]? = some x)
    (hreg : Obs.registry ops [] (fun _ => none) x.prio = some ao) (hc : Obs.contents x.q ≠ [])
    (ht : ∀ i, Op.take i ∉ ops2) (hd : ∀ e, Out.dispatch ao e ∉ outs2)
    (hhi : ∀ (i : Nat) (y : Ao), w2.aos[i]? = some y → i ≠ ao → x.prio < y.prio) :
    Obs.others ao outs2 ≤ 1 := by
  obtain ⟨_, h3⟩ := response h h2 hx hreg hc ht hd
  obtain ⟨a, a2, hR, hR2, hl, hr, _, hb2⟩ := h.more h2
  have hex : ∀ i e, Out.dispatch i e ∈ outs2 → i < w2.aos.length := by
    rw [hR2.ao.aos.1]
    exact (known_run h.env.wf ops2 w a outs2 a2 hR hl hr).2
  have hpr : ∀ (i : Nat) (y : Ao), w2.aos[i]? = some y → (Obs.activations (ops ++ ops2))[i]? = some y.prio := by
    intro i y hy
    obtain ⟨z, hz, hzp, _⟩ := items_of_contents hR2 hy
    have : a2.aos.map (·.prio) = Obs.activations (ops ++ ops2) := by rw [hb2.prio]; rfl
    rw [← this, List.getElem?_map, hz]
    simp [hzp]
  have : ∀ l : List Out, (∀ i e, Out.dispatch i e ∈ l → i < w2.aos.length) →
      Obs.others ao l ≤ Obs.lower (Obs.activations (ops ++ ops2)) x.prio l := by
    intro l
    induction l with
    | nil => intro _; simp [Obs.others, Obs.lower]
    | cons o l ih =>
      intro hl
      have := ih (fun i e he => hl i e (by simp [he]))
      cases o with
      | dispatch i e =>
        simp only [Obs.others, Obs.lower]
        have hi := hl i e (by simp)
        by_cases hia : i = ao
        · simp only [hia, if_true]; omega
        · rw [hpr i _ (List.getElem?_eq_getElem hi), Option.getD_some, if_pos (hhi i _ (List.getElem?_eq_getElem hi) hia)]
          simp only [hia, if_false]; omega
      | _ => exact this
  exact Nat.le_trans (this outs2 hex) h3

/-- **C130.** The events waiting for an object are dispatched in the order in which they wait: over any continuation they are a
subsequence of what is dispatched to it followed by what then waits. Posts, whether FIFO or LIFO, publications and
recalls never reorder or drop them. -/
theorem waiting_keep_order (h : Run c slots hdr ops outs w) {ops2 : List Op} {outs2 : List Out} {w2 : World}
    (h2 : Run c slots hdr (ops ++ ops2) (outs ++ outs2) w2) {ao : Nat} {x x2 : Ao} (hx : w.aos[ao]? = some x)
    (hx2 : w2.aos[ao]? = some x2) :
    (Obs.contents x.q).Sublist (Obs.dispatched ao outs2 ++ Obs.contents x2.q) := by
  obtain ⟨a, a2, hR, hR2, hl, hr, _, _⟩ := h.more h2
  obtain ⟨y, hy, _, hyi⟩ := items_of_contents hR hx
  obtain ⟨y2, hy2, _, hyi2⟩ := items_of_contents hR2 hx2
  have := order_run h.env.wf ao ops2 w a outs2 a2 hR hl hr
  simp only [itemsOf, hy, hy2, Option.map_some, Option.getD_some, hyi, hyi2] at this
  exact this

end

namespace Demo

/-- Object 0 (priority 3) has been selected when an event arrives for object 1 (priority 1). -/
def late : List Op := setup ++ [.postFifo 0 900, .select, .postFifo 1 901]

/-- Object 0 is dispatched first and gets more events meanwhile. -/
def lateMore : List Op := [.fetch, .postFifo 0 900, .postLifo 1 900, .done, .resume 0, .select]

/-- C128: the hypotheses of `response` are met and its bound is attained: one dispatch of lower priority. -/
example : ∃ w w2 x, Run cfg slots hdr late (outs late) w ∧ Run cfg slots hdr (late ++ lateMore) (outs late ++ (outs (late ++ lateMore)).drop 10) w2 ∧
    w.aos[1]? = some x ∧ Obs.registry late [] (fun _ => none) x.prio = some 1 ∧ Obs.contents x.q ≠ [] ∧
    (∀ i, Op.take i ∉ lateMore) ∧ (∀ e, Out.dispatch 1 e ∉ (outs (late ++ lateMore)).drop 10) ∧
    Obs.lower (Obs.activations (late ++ lateMore)) x.prio ((outs (late ++ lateMore)).drop 10) = 1 ∧
    (∀ (i : Nat) (y : Ao), w2.aos[i]? = some y → i ≠ 1 → x.prio < y.prio) := by
  obtain ⟨w, h, hR⟩ := mk (ops := late) (by decide +kernel)
  obtain ⟨w2, h2, hR2⟩ := mk (ops := late ++ lateMore) (by decide +kernel)
  obtain ⟨x, hx, hxp, hxr⟩ := hR.ao.aos.get (i := 1) rfl
  have hx1 : x.prio = 1 := hxp.trans (by decide +kernel)
  have hou : (outs (late ++ lateMore)).drop 10 = [.dispatch 0 900, .unit, .unit, .unit, .unit, .chose 1] := by decide +kernel
  have hcat : outs (late ++ lateMore) = outs late ++ (outs (late ++ lateMore)).drop 10 := by decide +kernel
  refine ⟨w, w2, x, h, by rw [← hcat]; exact h2, hx, by rw [hx1]; decide +kernel, ?_, ?_, ?_, ?_, ?_⟩
  · rw [contents_eq hxr]; decide +kernel
  · simp [lateMore]
  · rw [hou]; simp
  · rw [hou, hx1]; decide +kernel
  · intro i y hy hi
    have hlt : i < (fin (late ++ lateMore)).aos.length := by
      rw [← hR2.ao.aos.1]; exact (List.getElem?_eq_some_iff.mp hy).1
    rw [show (fin (late ++ lateMore)).aos.length = 2 by decide +kernel] at hlt
    obtain rfl : i = 0 := by omega
    obtain ⟨y', hy', hyp, _⟩ := hR2.ao.aos.get (i := 0) rfl
    rw [hy] at hy'; cases hy'
    rw [hx1, hyp]; decide +kernel

/-- An event for object 1 arrives in the middle of a run-to-completion step of object 0. -/
def during : List Op := setup ++ [.postFifo 0 900, .select, .fetch, .postFifo 1 901]

/-- C128: the hypotheses of `response_at_once`, with other objects having work to do as well. -/
example : ∃ w w2 x, Run cfg slots hdr during (outs during) w ∧
    Run cfg slots hdr (during ++ [.postFifo 0 900, .done, .select]) (outs during ++ (outs (during ++ [.postFifo 0 900, .done, .select])).drop 11) w2 ∧
    w.aos[1]? = some x ∧ Obs.registry during [] (fun _ => none) x.prio = some 1 ∧ Obs.contents x.q ≠ [] ∧ (∀ i, w.ph ≠ .fetch i) ∧
    (outs (during ++ [.postFifo 0 900, .done, .select])).drop 11 = [.unit, .unit, .chose 1] := by
  obtain ⟨w, h, hR⟩ := mk (ops := during) (by decide +kernel)
  obtain ⟨w2, h2, hR2⟩ := mk (ops := during ++ [.postFifo 0 900, .done, .select]) (by decide +kernel)
  obtain ⟨x, hx, hxp, hxr⟩ := hR.ao.aos.get (i := 1) rfl
  have hx1 : x.prio = 1 := hxp.trans (by decide +kernel)
  have hcat : outs (during ++ [.postFifo 0 900, .done, .select]) =
    outs during ++ (outs (during ++ [.postFifo 0 900, .done, .select])).drop 11 := by decide +kernel
  refine ⟨w, w2, x, h, by rw [← hcat]; exact h2, hx, by rw [hx1]; decide +kernel, ?_, ?_, by decide +kernel⟩
  · rw [contents_eq hxr]; decide +kernel
  · intro i hi
    rw [hR.ph, show (fin during).ph = .run 0 900 by decide +kernel] at hi
    cases hi

/-- C129: object 1 of the scenario was sent events by publishing, by posting, in LIFO order and by a recall; all were dispatched. -/
example : ∃ w x, Run cfg slots hdr sc6 (outs sc6) w ∧ w.aos[1]? = some x ∧ Obs.contents x.q = [] ∧ w.conts = [] ∧
    Obs.sentAny 1 (sc6.zip (outs sc6)) [] (fun _ => none) (fun _ _ => false) = [1000, 900, 1000] ∧
    Obs.dispatched 1 (outs sc6) = [1000, 1000, 900] := by
  obtain ⟨w, h, hR⟩ := mk (ops := sc6) (by decide +kernel)
  obtain ⟨x, hx, _, hxr⟩ := hR.ao.aos.get (i := 1) rfl
  refine ⟨w, x, h, hx, ?_, ?_, by decide +kernel, by decide +kernel⟩
  · rw [contents_eq hxr]
  · rw [hR.conts]; decide +kernel

/-- C129: the same in the middle of the recall, when the event is in no queue. -/
example : ∃ w x, Run cfg slots hdr (sc3 ++ [.recall 1 0]) (outs (sc3 ++ [.recall 1 0])) w ∧ w.aos[1]? = some x ∧
    Obs.contents x.q = [900] ∧ Obs.recalling 1 w.conts = [1000] := by
  obtain ⟨w, h, hR⟩ := mk (ops := sc3 ++ [.recall 1 0]) (by decide +kernel)
  obtain ⟨x, hx, _, hxr⟩ := hR.ao.aos.get (i := 1) rfl
  refine ⟨w, x, h, hx, ?_, ?_⟩
  · rw [contents_eq hxr]; decide +kernel
  · rw [hR.conts]; decide +kernel

/-- C130: two events wait, a third jumps the queue and one is dispatched. -/
example : ∃ w w2 x x2, Run cfg slots hdr (setup ++ [.postFifo 1 900, .postFifo 1 901]) (outs (setup ++ [.postFifo 1 900, .postFifo 1 901])) w ∧
    Run cfg slots hdr ((setup ++ [.postFifo 1 900, .postFifo 1 901]) ++ [.postLifo 1 901, .select, .fetch])
      (outs (setup ++ [.postFifo 1 900, .postFifo 1 901]) ++ [.unit, .chose 1, .dispatch 1 901]) w2 ∧
    w.aos[1]? = some x ∧ w2.aos[1]? = some x2 ∧ Obs.contents x.q = [900, 901] ∧ Obs.contents x2.q = [900, 901] := by
  obtain ⟨w, h, hR⟩ := mk (ops := setup ++ [.postFifo 1 900, .postFifo 1 901]) (by decide +kernel)
  obtain ⟨w2, h2, hR2⟩ := mk (ops := (setup ++ [.postFifo 1 900, .postFifo 1 901]) ++ [.postLifo 1 901, .select, .fetch]) (by decide +kernel)
  obtain ⟨x, hx, _, hxr⟩ := hR.ao.aos.get (i := 1) rfl
  obtain ⟨x2, hx2, _, hxr2⟩ := hR2.ao.aos.get (i := 1) rfl
  refine ⟨w, w2, x, x2, h, ?_, hx, hx2, ?_, ?_⟩
  · have : outs ((setup ++ [.postFifo 1 900, .postFifo 1 901]) ++ [.postLifo 1 901, .select, .fetch]) =
      outs (setup ++ [.postFifo 1 900, .postFifo 1 901]) ++ [.unit, .chose 1, .dispatch 1 901] := by decide +kernel
    rw [← this]; exact h2
  · rw [contents_eq hxr]; decide +kernel
  · rw [contents_eq hxr2]; decide +kernel

end Demo
end Verif.Fwk
