import Verif.Fwk.Main
/-
Closed form of the deliveries of one publish, and facts about single queues along histories.
-/
namespace Verif.Fwk
open Verif Verif.Fwk.Spec

variable {c : Cfg} {w : World} {a : Abs}

/-- The queues after delivering `e` to the objects registered at the priorities `l`, the sender excepted. -/
def delivered (e : Nat) (s : Option Nat) (reg : Nat → Option Nat) (l : List Nat) (aos : List AAo) : List AAo :=
  aos.mapIdx fun i x =>
    if reg x.prio = some i ∧ x.prio ∈ l ∧ some i ≠ s then { x with q := { x.q with items := x.q.items ++ [e] } } else x

/-- The object registered at priority `p` exists and is the sender or has room. -/
def CanTake (a : Abs) (s : Option Nat) (p : Nat) : Prop :=
  ∃ i x, a.reg p = some i ∧ a.aos[i]? = some x ∧ (some i = s ∨ x.q.items.length ≠ x.q.cap)

theorem deliver_fold {e : Nat} {s : Option Nat} : ∀ (l : List Nat) (a : Abs),
    (∀ p i, a.reg p = some i → ∃ x, a.aos[i]? = some x ∧ x.prio = p) → l.Nodup → a.fresh.erase e = a.fresh →
    ((∀ p ∈ l, CanTake a s p) → RdyGrp.foldRes (Spec.deliver e s) a l = .ok { a with aos := delivered e s a.reg l a.aos }) ∧
    ((¬ ∀ p ∈ l, CanTake a s p) → RdyGrp.foldRes (Spec.deliver e s) a l = .assert) := by
  intro l
  induction l with
  | nil =>
    intro a _ _ _
    refine ⟨fun _ => ?_, fun h => absurd (by simp) h⟩
    simp only [RdyGrp.foldRes, Res.ok.injEq]
    have : delivered e s a.reg [] a.aos = a.aos := by
      unfold delivered
      apply List.ext_getElem?
      intro i
      simp only [List.not_mem_nil, false_and, and_false, if_false, List.getElem?_mapIdx]
      simp
    rw [this]
  | cons p l ih =>
    intro a hreg hnd hfr
    obtain ⟨hpl, hnd⟩ := List.nodup_cons.mp hnd
    simp only [RdyGrp.foldRes, Spec.deliver]
    cases hr : a.reg p with
    | none =>
      refine ⟨fun h => ?_, fun _ => by simp⟩
      obtain ⟨i, x, h1, _⟩ := h p (by simp)
      rw [hr] at h1; cases h1
    | some ao =>
      obtain ⟨x, hx, hxp⟩ := hreg p ao hr
      simp only
      by_cases hs : some ao = s
      · simp only [hs, if_true, Res.bind'_ok]
        have hd : delivered e s a.reg (p :: l) a.aos = delivered e s a.reg l a.aos := by
          unfold delivered
          apply List.ext_getElem?
          intro i
          simp only [List.getElem?_mapIdx]
          congr 1
          funext y
          by_cases hy : y.prio = p
          · rw [hy, hr]
            by_cases hi : ao = i
            · subst hi; simp [hs]
            · have : ¬ (some ao = some i) := by simpa using hi
              simp [this, hpl]
          · simp [hy]
        have hp : CanTake a s p := ⟨ao, x, hr, hx, .inl hs⟩
        obtain ⟨i1, i2⟩ := ih a hreg hnd hfr
        refine ⟨fun h => ?_, fun h => i2 ?_⟩
        · rw [i1 (fun q hq => h q (by simp [hq])), hd]
        · intro h'
          apply h
          intro q hq
          rcases List.mem_cons.mp hq with rfl | hq
          · exact hp
          · exact h' q hq
      · simp only [hs, if_false, Spec.post, hx, qput]
        by_cases hf : x.q.items.length = x.q.cap
        · simp only [hf, if_true, Res.bind'_assert]
          refine ⟨fun h => ?_, fun _ => trivial⟩
          obtain ⟨i, y, h1, h2, h3⟩ := h p (by simp)
          rw [hr] at h1; cases h1
          rw [hx] at h2; cases h2
          rcases h3 with h3 | h3
          · exact absurd h3 hs
          · exact absurd hf h3
        · simp only [hf, if_false, Res.bind'_ok, hfr, Bool.false_eq_true]
          have hlt : ao < a.aos.length := (List.getElem?_eq_some_iff.mp hx).1
          generalize hx' : ({ x with q := { x.q with items := x.q.items ++ [e] } } : AAo) = x'
          have hxp' : x'.prio = p := by rw [← hx']; exact hxp
          have hget : ∀ i, i ≠ ao → (a.aos.set ao x')[i]? = a.aos[i]? := fun i hi => List.getElem?_set_ne (Ne.symm hi)
          have hreg' : ∀ q i, a.reg q = some i → ∃ y, (a.aos.set ao x')[i]? = some y ∧ y.prio = q := by
            intro q i hq
            by_cases hi : i = ao
            · subst hi
              obtain ⟨y, hy, hyp⟩ := hreg q i hq
              rw [hx] at hy; cases hy
              exact ⟨x', List.getElem?_set_self hlt, by rw [hxp', ← hxp, hyp]⟩
            · rw [hget i hi]; exact hreg q i hq
          have hct : ∀ q ∈ l, CanTake { a with aos := a.aos.set ao x' } s q ↔ CanTake a s q := by
            intro q hq
            unfold CanTake
            have hqp : q ≠ p := by rintro rfl; exact hpl hq
            constructor
            · rintro ⟨i, y, h1, h2, h3⟩
              refine ⟨i, y, h1, ?_, h3⟩
              have : i ≠ ao := by
                rintro rfl
                obtain ⟨z, hz, hzp⟩ := hreg q i h1
                rw [hx] at hz; cases hz
                exact hqp (hzp.symm.trans hxp)
              rw [← hget i this]; exact h2
            · rintro ⟨i, y, h1, h2, h3⟩
              refine ⟨i, y, h1, ?_, h3⟩
              have : i ≠ ao := by
                rintro rfl
                obtain ⟨z, hz, hzp⟩ := hreg q i h1
                rw [hx] at hz; cases hz
                exact hqp (hzp.symm.trans hxp)
              simp only; rw [hget i this]; exact h2
          obtain ⟨i1, i2⟩ := ih { a with aos := a.aos.set ao x' } hreg' hnd (by simp [hfr])
          have hp : CanTake a s p := ⟨ao, x, hr, hx, .inr hf⟩
          have hd : delivered e s a.reg l (a.aos.set ao x') = delivered e s a.reg (p :: l) a.aos := by
            unfold delivered
            apply List.ext_getElem?
            intro i
            simp only [List.getElem?_mapIdx]
            by_cases hi : i = ao
            · subst hi
              rw [List.getElem?_set_self hlt, hx]
              simp only [Option.map_some]
              rw [if_neg (by rw [hxp']; simp [hpl]), if_pos (by rw [hxp]; exact ⟨hr, by simp, hs⟩), hx']
            · rw [hget i hi]
              congr 1
              funext y
              by_cases hy : y.prio = p
              · rw [hy, hr]
                have : ¬ (some ao = some i) := by simpa using Ne.symm hi
                simp [this]
              · simp [hy]
          refine ⟨fun h => ?_, fun h => ?_⟩
          · rw [i1 (fun q hq => (hct q hq).mpr (h q (by simp [hq])))]
            simp only [hd]
          · apply i2
            intro h'
            apply h
            intro q hq
            rcases List.mem_cons.mp hq with rfl | hq
            · exact hp
            · exact (hct q hq).mp (h' q hq)

/-- The events waiting for active object `ao` in the specification. -/
def itemsOf (a : Abs) (ao : Nat) : List Nat := (a.aos[ao]?.map (·.q.items)).getD []

theorem itemsOf_set {a : Abs} {i j : Nat} {x : AAo} (hx : a.aos[i]? = some x) (q : AQ) (f : List Nat) :
    itemsOf { a with aos := a.aos.set i { x with q := q }, fresh := f } j = if j = i then q.items else itemsOf a j := by
  have hlt : i < a.aos.length := (List.getElem?_eq_some_iff.mp hx).1
  unfold itemsOf
  by_cases hj : j = i
  · subst hj; simp [List.getElem?_set_self hlt]
  · simp [List.getElem?_set_ne (Ne.symm hj), hj]

/-- No LIFO posts or recalls concern object `ao`. -/
def OnlyFifo (ao : Nat) (ops : List Op) : Prop := ∀ op ∈ ops, (∀ e, op ≠ .postLifo ao e) ∧ ∀ i, op ≠ .recall ao i

/-- What one operation sends to `ao`. -/
def sent1 (ao : Nat) (a : Abs) : Op → List Nat
  | .postFifo i e => if i = ao then [e] else []
  | .publish ch e s =>
    match a.aos[ao]? with
    | some x => if a.reg x.prio = some ao ∧ a.sub ch x.prio = true ∧ s ≠ some ao then [e] else []
    | none => []
  | _ => []

theorem fifo_step (h : R c w a) (ao : Nat) {op : Op} {o : Out} {a1 : Abs} (hl : Legal c a op)
    (hs : Spec.step c a op = .ok (a1, o)) (hf : OnlyFifo ao [op]) (hrc : ∀ e, Cont.rc2 ao e ∉ a.conts) :
    itemsOf a ao ++ sent1 ao a op = Obs.dispatched ao [o] ++ itemsOf a1 ao ∧ ∀ e, Cont.rc2 ao e ∉ a1.conts := by
  have keep : ∀ b : Abs, b.aos = a.aos → itemsOf b ao = itemsOf a ao := by
    intro b hb; unfold itemsOf; rw [hb]
  cases op with
  | activate p mem n =>
    simp only [Spec.step] at hs
    split at hs
    · cases hs
    · simp only [Res.ok.injEq, Prod.mk.injEq] at hs
      obtain ⟨rfl, rfl⟩ := hs
      refine ⟨?_, hrc⟩
      simp only [sent1, Obs.dispatched, List.append_nil, List.nil_append, itemsOf]
      by_cases hao : ao < a.aos.length
      · rw [List.getElem?_append_left hao]
      · rw [List.getElem?_eq_none (by omega)]
        by_cases h2 : ao = a.aos.length
        · subst h2; simp
        · rw [List.getElem?_eq_none (by simp; omega)]
  | terminate i =>
    simp only [Spec.step] at hs
    split at hs
    · cases hs
    split at hs
    · simp only [Res.ok.injEq, Prod.mk.injEq] at hs
      obtain ⟨rfl, rfl⟩ := hs
      refine ⟨?_, hrc⟩
      simp only [sent1, Obs.dispatched, List.append_nil, List.nil_append, itemsOf]
    · cases hs
  | newDefer mem n =>
    simp only [Spec.step, Res.ok.injEq, Prod.mk.injEq] at hs
    obtain ⟨rfl, rfl⟩ := hs
    exact ⟨by simp [sent1, Obs.dispatched, itemsOf], hrc⟩
  | regPool m s n es =>
    simp only [Spec.step] at hs
    split at hs
    · cases hs
    · simp only [Res.ok.injEq, Prod.mk.injEq] at hs
      obtain ⟨rfl, rfl⟩ := hs
      exact ⟨by simp [sent1, Obs.dispatched, itemsOf], hrc⟩
  | alloc n sg =>
    simp only [Spec.step] at hs
    split at hs
    · cases hs
    split at hs
    · cases hs
    split at hs
    · cases hs
    · simp only [Res.ok.injEq, Prod.mk.injEq] at hs
      obtain ⟨rfl, rfl⟩ := hs
      exact ⟨by simp [sent1, Obs.dispatched, itemsOf], hrc⟩
  | postFifo i e =>
    simp only [Spec.step, Res.map'_eq_ok] at hs
    obtain ⟨a1, h1, h2⟩ := hs
    simp only [Prod.mk.injEq] at h2
    obtain ⟨rfl, rfl⟩ := h2
    obtain ⟨x, q, hx, rfl, rfl, _⟩ := post_facts h1
    refine ⟨?_, hrc⟩
    rw [itemsOf_set hx]
    by_cases hi : ao = i
    · subst hi; simp [sent1, Obs.dispatched, itemsOf, hx]
    · simp [sent1, Obs.dispatched, hi, Ne.symm hi]
  | postLifo i e =>
    have hi : ao ≠ i := by rintro rfl; exact (hf _ (by simp)).1 e rfl
    simp only [Spec.step, Res.map'_eq_ok] at hs
    obtain ⟨a1, h1, h2⟩ := hs
    simp only [Prod.mk.injEq] at h2
    obtain ⟨rfl, rfl⟩ := h2
    obtain ⟨x, q, hx, rfl, rfl, _⟩ := post_facts h1
    refine ⟨?_, hrc⟩
    rw [itemsOf_set hx]
    simp [sent1, Obs.dispatched, hi]
  | defer i e =>
    simp only [Spec.step] at hs
    split at hs
    · cases hs
    · simp only [Res.map'_eq_ok] at hs
      obtain ⟨q, h1, h2⟩ := hs
      simp only [Prod.mk.injEq] at h2
      obtain ⟨rfl, rfl⟩ := h2
      exact ⟨by simp [sent1, Obs.dispatched, itemsOf], hrc⟩
  | recall i j =>
    have hi : i ≠ ao := by rintro rfl; exact (hf _ (by simp)).2 j rfl
    simp only [Spec.step] at hs
    split at hs
    · cases hs
    split at hs
    · simp only [Res.ok.injEq, Prod.mk.injEq] at hs
      obtain ⟨rfl, rfl⟩ := hs
      exact ⟨by simp [sent1, Obs.dispatched, itemsOf], hrc⟩
    · simp only [Res.ok.injEq, Prod.mk.injEq] at hs
      obtain ⟨rfl, rfl⟩ := hs
      refine ⟨by simp [sent1, Obs.dispatched, itemsOf], fun e he => ?_⟩
      rcases List.mem_cons.mp he with h1 | h1
      · cases h1; exact hi rfl
      · exact hrc e h1
  | reserve e =>
    simp only [Spec.step, Res.ok.injEq, Prod.mk.injEq] at hs
    obtain ⟨rfl, rfl⟩ := hs
    exact ⟨by simp [sent1, Obs.dispatched, itemsOf], hrc⟩
  | gc e =>
    simp only [Spec.step, Res.ok.injEq, Prod.mk.injEq] at hs
    obtain ⟨rfl, rfl⟩ := hs
    exact ⟨by simp [sent1, Obs.dispatched, itemsOf], fun x hx => hrc x (by simpa using hx)⟩
  | subscribe ch i =>
    simp only [Spec.step] at hs
    split at hs
    · cases hs
    split at hs
    · cases hs
    · simp only [Res.ok.injEq, Prod.mk.injEq] at hs
      obtain ⟨rfl, rfl⟩ := hs
      exact ⟨by simp [sent1, Obs.dispatched, itemsOf], hrc⟩
  | unsubscribe ch i =>
    simp only [Spec.step] at hs
    split at hs
    · cases hs
    split at hs
    · cases hs
    · simp only [Res.ok.injEq, Prod.mk.injEq] at hs
      obtain ⟨rfl, rfl⟩ := hs
      exact ⟨by simp [sent1, Obs.dispatched, itemsOf], hrc⟩
  | unsubscribeAll i =>
    simp only [Spec.step] at hs
    split at hs
    · cases hs
    · simp only [Res.ok.injEq, Prod.mk.injEq] at hs
      obtain ⟨rfl, rfl⟩ := hs
      exact ⟨by simp [sent1, Obs.dispatched, itemsOf], hrc⟩
  | publish ch e s =>
    simp only [Spec.step, Res.map'_eq_ok] at hs
    obtain ⟨a1, h1, h2⟩ := hs
    simp only [Prod.mk.injEq] at h2
    obtain ⟨rfl, rfl⟩ := h2
    have hfr : (a.fresh.erase e).erase e = a.fresh.erase e := by
      apply List.erase_of_not_mem; exact h.ev.freshND.not_mem_erase
    obtain ⟨k1, k2⟩ := deliver_fold (e := e) (s := s) (subscribers c.maxSma a ch)
      { a with conts := .gc1 e :: a.conts, fresh := a.fresh.erase e }
      (fun p i hi => (h.ao.regOk p i hi).2) (List.nodup_range.filter _) hfr
    by_cases hct : ∀ p ∈ subscribers c.maxSma a ch, CanTake { a with conts := .gc1 e :: a.conts, fresh := a.fresh.erase e } s p
    · rw [k1 hct] at h1
      simp only [Res.ok.injEq] at h1
      subst h1
      refine ⟨?_, fun x hx => hrc x (by simpa using hx)⟩
      simp only [Obs.dispatched, List.nil_append, itemsOf, delivered, List.getElem?_mapIdx, sent1]
      cases hx : a.aos[ao]? with
      | none => simp
      | some x =>
        have hpm := h.ao.prioOk x (List.mem_of_getElem? hx)
        have hmem : x.prio ∈ subscribers c.maxSma a ch ↔ a.sub ch x.prio = true := by
          simp [subscribers, hpm]
        simp only [Option.map_some, Option.getD_some, hmem]
        by_cases hc : a.reg x.prio = some ao ∧ a.sub ch x.prio = true ∧ s ≠ some ao
        · rw [if_pos hc, if_pos ⟨hc.1, hc.2.1, Ne.symm hc.2.2⟩]
        · rw [if_neg hc, if_neg (fun h => hc ⟨h.1, h.2.1, Ne.symm h.2.2⟩)]; simp
    · rw [k2 hct] at h1; cases h1
  | select =>
    simp only [Spec.step] at hs
    split at hs
    · simp only [Res.ok.injEq, Prod.mk.injEq] at hs
      obtain ⟨rfl, rfl⟩ := hs
      exact ⟨by simp [sent1, Obs.dispatched, itemsOf], hrc⟩
    · split at hs
      · cases hs
      · simp only [Res.ok.injEq, Prod.mk.injEq] at hs
        obtain ⟨rfl, rfl⟩ := hs
        exact ⟨by simp [sent1, Obs.dispatched, itemsOf], hrc⟩
  | fetch =>
    simp only [Spec.step] at hs
    split at hs
    · rename_i i hph
      split at hs
      · cases hs
      · rename_i x hx
        split at hs
        · cases hs
        · rename_i e rest hi
          simp only [Res.ok.injEq, Prod.mk.injEq] at hs
          obtain ⟨rfl, rfl⟩ := hs
          refine ⟨?_, hrc⟩
          have := itemsOf_set (j := ao) hx { x.q with items := rest } a.fresh
          unfold itemsOf at this ⊢
          simp only at this
          rw [this]
          by_cases hai : ao = i
          · subst hai; simp [sent1, Obs.dispatched, hx, hi]
          · simp [sent1, Obs.dispatched, hai, Ne.symm hai]
    · cases hs
  | take i =>
    simp only [Spec.step] at hs
    split at hs
    · cases hs
    · rename_i x hx
      split at hs
      · cases hs
      · rename_i e rest hi
        simp only [Res.ok.injEq, Prod.mk.injEq] at hs
        obtain ⟨rfl, rfl⟩ := hs
        refine ⟨?_, fun y hy => hrc y (by simpa using hy)⟩
        have := itemsOf_set (j := ao) hx { x.q with items := rest } a.fresh
        unfold itemsOf at this ⊢
        simp only at this
        rw [this]
        by_cases hai : ao = i
        · subst hai; simp [sent1, Obs.dispatched, hx, hi]
        · simp [sent1, Obs.dispatched, hai, Ne.symm hai]
  | done =>
    simp only [Spec.step] at hs
    split at hs
    · simp only [Res.ok.injEq, Prod.mk.injEq] at hs
      obtain ⟨rfl, rfl⟩ := hs
      exact ⟨by simp [sent1, Obs.dispatched, itemsOf], fun x hx => hrc x (by simpa using hx)⟩
    · cases hs
  | resume k =>
    simp only [Spec.step] at hs
    split at hs
    · cases hs
    · rename_i t ht
      have htm : t ∈ a.conts := List.mem_of_getElem? ht
      have hsub : ∀ e, Cont.rc2 ao e ∉ a.conts.eraseIdx k := fun e he => hrc e (List.mem_of_mem_eraseIdx he)
      simp only [Res.map'_eq_ok] at hs
      obtain ⟨a1, h1, h2⟩ := hs
      simp only [Prod.mk.injEq] at h2
      obtain ⟨rfl, rfl⟩ := h2
      cases t with
      | gc1 e =>
        simp only [Spec.resumeCont, Res.ok.injEq] at h1
        subst h1
        split
        · exact ⟨by simp [sent1, Obs.dispatched, itemsOf], hsub⟩
        · exact ⟨by simp [sent1, Obs.dispatched, itemsOf], fun x hx => hsub x (by simpa using hx)⟩
      | thr o e =>
        simp only [Spec.resumeCont, Res.ok.injEq] at h1
        subst h1
        split
        · exact ⟨by simp [sent1, Obs.dispatched, itemsOf], hsub⟩
        · exact ⟨by simp [sent1, Obs.dispatched, itemsOf], fun x hx => hsub x (by simpa using hx)⟩
      | gc2 e =>
        simp only [Spec.resumeCont, Res.ok.injEq] at h1
        subst h1
        split
        · exact ⟨by simp [sent1, Obs.dispatched, itemsOf], fun x hx => hsub x (by simpa using hx)⟩
        · exact ⟨by simp [sent1, Obs.dispatched, itemsOf], hsub⟩
      | put i e =>
        simp only [Spec.resumeCont] at h1
        split at h1
        · cases h1
        · simp only [Res.ok.injEq] at h1
          subst h1
          exact ⟨by simp [sent1, Obs.dispatched, itemsOf], hsub⟩
      | rc2 i e =>
        have hi : ao ≠ i := by rintro rfl; exact hrc e htm
        simp only [Spec.resumeCont, Res.map'_eq_ok] at h1
        obtain ⟨a2, h2, h3⟩ := h1
        subst h3
        obtain ⟨x, q, hx, rfl, rfl, _⟩ := post_facts h2
        refine ⟨?_, fun y hy => hsub y (by simpa using hy)⟩
        have := itemsOf_set (a := { a with conts := a.conts.eraseIdx k }) (j := ao) hx { x.q with items := e :: x.q.items } (a.fresh.erase e)
        unfold itemsOf at this ⊢
        simp only [if_true] at this ⊢
        rw [this]
        simp [sent1, Obs.dispatched, hi]
      | rc3 o e =>
        simp only [Spec.resumeCont, Res.ok.injEq] at h1
        subst h1
        exact ⟨by simp [sent1, Obs.dispatched, itemsOf], hsub⟩
  | numUsed i =>
    simp only [Spec.step] at hs
    split at hs
    · cases hs
    · simp only [Res.ok.injEq, Prod.mk.injEq] at hs
      obtain ⟨rfl, rfl⟩ := hs
      exact ⟨by simp [sent1, Obs.dispatched, itemsOf], hrc⟩

theorem dispatched_cons (ao : Nat) (o : Out) (outs : List Out) :
    Obs.dispatched ao (o :: outs) = Obs.dispatched ao [o] ++ Obs.dispatched ao outs := by
  cases o <;> simp [Obs.dispatched]

theorem sentTo_cons (ao : Nat) (op : Op) (ops : List Op) (a : Abs) :
    Obs.sentTo ao (op :: ops) (a.aos.map (·.prio)) a.reg a.sub =
      sent1 ao a op ++ Obs.sentTo ao ops (a.aos.map (·.prio) ++ Obs.activations [op]) (Obs.registry [op] (a.aos.map (·.prio)) a.reg)
        (fun ch p => Obs.subscribed ch p [op] (a.aos.map (·.prio)) (a.sub ch p)) := by
  simp only [Obs.sentTo]
  congr 1
  cases op <;> simp only [sent1]
  rw [List.getElem?_map]
  cases a.aos[ao]? <;> rfl

theorem fifo_run (wf : Wf c) (ao : Nat) : ∀ (ops : List Op) (w : World) (a : Abs) (outs : List Out) (a' : Abs), R c w a →
    LegalRun c a ops → runOps (Spec.step c) a ops = (outs, .ok a') → OnlyFifo ao ops → (∀ e, Cont.rc2 ao e ∉ a.conts) →
    itemsOf a ao ++ Obs.sentTo ao ops (a.aos.map (·.prio)) a.reg a.sub = Obs.dispatched ao outs ++ itemsOf a' ao := by
  refine run_induct wf (P := fun ops outs a a' => OnlyFifo ao ops → (∀ e, Cont.rc2 ao e ∉ a.conts) →
    itemsOf a ao ++ Obs.sentTo ao ops (a.aos.map (·.prio)) a.reg a.sub = Obs.dispatched ao outs ++ itemsOf a' ao) ?_ ?_
  · intro a _ _; simp [Obs.sentTo, Obs.dispatched]
  · intro w a op o a1 ops outs a2 hR hl hs ih hf hrc
    obtain ⟨h1, h2⟩ := fifo_step hR ao hl hs (fun x hx => hf x (by simp at hx; simp [hx])) hrc
    have hb := books hR hs
    have ih := ih (fun x hx => hf x (by simp [hx])) h2
    rw [sentTo_cons, ← List.append_assoc, h1, List.append_assoc, dispatched_cons ao o outs, List.append_assoc, ← ih, hb.prio, hb.reg]
    congr 3
    funext ch p
    exact (hb.sub ch p).symm

/-- The events deferred in deferred queue `i` in the specification. -/
def dItems (a : Abs) (i : Nat) : List Nat := (a.dqs[i]?.map (·.items)).getD []

theorem dItems_of_eq {b : Abs} (h : b.dqs = a.dqs) (i : Nat) : dItems b i = dItems a i := by unfold dItems; rw [h]

/-- Operations other than defer, recall and newDefer do not touch the deferred queues. -/
theorem dqs_same (h : R c w a) {op : Op} {o : Out} {a1 : Abs} (hs : Spec.step c a op = .ok (a1, o))
    (h1 : ∀ i e, op ≠ .defer i e) (h2 : ∀ i j, op ≠ .recall i j) (h3 : ∀ m n, op ≠ .newDefer m n) : a1.dqs = a.dqs := by
  cases op with
  | defer i e => exact absurd rfl (h1 i e)
  | recall i j => exact absurd rfl (h2 i j)
  | newDefer m n => exact absurd rfl (h3 m n)
  | postFifo ao e =>
    simp only [Spec.step, Res.map'_eq_ok] at hs
    obtain ⟨a1, h1, h2⟩ := hs
    simp only [Prod.mk.injEq] at h2
    obtain ⟨rfl, rfl⟩ := h2
    obtain ⟨x, q, hx, rfl, _⟩ := post_facts h1
    rfl
  | postLifo ao e =>
    simp only [Spec.step, Res.map'_eq_ok] at hs
    obtain ⟨a1, h1, h2⟩ := hs
    simp only [Prod.mk.injEq] at h2
    obtain ⟨rfl, rfl⟩ := h2
    obtain ⟨x, q, hx, rfl, _⟩ := post_facts h1
    rfl
  | publish ch e s =>
    simp only [Spec.step, Res.map'_eq_ok] at hs
    obtain ⟨a1, h1, h2⟩ := hs
    simp only [Prod.mk.injEq] at h2
    obtain ⟨rfl, rfl⟩ := h2
    obtain ⟨aos', rfl, h3⟩ := deliver_facts h1 (by apply List.erase_of_not_mem; exact h.ev.freshND.not_mem_erase)
    rfl
  | resume k =>
    simp only [Spec.step] at hs
    split at hs
    · cases hs
    · rename_i t ht
      simp only [Res.map'_eq_ok] at hs
      obtain ⟨a1, h1, h2⟩ := hs
      simp only [Prod.mk.injEq] at h2
      obtain ⟨rfl, rfl⟩ := h2
      cases t with
      | gc1 e => simp only [Spec.resumeCont, Res.ok.injEq] at h1; subst h1; split <;> rfl
      | thr o e => simp only [Spec.resumeCont, Res.ok.injEq] at h1; subst h1; split <;> rfl
      | gc2 e => simp only [Spec.resumeCont, Res.ok.injEq] at h1; subst h1; split <;> rfl
      | put i e =>
        simp only [Spec.resumeCont] at h1
        split at h1
        · cases h1
        · simp only [Res.ok.injEq] at h1; subst h1; rfl
      | rc2 i e =>
        simp only [Spec.resumeCont, Res.map'_eq_ok] at h1
        obtain ⟨a2, h2, h3⟩ := h1
        subst h3
        obtain ⟨x, q, hx, rfl, _⟩ := post_facts h2
        rfl
      | rc3 o e => simp only [Spec.resumeCont, Res.ok.injEq] at h1; subst h1; rfl
  | _ =>
    simp only [Spec.step] at hs
    (repeat' split at hs) <;> simp only [Res.ok.injEq, Prod.mk.injEq, reduceCtorEq] at hs <;> obtain ⟨rfl, _⟩ := hs <;> rfl

theorem defer_step (h : R c w a) (i : Nat) {op : Op} {o : Out} {a1 : Abs} (hs : Spec.step c a op = .ok (a1, o)) :
    dItems a i ++ Obs.deferredTo i [op] = Obs.recalledFrom i [(op, o)] ++ dItems a1 i := by
  by_cases h1 : ∃ j e, op = .defer j e
  · obtain ⟨j, e, rfl⟩ := h1
    simp only [Spec.step] at hs
    split at hs
    · cases hs
    · rename_i q hq
      simp only [Res.map'_eq_ok, qput] at hs
      obtain ⟨q', h1, h2⟩ := hs
      split at h1
      · cases h1
      simp only [Res.ok.injEq, Bool.false_eq_true, if_false] at h1
      simp only [Prod.mk.injEq] at h2
      obtain ⟨rfl, rfl⟩ := h2
      have hlt : j < a.dqs.length := (List.getElem?_eq_some_iff.mp hq).1
      simp only [Obs.deferredTo, Obs.recalledFrom, List.nil_append, List.append_nil, dItems]
      by_cases hj : j = i
      · subst hj; subst h1; simp [List.getElem?_set_self hlt, hq]
      · simp [List.getElem?_set_ne hj, hj]
  by_cases h2 : ∃ ao j, op = .recall ao j
  · obtain ⟨ao, j, rfl⟩ := h2
    simp only [Spec.step] at hs
    split at hs
    · cases hs
    rename_i q hq
    have hlt : j < a.dqs.length := (List.getElem?_eq_some_iff.mp hq).1
    split at hs
    · simp only [Res.ok.injEq, Prod.mk.injEq] at hs
      obtain ⟨rfl, rfl⟩ := hs
      simp [Obs.deferredTo, Obs.recalledFrom]
    · rename_i e rest hi
      simp only [Res.ok.injEq, Prod.mk.injEq] at hs
      obtain ⟨rfl, rfl⟩ := hs
      have he0 : e ≠ 0 := (h.ev.hold e (by
        unfold holders
        simp only [List.mem_append, List.mem_flatMap]
        exact .inl (.inl (.inl (.inr ⟨q, List.mem_of_getElem? hq, by rw [hi]; simp⟩))))).1
      simp only [Obs.deferredTo, Obs.recalledFrom, List.append_nil, dItems]
      by_cases hj : j = i
      · subst hj; simp [List.getElem?_set_self hlt, hq, hi, he0]
      · simp [List.getElem?_set_ne hj, hj]
  by_cases h3 : ∃ m n, op = .newDefer m n
  · obtain ⟨m, n, rfl⟩ := h3
    simp only [Spec.step, Res.ok.injEq, Prod.mk.injEq] at hs
    obtain ⟨rfl, rfl⟩ := hs
    simp only [Obs.deferredTo, Obs.recalledFrom, List.append_nil, List.nil_append, dItems]
    by_cases hi : i < a.dqs.length
    · rw [List.getElem?_append_left hi]
    · rw [List.getElem?_eq_none (by omega)]
      by_cases h2 : i = a.dqs.length
      · subst h2; simp
      · rw [List.getElem?_eq_none (by simp; omega)]
  have := dqs_same h hs (fun i e he => h1 ⟨i, e, he⟩) (fun i e he => h2 ⟨i, e, he⟩) (fun i e he => h3 ⟨i, e, he⟩)
  rw [dItems_of_eq this]
  have k1 : Obs.deferredTo i [op] = [] := by
    cases op with
    | defer j e => exact absurd ⟨j, e, rfl⟩ h1
    | _ => rfl
  have k2 : Obs.recalledFrom i [(op, o)] = [] := by
    cases op with
    | recall j e => exact absurd ⟨j, e, rfl⟩ h2
    | _ => rfl
  rw [k1, k2]; simp

theorem deferredTo_cons (i : Nat) (op : Op) (ops : List Op) :
    Obs.deferredTo i (op :: ops) = Obs.deferredTo i [op] ++ Obs.deferredTo i ops := by
  cases op <;> simp [Obs.deferredTo]

theorem recalledFrom_cons (i : Nat) (x : Op × Out) (h : Obs.Hist) :
    Obs.recalledFrom i (x :: h) = Obs.recalledFrom i [x] ++ Obs.recalledFrom i h := by
  obtain ⟨op, o⟩ := x
  cases op <;> cases o <;> simp [Obs.recalledFrom]

theorem defer_run (wf : Wf c) (i : Nat) : ∀ (ops : List Op) (w : World) (a : Abs) (outs : List Out) (a' : Abs), R c w a →
    LegalRun c a ops → runOps (Spec.step c) a ops = (outs, .ok a') →
    dItems a i ++ Obs.deferredTo i ops = Obs.recalledFrom i (ops.zip outs) ++ dItems a' i := by
  refine run_induct wf (P := fun ops outs a a' =>
    dItems a i ++ Obs.deferredTo i ops = Obs.recalledFrom i (ops.zip outs) ++ dItems a' i) ?_ ?_
  · intro a; simp [Obs.deferredTo, Obs.recalledFrom]
  · intro w a op o a1 ops outs a2 hR hl hs ih
    have h1 := defer_step hR i hs
    rw [deferredTo_cons i op ops, ← List.append_assoc, h1, List.zip_cons_cons, recalledFrom_cons i (op, o) (ops.zip outs),
      List.append_assoc, List.append_assoc, ih]

/-- The signal of a static event is never changed by an allocation. -/
theorem sig_static (wf : Wf c) {e : Nat} (he : c.static e = true) : ∀ (ops : List Op) (w : World) (a : Abs) (outs : List Out)
    (a' : Abs), R c w a → LegalRun c a ops → runOps (Spec.step c) a ops = (outs, .ok a') → a'.sig e = a.sig e := by
  refine run_induct wf (P := fun ops outs a a' => a'.sig e = a.sig e) (fun _ => rfl) ?_
  intro w a op o a1 ops outs a2 hR hl hs ih
  rw [ih, (books hR hs).sig]
  cases op with
  | alloc n sg =>
    simp only [Spec.step] at hs
    split at hs
    · cases hs
    rename_i i _
    split at hs
    · cases hs
    rename_i P hP
    split at hs
    · cases hs
    rename_i b rest hf
    simp only [Res.ok.injEq, Prod.mk.injEq] at hs
    obtain ⟨rfl, rfl⟩ := hs
    have hb : c.static b = false := hR.ev.nostat i b (.inr ⟨P, hP, by rw [hf]; simp⟩)
    simp only [Obs.signal]
    rw [if_neg]
    rintro rfl
    rw [hb] at he; cases he
  | _ => simp [Obs.signal]

end Verif.Fwk
