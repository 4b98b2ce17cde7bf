import Verif.Timer.Spec
/-
Representation invariant of the timer list and simulation of the specification.
-/
namespace Verif.Timer
open Verif

theorem Chain.congr {h h' : Nat → Tmr} {p : Nat} {L : List Nat} (hc : Chain h p L)
    (he : ∀ x ∈ L, (h' x).tnext = (h x).tnext) : Chain h' p L := by
  induction L generalizing p with
  | nil => exact hc
  | cons x L ih =>
    obtain ⟨h1, h2, h3⟩ := hc
    refine ⟨h1, h2, ?_⟩
    rw [he x (by simp)]
    exact ih h3 (fun y hy => he y (by simp [hy]))

theorem Chain.ne_zero {h : Nat → Tmr} {p : Nat} {L : List Nat} (hc : Chain h p L) : ∀ x ∈ L, x ≠ 0 := by
  induction L generalizing p with
  | nil => simp
  | cons y L ih =>
    intro x hx
    simp only [List.mem_cons] at hx
    rcases hx with rfl | hx
    · exact hc.2.1
    · exact ih hc.2.2 x hx

/-- Unlinking `t` whose predecessor in the list is `q`. -/
theorem Chain.unlink {h : Nat → Tmr} {p : Nat} {d rest : List Nat} {q t : Nat}
    (hc : Chain h p (d ++ q :: t :: rest)) (hnd : (d ++ q :: t :: rest).Nodup) {h' : Nat → Tmr}
    (hq : (h' q).tnext = (h t).tnext) (he : ∀ x, x ≠ q → (h' x).tnext = (h x).tnext) :
    Chain h' p (d ++ q :: rest) := by
  induction d generalizing p with
  | nil =>
    simp only [List.nil_append, Chain] at hc ⊢
    refine ⟨hc.1, hc.2.1, ?_⟩
    rw [hq]
    refine hc.2.2.2.2.congr fun x hx => he x ?_
    simp only [List.nil_append, List.nodup_cons, List.mem_cons, not_or] at hnd
    rintro rfl
    exact hnd.1.2 hx
  | cons y d ih =>
    simp only [List.cons_append, Chain] at hc ⊢
    refine ⟨hc.1, hc.2.1, ?_⟩
    simp only [List.cons_append, List.nodup_cons] at hnd
    have hy : y ≠ q := by rintro rfl; exact hnd.1 (by simp)
    rw [he y hy]
    exact ih hc.2.2 hnd.2

@[simp] theorem put_same (s : St) (t : Nat) (v : Tmr) : (s.put t v).heap t = v := by simp [St.put]
theorem put_ne (s : St) {t x : Nat} (v : Tmr) (h : x ≠ t) : (s.put t v).heap x = s.heap x := by simp [St.put, h]
@[simp] theorem put_thead (s : St) (t : Nat) (v : Tmr) : (s.put t v).thead = s.thead := rfl

/-- First element of a list, or NULL. -/
def hd : List Nat → Nat
  | [] => 0
  | x :: _ => x

/-- The predecessor argument used by the module: the last element before `t`, or NULL. -/
def prevOf (d : List Nat) : Nat := d.getLast?.getD 0

theorem prevOf_snoc (d : List Nat) (x : Nat) : prevOf (d ++ [x]) = x := by simp [prevOf]

/-- `rem_from_list` removes exactly `t`, only touching `used` of `t` and link fields. -/
theorem remFromList_ok {s : St} {d rest : List Nat} {t : Nat} (hc : Chain s.heap s.thead (d ++ t :: rest))
    (hnd : (d ++ t :: rest).Nodup) :
    ∃ s', remFromList s t (prevOf d) = .ok s' ∧ Chain s'.heap s'.thead (d ++ rest) ∧
      (s'.heap t).tnext = (s.heap t).tnext ∧ Chain s'.heap (s'.heap t).tnext rest ∧
      (∀ x, x ≠ t → ∃ n, s'.heap x = { s.heap x with tnext := n }) ∧
      s'.heap t = { s.heap t with used := 0 } := by
  rcases List.eq_nil_or_concat d with rfl | ⟨d', q, hd'⟩
  · simp only [List.nil_append, Chain] at hc hnd ⊢
    have hr : ∀ x ∈ rest, x ≠ t := by
      rintro x hx rfl
      simp only [List.nodup_cons] at hnd
      exact hnd.1 hx
    refine ⟨_, by simp only [remFromList, hc.1, if_true]; rfl, ?_, ?_, ?_, ?_, ?_⟩
    · exact hc.2.2.congr fun x hx => by rw [put_ne _ _ (hr x hx)]
    · rw [put_same]
    · rw [put_same]
      exact hc.2.2.congr fun x hx => by rw [put_ne _ _ (hr x hx)]
    · intro x hx
      exact ⟨(s.heap x).tnext, by rw [put_ne _ _ hx]⟩
    · simp
  · rw [List.concat_eq_append] at hd'
    subst hd'
    have hne : s.thead ≠ t := by
      intro h
      cases d' with
      | nil =>
        simp only [List.nil_append, List.cons_append, Chain] at hc
        simp only [List.nil_append, List.cons_append, List.nodup_cons, List.mem_cons, not_or] at hnd
        exact hnd.1.1 (hc.1.symm.trans h)
      | cons y d'' =>
        simp only [List.cons_append, Chain] at hc
        simp only [List.cons_append, List.nodup_cons] at hnd
        have : y = t := hc.1.symm.trans h
        subst this
        exact hnd.1 (by simp)
    have hqt : q ≠ t := by
      rintro rfl
      have := (List.nodup_append.mp hnd).2.2 q (by simp) q (by simp)
      exact this rfl
    have hq0 : q ≠ 0 := hc.ne_zero q (by simp)
    have hc' : Chain s.heap s.thead (d' ++ q :: t :: rest) := by simpa using hc
    have hnd' : (d' ++ q :: t :: rest).Nodup := by simpa using hnd
    refine ⟨_, by simp only [remFromList, hne, if_false, prevOf_snoc, hq0]; rfl, ?_, ?_, ?_, ?_, ?_⟩
    · rw [List.append_assoc]
      simp only [List.cons_append, List.nil_append, put_thead]
      refine hc'.unlink hnd' ?_ ?_
      · rw [put_ne _ _ hqt, put_same]
      · intro x hx
        by_cases hxt : x = t
        · subst hxt; rw [put_same, put_ne _ _ hx]
        · rw [put_ne _ _ hxt, put_ne _ _ hx]
    · rw [put_same, put_ne _ _ hqt.symm]
    · rw [put_same]
      simp only [put_ne _ _ hqt.symm]
      have h1 : Chain s.heap (s.heap t).tnext rest := by
        have : ∀ (d : List Nat) (p : Nat), Chain s.heap p (d ++ t :: rest) → Chain s.heap (s.heap t).tnext rest := by
          intro d
          induction d with
          | nil => intro p h; exact h.2.2
          | cons y d ih => intro p h; exact ih _ h.2.2
        exact this _ _ hc
      refine h1.congr fun x hx => ?_
      have hxt : x ≠ t := by
        rintro rfl
        have := (List.nodup_append.mp hnd).2.1
        simp only [List.nodup_cons] at this
        exact this.1 hx
      have hxq : x ≠ q := by
        rintro rfl
        exact (List.nodup_append.mp hnd).2.2 x (by simp) x (by simp [hx]) rfl
      rw [put_ne _ _ hxt, put_ne _ _ hxq]
    · intro x hx
      rw [put_ne _ _ hx]
      by_cases hxq : x = q
      · subst hxq; exact ⟨_, put_same _ _ _⟩
      · exact ⟨(s.heap x).tnext, by rw [put_ne _ _ hxq]⟩
    · rw [put_same, put_ne _ _ hqt.symm]

/-- The search loop finds the timer and its predecessor, or the end of the list. -/
theorem searchLoop_ok {s : St} {t : Nat} (ht : t ≠ 0) :
    ∀ (rest d : List Nat) (p fuel : Nat), Chain s.heap p rest → rest.length < fuel →
      (t ∉ rest ∧ ∃ q, searchLoop s t fuel (prevOf d) p = .ok (q, 0)) ∨
      (∃ r1 r2, rest = r1 ++ t :: r2 ∧ searchLoop s t fuel (prevOf d) p = .ok (prevOf (d ++ r1), t)) := by
  intro rest
  induction rest with
  | nil =>
    intro d p fuel hc hf
    obtain ⟨fuel, rfl⟩ : ∃ f, fuel = f + 1 := ⟨fuel - 1, by simp at hf; omega⟩
    left
    refine ⟨by simp, prevOf d, ?_⟩
    simp only [Chain] at hc
    simp [searchLoop, hc]
  | cons x rest ih =>
    intro d p fuel hc hf
    obtain ⟨fuel, rfl⟩ : ∃ f, fuel = f + 1 := ⟨fuel - 1, by simp at hf; omega⟩
    obtain ⟨rfl, hx0, hc2⟩ := hc
    by_cases hxt : p = t
    · right
      subst hxt
      exact ⟨[], rest, rfl, by simp [searchLoop]⟩
    · have := ih (d ++ [p]) _ fuel hc2 (by simp at hf; omega)
      rw [prevOf_snoc] at this
      have hs : searchLoop s t (fuel + 1) (prevOf d) p = searchLoop s t fuel p (s.heap p).tnext := by
        simp [searchLoop, hx0, hxt]
      rcases this with ⟨h1, q, h2⟩ | ⟨r1, r2, h1, h2⟩
      · left
        exact ⟨by simp [h1, Ne.symm hxt], q, by rw [hs, h2]⟩
      · right
        refine ⟨p :: r1, r2, by simp [h1], ?_⟩
        rw [hs, h2]
        simp

theorem searchAndRemove_ok {c : Cfg} {s : St} {t : Nat} {L : List Nat} (ht : t ≠ 0) (hc : Chain s.heap s.thead L)
    (hnd : L.Nodup) (hf : L.length < c.fuel) :
    ∃ s', searchAndRemove c s t = .ok s' ∧ Chain s'.heap s'.thead (L.erase t) ∧
      (∀ x, x ≠ t → ∃ n, s'.heap x = { s.heap x with tnext := n }) ∧
      (t ∉ L → s' = s) ∧ (t ∈ L → s'.heap t = { s.heap t with used := 0 }) := by
  rcases searchLoop_ok ht L [] s.thead c.fuel hc hf with ⟨h1, q, h2⟩ | ⟨r1, r2, h1, h2⟩
  · have hp : prevOf [] = 0 := rfl
    rw [hp] at h2
    refine ⟨s, by simp [searchAndRemove, h2], by rw [List.erase_of_not_mem h1]; exact hc,
      fun x _ => ⟨(s.heap x).tnext, rfl⟩, fun _ => rfl, fun h => absurd h h1⟩
  · have hp : prevOf [] = 0 := rfl
    rw [hp] at h2
    subst h1
    obtain ⟨s', e1, e2, e3, _, e4, e5⟩ := remFromList_ok hc hnd
    have hnr : t ∉ r1 := fun h => (List.nodup_append.mp hnd).2.2 t h t (by simp) rfl
    refine ⟨s', by simp [searchAndRemove, h2, ht, e1], ?_, e4, fun h => absurd (by simp) h, fun _ => e5⟩
    rw [List.erase_append_right _ hnr, List.erase_cons_head]
    exact e2

/-! ### Representation -/

/-- Correspondence of one timer structure with its specification. -/
def RepT (W : Nat) (h : Tmr) (v : Spec.T) : Prop :=
  (v.ready = true → h.evt = v.evt) ∧
  (match v.sched with
   | some s => v.ready = true ∧ h.used = 1 ∧ h.sma = s.sma ∧ h.ntick = s.left ∧ h.period = s.per ∧ 0 < s.left ∧
        s.left < W ∧ s.per < W
   | none => v.ready = true → h.used = 0 ∧ h.ntick = 0)

/-- A concrete state represents a specification state. -/
structure Rep (c : Cfg) (s : St) (a : Spec.S) : Prop where
  chain : Chain s.heap s.thead a.order
  nodup : a.order.Nodup
  mem : ∀ t, t ∈ a.order ↔ (a.tm t).sched.isSome = true
  tm : ∀ t, RepT c.W (s.heap t) (a.tm t)
  nz : (a.tm 0).ready = false

theorem RepT.next {W : Nat} {h : Tmr} {v : Spec.T} (n : Nat) (hr : RepT W h v) : RepT W { h with tnext := n } v := hr

theorem rep_start0 (c : Cfg) (heap : Nat → Tmr) : Rep c (moduleInit heap) Spec.start0 :=
  { chain := rfl, nodup := List.nodup_nil, mem := by intro t; simp [Spec.start0],
    tm := by intro t; simp [RepT, Spec.start0], nz := rfl }

theorem set_same (a : Spec.S) (t : Nat) (v : Spec.T) : Spec.set a t v t = v := by simp [Spec.set]
theorem set_ne (a : Spec.S) {t x : Nat} (v : Spec.T) (h : x ≠ t) : Spec.set a t v x = a.tm x := by simp [Spec.set, h]

theorem rep_init {c : Cfg} {s : St} {a : Spec.S} (hr : Rep c s a) {t e : Nat} (ht : t ≠ 0) (he : e ≠ 0)
    (hf : a.order.length < c.fuel) :
    ∃ s', init c s t e = .ok s' ∧ Rep c s' (Spec.step a (.init t e)).1 := by
  have key : ∃ s1, (if (s.heap t).used = 1 then searchAndRemove c s t else pure s) = .ok s1 ∧
      Chain s1.heap s1.thead (a.order.erase t) ∧ (∀ x, x ≠ t → ∃ n, s1.heap x = { s.heap x with tnext := n }) := by
    by_cases hu : (s.heap t).used = 1
    · obtain ⟨s1, h1, h2, h3, _⟩ := searchAndRemove_ok ht hr.chain hr.nodup hf
      exact ⟨s1, by simp [hu, h1], h2, h3⟩
    · have hnm : t ∉ a.order := by
        intro hm
        have h1 := (hr.mem t).mp hm
        have h2 := (hr.tm t).2
        cases hs : (a.tm t).sched with
        | none => simp [hs] at h1
        | some v => rw [hs] at h2; exact hu h2.2.1
      exact ⟨s, by simp [hu], by rw [List.erase_of_not_mem hnm]; exact hr.chain, fun x _ => ⟨(s.heap x).tnext, rfl⟩⟩
  obtain ⟨s1, h1, h2, h3⟩ := key
  refine ⟨s1.put t { s1.heap t with ntick := 0, used := 0, evt := e }, ?_, ?_⟩
  · simp only [init, ht, he, ne_eq, not_false_eq_true, and_self, decide_true, assertIf_true, Res.bind_ok]
    by_cases hu : (s.heap t).used = 1
    · rw [if_pos hu] at h1 ⊢
      rw [h1]; rfl
    · rw [if_neg hu] at h1 ⊢
      simp only [Res.pure_eq, Res.ok.injEq] at h1
      rw [h1]; rfl
  · have hnm : t ∉ a.order.erase t := by rw [hr.nodup.mem_erase_iff]; simp
    refine { chain := ?_, nodup := hr.nodup.erase t, mem := ?_, tm := ?_, nz := ?_ }
    · refine h2.congr fun x hx => ?_
      rw [put_ne _ _ (by rintro rfl; exact hnm hx)]
    · intro x
      simp only [Spec.step, hr.nodup.mem_erase_iff, hr.mem]
      by_cases hx : x = t
      · subst hx; simp [set_same]
      · simp [set_ne _ _ hx, hx]
    · intro x
      by_cases hx : x = t
      · subst hx; simp [Spec.step, set_same, RepT]
      · obtain ⟨n, hn⟩ := h3 x hx
        rw [put_ne _ _ hx, hn]
        simp only [Spec.step, set_ne _ _ hx]
        exact (hr.tm x).next n
    · simp only [Spec.step, set_ne _ _ ht.symm]; exact hr.nz

theorem rep_start {c : Cfg} {s : St} {a : Spec.S} (hr : Rep c s a) {t sma i p : Nat} (hl : Spec.legalOp c.W a (.start t sma i p)) :
    ∃ s', start c s t sma i p = .ok s' ∧ Rep c s' (Spec.step a (.start t sma i p)).1 := by
  obtain ⟨hrd, hsma, hi0, hiW, hpW⟩ := hl
  have ht : t ≠ 0 := by rintro rfl; rw [hr.nz] at hrd; cases hrd
  have hA : decide (t ≠ 0 ∧ sma ≠ 0 ∧ i ≠ 0) = true := by simp only [decide_eq_true_eq]; omega
  have htm := hr.tm t
  cases hs : (a.tm t).sched with
  | some v =>
    have hu : (s.heap t).used = 1 := by have := htm.2; rw [hs] at this; exact this.2.1
    refine ⟨s.put t { s.heap t with sma := sma, ntick := i, period := p }, ?_, ?_⟩
    · simp [start, hA, hu]
    · have hrun : Spec.running a t = true := by simp [Spec.running, hs]
      refine { chain := ?_, nodup := ?_, mem := ?_, tm := ?_, nz := ?_ } <;> simp only [Spec.step, hrun, if_true]
      · refine hr.chain.congr fun x _ => ?_
        by_cases hx : x = t
        · subst hx; simp
        · rw [put_ne _ _ hx]
      · exact hr.nodup
      · intro x
        rw [hr.mem]
        by_cases hx : x = t
        · subst hx; simp [set_same, hs]
        · simp [set_ne _ _ hx]
      · intro x
        by_cases hx : x = t
        · subst hx
          rw [put_same, set_same]
          exact ⟨htm.1, hrd, hu, rfl, rfl, rfl, hi0, hiW, hpW⟩
        · rw [put_ne _ _ hx, set_ne _ _ hx]; exact hr.tm x
      · rw [set_ne _ _ ht.symm]; exact hr.nz
  | none =>
    have hu : (s.heap t).used = 0 := by have := htm.2; rw [hs] at this; exact (this hrd).1
    have hrun : Spec.running a t = false := by simp [Spec.running, hs]
    have hnm : t ∉ a.order := by rw [hr.mem, hs]; simp
    refine ⟨_, by simp only [start, hA, assertIf_true, Res.bind_ok, put_same, hu, if_true, Res.pure_eq]; rfl, ?_⟩
    refine { chain := ?_, nodup := ?_, mem := ?_, tm := ?_, nz := ?_ } <;> simp only [Spec.step, hrun, Bool.false_eq_true, if_false]
    · refine ⟨rfl, ht, ?_⟩
      simp only [put_same, put_thead]
      refine hr.chain.congr fun x hx => ?_
      have hxt : x ≠ t := by rintro rfl; exact hnm hx
      rw [put_ne _ _ hxt, put_ne _ _ hxt]
    · exact List.nodup_cons.mpr ⟨hnm, hr.nodup⟩
    · intro x
      simp only [List.mem_cons, hr.mem]
      by_cases hx : x = t
      · subst hx; simp [set_same]
      · simp [set_ne _ _ hx, hx]
    · intro x
      by_cases hx : x = t
      · subst hx
        rw [put_same, set_same]
        exact ⟨htm.1, hrd, rfl, rfl, rfl, rfl, hi0, hiW, hpW⟩
      · rw [put_ne _ _ hx, put_ne _ _ hx, set_ne _ _ hx]; exact hr.tm x
    · rw [set_ne _ _ ht.symm]; exact hr.nz

theorem rep_stop {c : Cfg} {s : St} {a : Spec.S} (hr : Rep c s a) {t : Nat} (hl : Spec.legalOp c.W a (.stop t))
    (hf : a.order.length < c.fuel) :
    ∃ s', stop c s t = .ok (s', Spec.running a t) ∧ Rep c s' (Spec.step a (.stop t)).1 := by
  have hrd : (a.tm t).ready = true := hl
  have ht : t ≠ 0 := by rintro rfl; rw [hr.nz] at hrd; cases hrd
  have htm := hr.tm t
  cases hs : (a.tm t).sched with
  | none =>
    have hn : (s.heap t).ntick = 0 := by have := htm.2; rw [hs] at this; exact (this hrd).2
    have hrun : Spec.running a t = false := by simp [Spec.running, hs]
    have hnm : t ∉ a.order := by rw [hr.mem, hs]; simp
    refine ⟨s, by simp [stop, ht, hn, hrun], ?_⟩
    have hset : Spec.set a t { a.tm t with sched := none } = a.tm := by
      funext x
      by_cases hx : x = t
      · subst hx
        rw [set_same]
        generalize a.tm x = v at hs
        obtain ⟨r, e, sc⟩ := v
        simp only at hs
        rw [hs]
      · rw [set_ne _ _ hx]
    have : (Spec.step a (.stop t)).1 = a := by
      simp only [Spec.step, hset, List.erase_of_not_mem hnm]
    rw [this]; exact hr
  | some v =>
    have h2 := htm.2
    rw [hs] at h2
    obtain ⟨_, hu, hsma, hnt, hper, h0, hW, hpW⟩ := h2
    have hn : (s.heap t).ntick ≠ 0 := by omega
    have hm : t ∈ a.order := by rw [hr.mem, hs]; rfl
    have hrun : Spec.running a t = true := by simp [Spec.running, hs]
    have hc : Chain (s.put t { s.heap t with ntick := 0 }).heap (s.put t { s.heap t with ntick := 0 }).thead a.order := by
      refine Chain.congr hr.chain fun x _ => ?_
      by_cases hx : x = t
      · subst hx; simp
      · rw [put_ne _ _ hx]
    obtain ⟨s1, h1, hc1, h3, _, h5⟩ := searchAndRemove_ok ht hc hr.nodup hf
    refine ⟨s1, by simp [stop, ht, hn, h1, hrun], ?_⟩
    refine { chain := hc1, nodup := hr.nodup.erase t, mem := ?_, tm := ?_, nz := ?_ }
    · intro x
      simp only [Spec.step, hr.nodup.mem_erase_iff, hr.mem]
      by_cases hx : x = t
      · subst hx; simp [set_same]
      · simp [set_ne _ _ hx, hx]
    · intro x
      simp only [Spec.step]
      by_cases hx : x = t
      · subst hx
        rw [h5 hm, set_same, put_same]
        exact ⟨htm.1, fun _ => ⟨rfl, rfl⟩⟩
      · obtain ⟨n, hn⟩ := h3 x hx
        rw [hn, set_ne _ _ hx, put_ne _ _ hx]
        exact (hr.tm x).next n
    · simp only [Spec.step, set_ne _ _ ht.symm]; exact hr.nz

/-! ### The tick -/

/-- The tick loop, with `d` the timers already visited and kept. -/
theorem tickLoop_ok {c : Cfg} {a : Spec.S} :
    ∀ (rest d : List Nat) (s : St) (fuel : Nat), rest.length < fuel → Chain s.heap s.thead (d ++ rest) → (d ++ rest).Nodup →
      (∀ p, p = hd rest →
      (∀ t ∈ rest, ∃ v, (a.tm t).sched = some v ∧ RepT c.W (s.heap t) (a.tm t)) →
      ∃ s', tickLoop c (fun _ => []) fuel s (prevOf d) p = .ok (s', rest.filterMap (Spec.fire a)) ∧
        Chain s'.heap s'.thead (d ++ rest.filter fun t => (Spec.tickT (a.tm t)).sched.isSome) ∧
        (∀ x, x ∉ rest → ∃ n, s'.heap x = { s.heap x with tnext := n }) ∧
        (∀ x ∈ rest, RepT c.W (s'.heap x) (Spec.tickT (a.tm x)))) := by
  intro rest
  induction rest with
  | nil =>
    intro d s fuel hf hc hnd p hp _
    obtain ⟨fuel, rfl⟩ : ∃ f, fuel = f + 1 := ⟨fuel - 1, by simp at hf; omega⟩
    simp only [hd] at hp
    subst hp
    refine ⟨s, by simp [tickLoop], by simpa using hc, fun x _ => ⟨(s.heap x).tnext, rfl⟩, by simp⟩
  | cons t rest ih =>
    intro d s fuel hf hc hnd p hp hrep
    obtain ⟨fuel, rfl⟩ : ∃ f, fuel = f + 1 := ⟨fuel - 1, by simp at hf; omega⟩
    simp only [hd] at hp
    subst hp
    simp only [List.length_cons] at hf
    obtain ⟨v, hv, hT⟩ := hrep p (by simp)
    have ht0 : p ≠ 0 := hc.ne_zero p (by simp)
    have h2 := hT.2
    rw [hv] at h2
    obtain ⟨hrd, hu, hsma, hnt, hper, h0, hW, hpW⟩ := h2
    have hnr : p ∉ rest := by
      have := (List.nodup_append.mp hnd).2.1
      exact (List.nodup_cons.mp this).1
    have hnd1 : p ∉ d := fun h => (List.nodup_append.mp hnd).2.2 p h p (by simp) rfl
    have hndr : (d ++ rest).Nodup := by
      have := List.nodup_append.mp hnd
      rw [List.nodup_append]
      exact ⟨this.1, (List.nodup_cons.mp this.2.1).2, fun x hx y hy => this.2.2 x hx y (by simp [hy])⟩
    have hdec : (v.left + (c.W - 1)) % c.W = v.left - 1 := by
      rw [show v.left + (c.W - 1) = v.left - 1 + c.W by omega, Nat.add_mod_right, Nat.mod_eq_of_lt (by omega)]
    have htail : ∀ (h : Nat → Tmr) (d : List Nat) (q : Nat), Chain h q (d ++ p :: rest) → Chain h (h p).tnext rest := by
      intro h d
      induction d with
      | nil => intro q hq; exact hq.2.2
      | cons y d ih => intro q hq; exact ih _ hq.2.2
    have hnext : ∀ (h : Nat → Tmr) (q : Nat), Chain h q rest → q = hd rest := by
      intro h q hq
      cases rest with
      | nil => exact hq
      | cons y r => exact hq.1
    have hfire : Spec.fire a p = if v.left = 1 then some ⟨p, v.sma, (a.tm p).evt⟩ else none := by
      simp [Spec.fire, hv]
    have hst : (Spec.tickT (a.tm p)).sched = Spec.tickSched v := by simp [Spec.tickT, hv]
    -- the decremented structure
    have hs1c : Chain (s.put p { s.heap p with ntick := v.left - 1 }).heap
        (s.put p { s.heap p with ntick := v.left - 1 }).thead (d ++ p :: rest) := by
      refine Chain.congr hc fun x _ => ?_
      by_cases hx : x = p
      · subst hx; simp
      · rw [put_ne _ _ hx]
    have hunf : tickLoop c (fun _ => []) (fuel + 1) s (prevOf d) p =
        (if v.left - 1 = 0 then
          (if v.per = 0 then (remFromList (s.put p { s.heap p with ntick := v.left - 1 }) p (prevOf d)).bind fun s => .ok (s, prevOf d)
           else .ok ((s.put p { s.heap p with ntick := v.left - 1 }).put p
              { s.heap p with ntick := v.per }, p)).bind fun (s, tprev) =>
          (tickLoop c (fun _ => []) fuel s tprev (s.heap p).tnext).bind fun (s', posts) =>
            .ok (s', { tmr := p, sma := (s.heap p).sma, evt := (s.heap p).evt } :: posts)
        else tickLoop c (fun _ => []) fuel (s.put p { s.heap p with ntick := v.left - 1 }) p (s.heap p).tnext) := by
      simp [tickLoop, ht0, hu, hnt, hdec, hper, runCalls]
    rw [hunf]
    by_cases h1 : v.left = 1
    · rw [if_pos (by omega)]
      by_cases hp0 : v.per = 0
      · rw [if_pos hp0]
        obtain ⟨s2, e1, e2, e3, e4, e5, e6⟩ := remFromList_ok hs1c hnd
        rw [e1]
        simp only [Res.bind'_ok]
        rw [put_same] at e6
        have hs2p : (s2.heap p).sma = v.sma := by rw [e6]; exact hsma
        have hs2e : (s2.heap p).evt = (a.tm p).evt := by rw [e6]; exact hT.1 hrd
        obtain ⟨s3, g1, g2, g3, g4⟩ := ih d s2 fuel (by omega) e2 hndr (s2.heap p).tnext (hnext _ _ e4) (by
          intro x hx
          obtain ⟨w, hw1, hw2⟩ := hrep x (by simp [hx])
          have hxp : x ≠ p := by rintro rfl; exact hnr hx
          obtain ⟨n, hn⟩ := e5 x hxp
          refine ⟨w, hw1, ?_⟩
          rw [hn, put_ne _ _ hxp]
          exact hw2.next n)
        refine ⟨s3, ?_, ?_, ?_, ?_⟩
        · rw [g1]
          simp [hfire, h1, hs2p, hs2e]
        · have : (Spec.tickT (a.tm p)).sched.isSome = false := by simp [hst, Spec.tickSched, h1, hp0]
          rw [List.filter_cons_of_neg (by simp [this])]
          exact g2
        · intro x hx
          simp only [List.mem_cons, not_or] at hx
          obtain ⟨n, hn⟩ := g3 x hx.2
          obtain ⟨n', hn'⟩ := e5 x hx.1
          refine ⟨n, ?_⟩
          rw [hn, hn', put_ne _ _ hx.1]
        · intro x hx
          simp only [List.mem_cons] at hx
          rcases hx with rfl | hx
          · obtain ⟨n, hn⟩ := g3 x hnr
            rw [hn, e6]
            refine ⟨hT.1, ?_⟩
            rw [hst]
            simp only [Spec.tickSched, h1, hp0, if_true]
            intro _
            simp
          · exact g4 x hx
      · rw [if_neg hp0]
        simp only [Res.bind'_ok]
        have hs2c : Chain ((s.put p { s.heap p with ntick := v.left - 1 }).put p { s.heap p with ntick := v.per }).heap
            ((s.put p { s.heap p with ntick := v.left - 1 }).put p { s.heap p with ntick := v.per }).thead (d ++ [p] ++ rest) := by
          rw [List.append_assoc]
          refine Chain.congr hc fun x _ => ?_
          by_cases hx : x = p
          · subst hx; simp
          · rw [put_ne _ _ hx, put_ne _ _ hx]
        have hnd2 : (d ++ [p] ++ rest).Nodup := by rw [List.append_assoc]; exact hnd
        have := ih (d ++ [p]) ((s.put p { s.heap p with ntick := v.left - 1 }).put p { s.heap p with ntick := v.per }) fuel (by omega) hs2c
          hnd2 (s.heap p).tnext (hnext _ _ (htail _ _ _ hc)) (by
          intro x hx
          obtain ⟨w, hw1, hw2⟩ := hrep x (by simp [hx])
          have hxp : x ≠ p := by rintro rfl; exact hnr hx
          refine ⟨w, hw1, ?_⟩
          rw [put_ne _ _ hxp, put_ne _ _ hxp]
          exact hw2)
        rw [prevOf_snoc] at this
        obtain ⟨s3, g1, g2, g3, g4⟩ := this
        refine ⟨s3, ?_, ?_, ?_, ?_⟩
        · simp only [put_same, g1, Res.bind'_ok]
          simp [hfire, h1, hsma, hT.1 hrd]
        · have : (Spec.tickT (a.tm p)).sched.isSome = true := by simp [hst, Spec.tickSched, h1, hp0]
          rw [List.filter_cons_of_pos (by simp [this])]
          simpa using g2
        · intro x hx
          simp only [List.mem_cons, not_or] at hx
          obtain ⟨n, hn⟩ := g3 x hx.2
          exact ⟨n, by rw [hn, put_ne _ _ hx.1, put_ne _ _ hx.1]⟩
        · intro x hx
          simp only [List.mem_cons] at hx
          rcases hx with rfl | hx
          · obtain ⟨n, hn⟩ := g3 x hnr
            rw [hn, put_same]
            refine ⟨hT.1, ?_⟩
            rw [hst]
            simp only [Spec.tickSched, h1, hp0, if_true, if_false]
            simp only [Spec.tickT, hrd, hu, hsma, hper, true_and]; omega
          · exact g4 x hx
    · rw [if_neg (by omega)]
      have hs2c : Chain (s.put p { s.heap p with ntick := v.left - 1 }).heap
          (s.put p { s.heap p with ntick := v.left - 1 }).thead (d ++ [p] ++ rest) := by
        rw [List.append_assoc]; exact hs1c
      have hnd2 : (d ++ [p] ++ rest).Nodup := by rw [List.append_assoc]; exact hnd
      have := ih (d ++ [p]) (s.put p { s.heap p with ntick := v.left - 1 }) fuel (by omega) hs2c
        hnd2 (s.heap p).tnext (hnext _ _ (htail _ _ _ hc)) (by
        intro x hx
        obtain ⟨w, hw1, hw2⟩ := hrep x (by simp [hx])
        have hxp : x ≠ p := by rintro rfl; exact hnr hx
        refine ⟨w, hw1, ?_⟩
        rw [put_ne _ _ hxp]
        exact hw2)
      rw [prevOf_snoc] at this
      obtain ⟨s3, g1, g2, g3, g4⟩ := this
      refine ⟨s3, ?_, ?_, ?_, ?_⟩
      · rw [g1]
        simp [hfire, h1]
      · have : (Spec.tickT (a.tm p)).sched.isSome = true := by simp [hst, Spec.tickSched, h1]
        rw [List.filter_cons_of_pos (by simp [this])]
        simpa using g2
      · intro x hx
        simp only [List.mem_cons, not_or] at hx
        obtain ⟨n, hn⟩ := g3 x hx.2
        exact ⟨n, by rw [hn, put_ne _ _ hx.1]⟩
      · intro x hx
        simp only [List.mem_cons] at hx
        rcases hx with rfl | hx
        · obtain ⟨n, hn⟩ := g3 x hnr
          rw [hn, put_same]
          refine ⟨hT.1, ?_⟩
          rw [hst]
          simp only [Spec.tickSched, h1, if_false]
          simp only [Spec.tickT, hrd, hu, hsma, hper, true_and]; omega
        · exact g4 x hx

theorem rep_tick {c : Cfg} {s : St} {a : Spec.S} (hr : Rep c s a) (hf : a.order.length < c.fuel) :
    ∃ s', tick c (fun _ => []) s = .ok (s', a.order.filterMap (Spec.fire a)) ∧ Rep c s' (Spec.step a .tick).1 := by
  have hp : s.thead = hd a.order := by
    have := hr.chain
    cases ho : a.order with
    | nil => rw [ho] at this; exact this
    | cons y r => rw [ho] at this; exact this.1
  obtain ⟨s', h1, h2, h3, h4⟩ := tickLoop_ok (c := c) (a := a) a.order [] s c.fuel hf (by simpa using hr.chain) (by simpa using hr.nodup)
    s.thead hp (by
      intro t ht
      have := (hr.mem t).mp ht
      cases hs : (a.tm t).sched with
      | none => rw [hs] at this; cases this
      | some v => exact ⟨v, rfl, hr.tm t⟩)
  refine ⟨s', h1, ?_⟩
  refine { chain := by simpa [Spec.step] using h2, nodup := hr.nodup.filter _, mem := ?_, tm := ?_, nz := ?_ }
  · intro t
    simp only [Spec.step, List.mem_filter, hr.mem]
    constructor
    · exact fun h => h.2
    · intro h
      refine ⟨?_, h⟩
      cases hs : (a.tm t).sched with
      | none => simp [Spec.tickT, hs] at h
      | some v => rfl
  · intro t
    simp only [Spec.step]
    by_cases ht : t ∈ a.order
    · exact h4 t ht
    · obtain ⟨n, hn⟩ := h3 t ht
      rw [hn]
      have hnone : (a.tm t).sched = none := by
        rw [hr.mem] at ht
        cases hs : (a.tm t).sched with
        | none => rfl
        | some v => rw [hs] at ht; simp at ht
      have h := hr.tm t
      have h2 := h.2
      rw [hnone] at h2
      refine ⟨h.1, ?_⟩
      simp only [Spec.tickT, hnone, Option.bind_none]
      exact h2
  · simp only [Spec.step, Spec.tickT]; exact hr.nz

/-- One legal call is simulated by the specification. -/
theorem rep_step {c : Cfg} {s : St} {a : Spec.S} (hr : Rep c s a) {op : Op} (hl : Spec.legalOp c.W a op)
    (hf : a.order.length < c.fuel) :
    ∃ s', step c s op = .ok (s', (Spec.step a op).2) ∧ Rep c s' (Spec.step a op).1 := by
  cases op with
  | init t e =>
    obtain ⟨s', h1, h2⟩ := rep_init hr hl.1 hl.2 hf
    exact ⟨s', by simp [step, h1, Res.map', Spec.step], h2⟩
  | start t sma i p =>
    obtain ⟨s', h1, h2⟩ := rep_start hr hl
    exact ⟨s', by simp [step, h1, Res.map', Spec.step], h2⟩
  | stop t =>
    obtain ⟨s', h1, h2⟩ := rep_stop hr hl hf
    exact ⟨s', by simp [step, h1, Res.map', Spec.step], h2⟩
  | tick =>
    obtain ⟨s', h1, h2⟩ := rep_tick hr hf
    exact ⟨s', by simp [step, h1, Res.map', Spec.step], h2⟩

theorem order_length_step (a : Spec.S) (op : Op) : (Spec.step a op).1.order.length ≤ a.order.length + 1 := by
  cases op with
  | init t e => simp only [Spec.step]; have := List.length_erase_le (a := t) (l := a.order); omega
  | start t sma i p => simp only [Spec.step]; split <;> simp
  | stop t => simp only [Spec.step]; have := List.length_erase_le (a := t) (l := a.order); omega
  | tick => simp only [Spec.step]; have := List.length_filter_le (fun t => (Spec.tickT (a.tm t)).sched.isSome) a.order; omega

/-- Legal histories are simulated. -/
theorem rep_run {c : Cfg} : ∀ (ops : List Op) (s : St) (a : Spec.S), Rep c s a → Spec.Legal c.W a ops →
    a.order.length + ops.length < c.fuel →
    (runOps (step c) s ops).1 = (Spec.run a ops).1 ∧
    ∃ s', (runOps (step c) s ops).2 = .ok s' ∧ Rep c s' (Spec.run a ops).2 := by
  intro ops
  induction ops with
  | nil => intro s a hr _ _; exact ⟨rfl, s, rfl, hr⟩
  | cons op ops ih =>
    intro s a hr hl hf
    obtain ⟨s1, h1, h2⟩ := rep_step hr hl.1 (by simp at hf; omega)
    have := order_length_step a op
    obtain ⟨h3, s2, h4, h5⟩ := ih s1 _ h2 hl.2 (by simp at hf; omega)
    simp only [runOps, h1, Spec.run]
    exact ⟨by rw [h3], s2, h4, h5⟩

end Verif.Timer
