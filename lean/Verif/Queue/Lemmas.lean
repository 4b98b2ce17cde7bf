import Verif.Queue.Spec
namespace Verif.Queue
open Verif

/-- Offset of the `i`-th stored element. -/
def idx (cap p i : Nat) : Nat := if p + i < cap then p + i else p + i - cap

/-- The ring buffer `q` represents the abstract queue `a` with capacity `cap`. -/
structure Rep (c : Cfg) (sma : Bool) (cap : Nat) (q : Queue) (a : Spec.Abs) : Prop where
  capW : cap < c.W
  memLen : cap ≤ q.mem.length
  pend : q.pend = cap
  nel : q.nelems = cap
  sma : q.sma = sma
  qty : q.qty = a.items.length
  le : a.items.length ≤ cap
  pout : q.pout < cap ∨ (cap = 0 ∧ q.pout = 0)
  pin : q.pin = idx cap q.pout q.qty
  cells : ∀ i, i < a.items.length → q.mem[idx cap q.pout i]? = a.items[i]?
  nmin : q.nmin = a.minFree
  info : q.info = Spec.counters a

theorem rep_init (c : Cfg) (sma : Bool) (cap : Nat) (mem : List Ptr) (h : cap ≤ mem.length)
    (hw : cap < c.W) : Rep c sma cap (init mem cap sma) (Spec.empty cap) := by
  constructor <;> (try simp [init, Spec.empty, Spec.counters, Info.zero, idx]) <;> omega

theorem idx_lt {cap p i : Nat} (hp : p < cap) (hi : i ≤ cap) : idx cap p i < cap := by
  unfold idx; split <;> omega

theorem idx_inj {cap p i j : Nat} (hi : i < cap) (hj : j < cap) (hp : p < cap)
    (h : idx cap p i = idx cap p j) : i = j := by
  unfold idx at h; split at h <;> split at h <;> omega

theorem bv_succ (n : Nat) : BitVec.ofNat 16 n + 1#16 = BitVec.ofNat 16 (n + 1) := by
  simp [BitVec.ofNat_add]

theorem newMin_eq (c : Cfg) (cap qty m : Nat) (h : qty ≤ cap) (hw : cap < c.W) :
    newMin c cap qty m = min m (cap - qty) := by
  have : (cap + c.W - qty) % c.W = cap - qty := by
    rw [show cap + c.W - qty = (cap - qty) + c.W by omega, Nat.add_mod_right,
      Nat.mod_eq_of_lt (by omega)]
  simp only [newMin, this]
  split <;> omega

variable {c : Cfg} {sma : Bool} {cap : Nat} {q : Queue} {a : Spec.Abs}

/-- Changing only counters. -/
theorem rep_info (h : Rep c sma cap q a) (i : Info) (b : Spec.Abs) (hi : i = Spec.counters b)
    (h1 : b.items = a.items) (h2 : b.minFree = a.minFree) :
    Rep c sma cap { q with info := i } b := by
  constructor
  · exact h.capW
  · exact h.memLen
  · exact h.pend
  · exact h.nel
  · exact h.sma
  · rw [h1]; exact h.qty
  · rw [h1]; exact h.le
  · exact h.pout
  · exact h.pin
  · rw [h1]; exact h.cells
  · rw [h2]; exact h.nmin
  · exact hi

theorem rep_full (h : Rep c sma cap q a) (hl : a.items.length = cap) :
    Rep c sma cap { q with info := { q.info with nfull := q.info.nfull + 1 } }
      { a with fulls := a.fulls + 1 } := by
  refine { h with info := ?_ }
  simp [h.info, Spec.counters, bv_succ]

theorem rep_putFifo (h : Rep c sma cap q a) (e : Ptr) :
    StepRel (Rep c sma cap) (step c q (.putFifo e)) (Spec.step c.assertEn sma cap a (.putFifo e)) := by
  simp only [step, putFifo, Spec.step, Spec.put]
  rcases he : (c.assertEn && e == 0) with _ | _
  rotate_left
  · simp only [Bool.and_eq_true, beq_iff_eq] at he
    simp [he, assertIf, Res.map', StepRel]
  have h0 : assertIf c.assertEn (e != 0) = .ok () := by
    simp only [assertIf]; cases hc : c.assertEn <;> simp_all
  have hq := h.qty
  have hn := h.nel
  have hle := h.le
  by_cases hf : a.items.length = cap
  · have hlt : ¬ q.qty < q.nelems := by omega
    cases hc : c.assertEn
    · simp only [h0, assertIf, hlt]
      simp [hf, Res.map', StepRel, Nat.not_lt.mp hlt, show q.nelems ≤ q.qty by omega]
      exact rep_full h hf
    · simp [assertIf, hlt, hf, Res.map', StepRel, hc] at h0 ⊢
      simp [h0]
  · have hlt : q.qty < q.nelems := by omega
    have hpo : q.pout < cap := by rcases h.pout with h1 | h1 <;> omega
    have hpin : q.pin < cap := by rw [h.pin]; exact idx_lt hpo (by omega)
    have hml := h.memLen
    have hw := h.capW
    have hcond : (c.assertEn && (e == 0 || a.items.length == cap)) = false := by
      rw [show (a.items.length == cap) = false by simpa using hf]; simpa using he
    simp only [h0, Res.bind_ok, hlt, decide_true, assertIf_true, Nat.not_le.mpr hlt, ge_iff_le, if_false,
      wr, show q.pin < q.mem.length by omega, if_true, Res.pure_eq, Res.map', hcond, hf, StepRel,
      beq_iff_eq, Bool.false_eq_true, and_true]
    have hmod : (q.qty + 1) % c.W = q.qty + 1 := Nat.mod_eq_of_lt (by omega)
    have hpin' := h.pin
    refine { capW := hw, memLen := by simpa using hml, pend := h.pend, nel := hn, sma := h.sma, qty := ?_, le := ?_,
             pout := h.pout, pin := ?_, cells := ?_, nmin := ?_, info := ?_ }
    · simp only [Spec.store, hmod]; simp [hq]
    · simp [Spec.store]; omega
    · simp only [hmod, h.pend]
      rw [hpin']
      unfold idx
      split <;> split <;> split <;> omega
    · intro i hi
      simp only [Spec.store, List.length_append, List.length_cons, List.length_nil] at hi ⊢
      by_cases hil : i < a.items.length
      · rw [List.getElem?_append_left hil, ← h.cells i hil, List.getElem?_set_ne]
        intro heq
        rw [hpin', hq] at heq
        have := idx_inj (by omega) (by omega) hpo heq
        omega
      · have : i = a.items.length := by omega
        subst this
        rw [hpin', hq]
        simp [List.getElem?_set_self, show idx cap q.pout a.items.length < q.mem.length by
          have := idx_lt (cap := cap) (i := a.items.length) hpo (by omega); omega]
    · simp only [hmod, Spec.store]
      rw [hn, newMin_eq c cap (q.qty + 1) q.nmin (by omega) hw, h.nmin]
      simp [hq]
    · simp [h.info, Spec.counters, bv_succ, Spec.store]

theorem rep_putLifo (h : Rep c sma cap q a) (e : Ptr) :
    StepRel (Rep c sma cap) (step c q (.putLifo e)) (Spec.step c.assertEn sma cap a (.putLifo e)) := by
  simp only [step, putLifo, Spec.step, Spec.put]
  rcases he : (c.assertEn && e == 0) with _ | _
  rotate_left
  · simp only [Bool.and_eq_true, beq_iff_eq] at he
    simp [he, assertIf, Res.map', StepRel]
  have h0 : assertIf c.assertEn (e != 0) = .ok () := by
    simp only [assertIf]; cases hc : c.assertEn <;> simp_all
  have hq := h.qty
  have hn := h.nel
  have hle := h.le
  by_cases hf : a.items.length = cap
  · have hlt : ¬ q.qty < q.nelems := by omega
    cases hc : c.assertEn
    · simp only [h0, assertIf, hlt]
      simp [hf, Res.map', StepRel, Nat.not_lt.mp hlt, show q.nelems ≤ q.qty by omega]
      exact rep_full h hf
    · simp [assertIf, hlt, hf, Res.map', StepRel, hc] at h0 ⊢
      simp [h0]
  · have hlt : q.qty < q.nelems := by omega
    have hpo : q.pout < cap := by rcases h.pout with h1 | h1 <;> omega
    have hml := h.memLen
    have hw := h.capW
    have hpe := h.pend
    have hcond : (c.assertEn && (e == 0 || a.items.length == cap)) = false := by
      rw [show (a.items.length == cap) = false by simpa using hf]; simpa using he
    generalize hpo' : (if (q.pout == 0) = true then q.pend else q.pout) = po
    have hpoV : po = if q.pout = 0 then cap else q.pout := by rw [← hpo', hpe]; simp
    have hpo0 : po ≠ 0 := by rw [hpoV]; split <;> omega
    have hpoc : po ≤ cap := by rw [hpoV]; split <;> omega
    simp only [h0, Res.bind_ok, hlt, decide_true, assertIf_true, Nat.not_le.mpr hlt, ge_iff_le, if_false,
      hpo0, wr, show po - 1 < q.mem.length by omega, if_true, Res.pure_eq, Res.map', hcond, hf, StepRel,
      beq_iff_eq, Bool.false_eq_true, and_true]
    have hmod : (q.qty + 1) % c.W = q.qty + 1 := Nat.mod_eq_of_lt (by omega)
    have hpin' := h.pin
    have hidx : ∀ i, i < cap → idx cap (po - 1) (i + 1) = idx cap q.pout i := by
      intro i hi
      unfold idx
      rw [hpoV]
      split <;> split <;> split <;> omega
    refine { capW := hw, memLen := by simpa using hml, pend := h.pend, nel := hn, sma := h.sma, qty := ?_, le := ?_,
             pout := .inl (by show po - 1 < cap; omega), pin := ?_, cells := ?_, nmin := ?_, info := ?_ }
    · simp only [Spec.store, hmod]; simp [hq]
    · simp [Spec.store]; omega
    · simp only [hmod]
      rw [hpin', hidx q.qty (by omega)]
    · intro i hi
      simp only [Spec.store, List.length_cons] at hi ⊢
      cases i with
      | zero =>
        have : idx cap (po - 1) 0 = po - 1 := by unfold idx; split <;> omega
        rw [this]
        simp [show po - 1 < q.mem.length by omega]
      | succ i =>
        rw [hidx i (by omega), List.getElem?_cons_succ, ← h.cells i (by omega), List.getElem?_set_ne]
        intro heq
        rw [← hidx i (by omega)] at heq
        have h0' : idx cap (po - 1) 0 = po - 1 := by unfold idx; split <;> omega
        have : (0:Nat) = i + 1 := idx_inj (cap := cap) (p := po - 1) (by omega) (by omega) (by omega) (by rw [h0']; exact heq)
        omega
    · simp only [hmod, Spec.store]
      rw [hn, newMin_eq c cap (q.qty + 1) q.nmin (by omega) hw, h.nmin]
      simp [hq]
    · simp [h.info, Spec.counters, bv_succ, Spec.store]

theorem rep_get (h : Rep c sma cap q a) (hen : c.assertEn = true ∨ sma = false) :
    StepRel (Rep c sma cap) (step c q .get) (Spec.step c.assertEn sma cap a .get) := by
  simp only [step, get, Spec.step]
  have hq := h.qty
  have hs := h.sma
  rcases hi : a.items with _ | ⟨e, rest⟩
  · rw [hi] at hq
    simp only [List.length_nil] at hq
    cases hsm : sma
    · rw [hsm] at hs
      have h1 : assertIf (c.assertEn && q.sma) (q.qty != 0) = Res.ok () := by
        rw [hs]; simp
      have h2 : (!q.sma && q.qty == 0) = true := by rw [hs, hq]; rfl
      simp only [h1, h2, if_true, Res.pure_eq, Res.bind_ok, Bool.false_eq_true, if_false, Res.map', StepRel, and_true]
      subst hsm
      exact rep_info h _ _ (by simp [h.info, Spec.counters, bv_succ]) (by simp [hi]) rfl
    · rw [hsm] at hs hen
      simp at hen
      simp [hs, hq, hen, Res.map', StepRel]
  · rw [hi] at hq
    simp only [List.length_cons] at hq
    have hle := h.le
    rw [hi] at hle
    simp only [List.length_cons] at hle
    have hpo : q.pout < cap := by rcases h.pout with h1 | h1 <;> omega
    have hw := h.capW
    have hml := h.memLen
    have hassert : assertIf (c.assertEn && q.sma) (q.qty != 0) = Res.ok () := by
      have : (q.qty != 0) = true := by simp; omega
      rw [this]; simp
    have hcell := h.cells 0 (by rw [hi]; simp)
    have hidx0 : idx cap q.pout 0 = q.pout := by unfold idx; split <;> omega
    rw [hidx0, hi] at hcell
    simp only [List.getElem?_cons_zero] at hcell
    have hq0 : (q.qty == 0) = false := by simp; omega
    simp only [hassert, Res.bind_ok, hq0, Bool.and_false, Bool.false_eq_true, if_false, rd, hcell, Res.pure_eq,
      Res.map', StepRel, and_true]
    have hmod : (q.qty + (c.W - 1)) % c.W = q.qty - 1 := by
      rw [show q.qty + (c.W - 1) = (q.qty - 1) + c.W by omega, Nat.add_mod_right, Nat.mod_eq_of_lt (by omega)]
    have hpin := h.pin
    have hpe := h.pend
    generalize hpo' : (if (q.pout + 1 == q.pend) = true then 0 else q.pout + 1) = po
    have hpoV : po = if q.pout + 1 = cap then 0 else q.pout + 1 := by rw [← hpo', hpe]; simp
    have hidx : ∀ i, i < cap → idx cap po i = idx cap q.pout (i + 1) := by
      intro i hi
      unfold idx
      rw [hpoV]
      split <;> split <;> split <;> omega
    refine { capW := hw, memLen := by simpa using hml, pend := hpe, nel := h.nel, sma := hs, qty := ?_, le := ?_,
             pout := .inl ?_, pin := ?_, cells := ?_, nmin := h.nmin, info := ?_ }
    · simp only [hmod]; simp [hq]
    · simp; omega
    · simp only; rw [hpoV]; split <;> omega
    · simp only [hmod]
      rw [hpin, hidx _ (by omega)]
      congr 1
      omega
    · intro i hi'
      simp only at hi' ⊢
      rw [hidx i (by omega), h.cells (i + 1) (by rw [hi]; simpa using hi'), hi]
      simp
    · simp [h.info, Spec.counters, bv_succ]

/-- Every API call preserves the representation and returns what the specification returns. -/
theorem rep_step (hen : c.assertEn = true ∨ sma = false) (op : Op) (h : Rep c sma cap q a) :
    StepRel (Rep c sma cap) (step c q op) (Spec.step c.assertEn sma cap a op) := by
  cases op with
  | putFifo e => exact rep_putFifo h e
  | putLifo e => exact rep_putLifo h e
  | get => exact rep_get h hen
  | deplete =>
    simp only [step, Spec.step, deplete, StepRel, and_true]
    have hml := h.memLen
    constructor <;> simp [h.capW, h.memLen, h.pend, h.nel, h.sma, h.nmin, h.info, Spec.counters, idx] <;> omega
  | read =>
    simp only [step, read, Spec.step]
    have hq := h.qty
    rcases hi : a.items with _ | ⟨e, rest⟩
    · rw [hi] at hq
      simp only [List.length_nil] at hq
      have hq0 : (q.qty == 0) = true := by rw [hq]; rfl
      simp only [hq0, show ((1:Nat) != 0) = true from rfl, assertIf_true, Res.bind_ok, if_true, Res.pure_eq, Res.map',
        StepRel, and_true]
      exact rep_info h _ _ (by simp [h.info, Spec.counters, bv_succ]) (by simp [hi]) rfl
    · rw [hi] at hq
      simp only [List.length_cons] at hq
      have hle := h.le
      rw [hi] at hle
      simp only [List.length_cons] at hle
      have hpo : q.pout < cap := by rcases h.pout with h1 | h1 <;> omega
      have hcell := h.cells 0 (by rw [hi]; simp)
      have hidx0 : idx cap q.pout 0 = q.pout := by unfold idx; split <;> omega
      rw [hidx0, hi] at hcell
      simp only [List.getElem?_cons_zero] at hcell
      have hq0 : (q.qty == 0) = false := by simp; omega
      simp only [hq0, rd, hcell, show ((1:Nat) != 0) = true from rfl, assertIf_true, Res.bind_ok, Bool.false_eq_true,
        if_false, Res.pure_eq, Res.map', StepRel, and_true]
      exact rep_info h _ _ (by simp [h.info, Spec.counters, bv_succ]) (by simp [hi]) rfl
  | isFull =>
    simp only [step, isFull, Spec.step, StepRel, h.qty, h.nel]
    exact ⟨h, trivial⟩
  | getNum =>
    simp only [step, getNum, Spec.step, StepRel, h.qty]
    exact ⟨h, trivial⟩
  | getLwm =>
    simp only [step, getLwm, Spec.step, StepRel, h.nmin]
    exact ⟨h, trivial⟩
  | getInfo =>
    simp only [step, Spec.step, StepRel, h.info]
    exact ⟨h, trivial⟩
  | clearInfo =>
    simp only [step, Spec.step, clearInfo, StepRel, and_true]
    refine { h with info := ?_ }
    simp [Spec.counters, Info.zero]

end Verif.Queue
