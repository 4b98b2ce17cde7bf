import Verif.Trc.RecordLemmas
import Verif.RdyGrp.Lemmas
/-
Filters: the tables represent the four sets of enabled items.
-/
namespace Verif.Trc
open Verif Spec RdyGrp

/-- Bit `i` of a table. -/
def bitAt (l : List Byte) (i : Nat) : Bool :=
  match l[i / 8]? with
  | some c => c.getLsbD (i % 8)
  | none => false

/-- Byte offset of a group's events. -/
def off (g : Nat) : Nat :=
  match g with
  | 0 => 0 | 1 => 1 | 2 => 2 | 3 => 4 | 4 => 7 | 5 => 8 | 6 => 11 | _ => 15

theorem ix_ok {α : Type} {l : List α} {i : Nat} (h : i < l.length) : ix l i = .ok l[i] := by
  simp [ix, h]

theorem gmtbl_ok {g : Nat} (h : g < 8) :
    ix gmtbl g = .ok (off g, eventsOf g / 8) ∧ eventsOf g = 8 * (eventsOf g / 8) ∧ off g + eventsOf g / 8 ≤ 17 := by
  have : g = 0 ∨ g = 1 ∨ g = 2 ∨ g = 3 ∨ g = 4 ∨ g = 5 ∨ g = 6 ∨ g = 7 := by omega
  rcases this with rfl | rfl | rfl | rfl | rfl | rfl | rfl | rfl <;> decide

/-- Events of different groups are in different places. -/
theorem pos_inj {g g' x x' : Nat} (h : g < 8) (h' : g' < 8) (hx : x < eventsOf g) (hx' : x' < eventsOf g')
    (he : 8 * off g + x = 8 * off g' + x') : g = g' := by
  have e : g = 0 ∨ g = 1 ∨ g = 2 ∨ g = 3 ∨ g = 4 ∨ g = 5 ∨ g = 6 ∨ g = 7 := by omega
  have e' : g' = 0 ∨ g' = 1 ∨ g' = 2 ∨ g' = 3 ∨ g' = 4 ∨ g' = 5 ∨ g' = 6 ∨ g' = 7 := by omega
  rcases e with rfl | rfl | rfl | rfl | rfl | rfl | rfl | rfl <;>
    rcases e' with rfl | rfl | rfl | rfl | rfl | rfl | rfl | rfl <;>
    simp only [off, eventsOf] at * <;> omega

theorem ctl_off (emit : Bool) : (ctl emit = FILTER_OFF) ↔ emit = true := by cases emit <;> decide

theorem setOneFilter_ok (b : Byte) (emit : Bool) {i : Nat} (hi : i < 8) :
    ∃ b', setOneFilter b (ctl emit) i = .ok b' ∧ ∀ j, j < 8 → b'.getLsbD j = if j = i then emit else b.getLsbD j := by
  unfold setOneFilter
  rw [mask_ok i hi]
  cases emit with
  | true =>
    rw [if_pos (by decide)]
    refine ⟨b ||| (1#8 <<< i), rfl, fun j hj => ?_⟩
    rw [BitVec.getLsbD_or, mask_bit i j hi hj]
    by_cases h : j = i
    · simp [h]
    · simp [h, Ne.symm h]
  | false =>
    rw [if_neg (by decide)]
    refine ⟨b &&& ~~~(1#8 <<< i), rfl, fun j hj => ?_⟩
    rw [BitVec.getLsbD_and, BitVec.getLsbD_not, mask_bit i j hi hj]
    by_cases h : j = i
    · simp [h]
    · simp [h, Ne.symm h, hj]

theorem setOneAt_ok (l : List Byte) (emit : Bool) {i : Nat} (hi : i / 8 < l.length) :
    ∃ l', setOneAt l (i / 8) (ctl emit) (i % 8) = .ok l' ∧ l'.length = l.length ∧
      ∀ j, bitAt l' j = if j = i then emit else bitAt l j := by
  obtain ⟨b', h1, h2⟩ := setOneFilter_ok l[i / 8] emit (i := i % 8) (by omega)
  refine ⟨l.set (i / 8) b', ?_, by simp, fun j => ?_⟩
  · simp [setOneAt, ix_ok hi, h1, Res.map']
  · unfold bitAt
    rw [List.getElem?_set]
    by_cases hj : i / 8 = j / 8
    · rw [if_pos hj, if_pos hi]
      simp only [h2 (j % 8) (by omega)]
      by_cases h : j = i
      · simp [h]
      · rw [if_neg (by omega), if_neg h, ← hj, List.getElem?_eq_getElem hi]
    · rw [if_neg hj, if_neg (by intro h; subst h; exact hj rfl)]

theorem setAllLoop_ok (c : Byte) (size : Nat) (hs : size ≤ 255) : ∀ (n : Nat) (tbl : List Byte) (ft ix : Nat),
    ix + n = size → ft + n ≤ tbl.length →
    ∃ l', setAllLoop c size tbl ft ix = .ok l' ∧ l'.length = tbl.length ∧
      ∀ k, l'[k]? = if ft ≤ k ∧ k < ft + n then some c else tbl[k]? := by
  intro n
  induction n with
  | zero =>
    intro tbl ft ix h1 h2
    rw [setAllLoop, if_neg (by omega)]
    exact ⟨tbl, rfl, rfl, fun k => by rw [if_neg (by omega)]⟩
  | succ n ih =>
    intro tbl ft ix h1 h2
    rw [setAllLoop, if_pos (by omega), if_pos (by omega), Nat.mod_eq_of_lt (by omega)]
    obtain ⟨l', h3, h4, h5⟩ := ih (tbl.set ft c) (ft + 1) (ix + 1) (by omega) (by simp; omega)
    refine ⟨l', h3, by simpa using h4, fun k => ?_⟩
    rw [h5 k, List.getElem?_set]
    by_cases hk : ft = k
    · subst hk; rw [if_neg (by omega), if_pos rfl, if_pos (by omega), if_pos (by omega)]
    · rw [if_neg hk]
      by_cases h : ft + 1 ≤ k ∧ k < ft + 1 + n
      · rw [if_pos h, if_pos (by omega)]
      · rw [if_neg h, if_neg (by omega)]

theorem allBits (emit : Bool) {g : Nat} (h : g < 8) :
    (if ctl emit = FILTER_OFF then 0xFF#8 else 0#8 : Byte).getLsbD g = emit := by
  have key : ∀ i : Fin 8, (0xFF#8).getLsbD i.val = true := by decide
  cases emit with
  | true => simp only [ctl, if_true]; exact key ⟨g, h⟩
  | false => rw [if_neg (by decide)]; simp

theorem setAllFilters_ok (l : List Byte) (emit : Bool) {ft size : Nat} (hs : size ≤ 255) (h : ft + size ≤ l.length) :
    ∃ l', setAllFilters l ft (ctl emit) size = .ok l' ∧ l'.length = l.length ∧
      ∀ j, bitAt l' j = if 8 * ft ≤ j ∧ j < 8 * (ft + size) then emit else bitAt l j := by
  obtain ⟨l', h1, h2, h3⟩ := setAllLoop_ok (if ctl emit = FILTER_OFF then 0xFF#8 else 0#8) size hs size l ft 0 (by omega) h
  refine ⟨l', h1, h2, fun j => ?_⟩
  unfold bitAt
  rw [h3]
  by_cases hj : ft ≤ j / 8 ∧ j / 8 < ft + size
  · rw [if_pos hj, if_pos (show 8 * ft ≤ j ∧ j < 8 * (ft + size) by omega)]
    exact allBits emit (by omega)
  · rw [if_neg hj, if_neg (by omega)]

theorem test_mask (c : Byte) {i : Nat} (hi : i < 8) : decide (c &&& (1#8 <<< i) ≠ 0#8) = c.getLsbD i := by
  have h : (c &&& (1#8 <<< i) = 0#8) ↔ c.getLsbD i = false := by
    rw [zero_iff]
    constructor
    · intro h
      have := h i hi
      simpa [BitVec.getLsbD_and, mask_bit i i hi hi] using this
    · intro h j hj
      rw [BitVec.getLsbD_and, mask_bit i j hi hj]
      by_cases hij : i = j
      · subst hij; simp [h]
      · simp [hij]
  by_cases hc : c.getLsbD i = true
  · rw [hc, decide_eq_true_iff]
    intro h0
    rw [h.mp h0] at hc; cases hc
  · simp only [Bool.not_eq_true] at hc
    rw [hc, decide_eq_false_iff_not]
    intro h0; exact h0 (h.mpr hc)

theorem isOffFilter_ok (l : List Byte) (base : Nat) {x : Nat} (hx : x < 256) (h : base + x / 8 < l.length) :
    isOffFilter l base x = .ok (bitAt l (8 * base + x)) := by
  unfold isOffFilter
  simp only [Nat.mod_eq_of_lt hx, shr3, and7]
  rw [ix_ok h, mask_ok _ (by omega)]
  simp only [Res.bind, Res.map', Res.ok.injEq]
  rw [test_mask _ (by omega)]
  unfold bitAt
  rw [show (8 * base + x) / 8 = base + x / 8 by omega, List.getElem?_eq_getElem h,
    show (8 * base + x) % 8 = x % 8 by omega]

theorem getGrp_eq {e : Nat} (h : e < 256) : getGrp e = e / 32 := by
  have : ∀ e : Fin 256, getGrp e.val = e.val / 32 := by decide +kernel
  exact this ⟨e, h⟩

theorem getEvt_eq {e : Nat} : getEvt e = e % 32 := Nat.and_two_pow_sub_one_eq_mod e 5

theorem tblBytes_gt {n s : Nat} (h : s < n) : s / 8 < tblBytes n := by
  unfold tblBytes; split <;> omega

theorem slotMod_gt {f : FCfg} (hs : f.maxSma ≤ 64 ∧ f.maxSig ≤ 2040) {d : Tbl} {s : Nat} (h : SlotOk f d s) : s < slotMod f := by
  obtain ⟨h1, h2⟩ := hs
  have a1 : 8 * tblBytes f.maxSma ≤ 2048 ∧ f.maxSma ≤ 8 * tblBytes f.maxSma := by unfold tblBytes; split <;> omega
  have a2 : 8 * tblBytes f.maxSig ≤ 2048 ∧ f.maxSig ≤ 8 * tblBytes f.maxSig := by unfold tblBytes; split <;> omega
  have h3 : s < f.maxSma ∨ s < f.maxSig := by
    cases d with
    | signal => exact Or.inr h
    | sma => exact Or.inl h
  unfold slotMod
  simp only
  have e8 : (2 : Nat) ^ 8 = 256 := by decide
  have e16 : (2 : Nat) ^ 16 = 65536 := by decide
  rw [e8, e16]
  generalize tblBytes f.maxSma = p at *
  generalize tblBytes f.maxSig = q at *
  by_cases hpq : q < p
  · simp only [hpq, if_true]
    by_cases hc : p * 8 ≤ 256
    · rw [if_pos hc]; omega
    · rw [if_neg hc, if_pos (by omega)]; omega
  · simp only [hpq, if_false]
    by_cases hc : q * 8 ≤ 256
    · rw [if_pos hc]; omega
    · rw [if_neg hc, if_pos (by omega)]; omega

/-! ### The representation -/

/-- The tables represent the sets. -/
structure FRep (f : FCfg) (t : Flt) (a : On) : Prop where
  evtLen : t.evt.length = 17
  smaLen : t.sma.length = tblBytes f.maxSma
  sigLen : t.sig.length = tblBytes f.maxSig
  grp : ∀ g, g < 8 → t.grp.getLsbD g = a.grp g
  evt : ∀ e, Used e → bitAt t.evt (8 * off (e / 32) + e % 32) = a.evt e
  sma : ∀ p, p < f.maxSma → bitAt t.sma p = a.sma p
  sig : ∀ s, s < f.maxSig → bitAt t.sig s = a.sig s

theorem bitAt_replicate (n i : Nat) : bitAt (List.replicate n 0#8) i = false := by
  unfold bitAt
  rw [List.getElem?_replicate]
  split
  · rename_i c h
    split at h <;> simp at h
    subst h; simp
  · rfl

theorem frep_init (f : FCfg) : FRep f (fltInit f) On.none := by
  constructor
  · simp [fltInit, evtBytes]
  · simp [fltInit]
  · simp [fltInit]
  · intro g _; simp [fltInit, On.none]
  · intro e _; exact bitAt_replicate _ _
  · intro e _; exact bitAt_replicate _ _
  · intro e _; exact bitAt_replicate _ _

theorem used_pos {e : Nat} (h : Used e) : e / 32 < 8 ∧ e % 32 < eventsOf (e / 32) ∧ off (e / 32) + (e % 32) / 8 < 17 := by
  obtain ⟨h1, h2⟩ := h
  obtain ⟨_, h4, h5⟩ := gmtbl_ok (g := e / 32) (by omega)
  exact ⟨by omega, h2, by omega⟩

theorem filterGroup_rep {f : FCfg} {t : Flt} {a : On} (h : FRep f t a) (emit : Bool) {g : Nat} (hg : g ≤ ALL_GROUPS)
    (ch : Bool) : ∃ t', filterGroup t (ctl emit) g ch = .ok t' ∧ FRep f t' (group a emit g ch) := by
  unfold filterGroup group
  by_cases hall : g = ALL_GROUPS
  · rw [if_pos hall, if_pos hall]
    exact ⟨_, rfl, ⟨h.evtLen, h.smaLen, h.sigLen, fun g hg => allBits emit hg, h.evt, h.sma, h.sig⟩⟩
  · rw [if_neg hall, if_neg hall]
    have hg8 : g < 8 := by unfold ALL_GROUPS at *; omega
    obtain ⟨b', h1, h2⟩ := setOneFilter_ok t.grp emit hg8
    obtain ⟨k1, k2, k3⟩ := gmtbl_ok hg8
    have hgrp : ∀ x, x < 8 → b'.getLsbD x = upd a.grp g emit x := by
      intro x hx
      rw [h2 x hx, upd, h.grp x hx]
    rw [h1]
    cases ch with
    | false =>
      refine ⟨{ t with grp := b' }, rfl, ⟨h.evtLen, h.smaLen, h.sigLen, hgrp, ?_, h.sma, h.sig⟩⟩
      intro e he; simpa using h.evt e he
    | true =>
      obtain ⟨l', g1, g2, g3⟩ := setAllFilters_ok t.evt emit (ft := off g) (size := eventsOf g / 8) (by omega)
        (by rw [h.evtLen]; omega)
      refine ⟨{ t with grp := b', evt := l' }, ?_, ⟨by simpa [h.evtLen] using g2, h.smaLen, h.sigLen, hgrp, ?_, h.sma, h.sig⟩⟩
      · simp only [Res.bind, if_true, k1]
        simp [g1, Res.map']
      · intro e he
        obtain ⟨u1, u2, u3⟩ := used_pos he
        simp only [g3]
        by_cases heg : e / 32 = g
        · subst heg; rw [if_pos (by omega)]; simp
        · rw [if_neg ?_]
          · simpa [heg] using h.evt e he
          · intro hc
            apply heg
            refine pos_inj u1 hg8 u2 (x' := 8 * off (e / 32) + e % 32 - 8 * off g) ?_ ?_
            · omega
            · omega

theorem filterEvent_rep {f : FCfg} {t : Flt} {a : On} (h : FRep f t a) (emit : Bool) {e : Nat}
    (he : e = ALL_EVENTS ∨ (Used e ∧ e < ALL_EVENTS)) :
    ∃ t', filterEvent f t (ctl emit) e = .ok t' ∧ FRep f t' (event a emit e) := by
  have hle : e ≤ ALL_EVENTS := by rcases he with rfl | h <;> omega
  unfold filterEvent event
  rw [show assertIf f.assertEn (decide (e ≤ ALL_EVENTS)) = .ok () by simp [assertIf, hle]]
  simp only [Res.bind]
  by_cases hall : e = ALL_EVENTS
  · rw [if_pos hall, if_pos hall]
    obtain ⟨l', g1, g2, g3⟩ := setAllFilters_ok t.evt emit (ft := 0) (size := evtBytes) (by decide)
      (by rw [h.evtLen]; decide)
    rw [g1]
    refine ⟨_, rfl, ⟨by simpa [h.evtLen] using g2, h.smaLen, h.sigLen, fun g hg => allBits emit hg, ?_, h.sma, h.sig⟩⟩
    intro x hx
    obtain ⟨u1, u2, u3⟩ := used_pos hx
    rw [g3, if_pos (by simp only [evtBytes]; omega)]
  · rw [if_neg hall, if_neg hall]
    have hu : Used e := by
      rcases he with rfl | h
      · exact absurd rfl hall
      · exact h.1
    obtain ⟨u1, u2, u3⟩ := used_pos hu
    obtain ⟨k1, k2, k3⟩ := gmtbl_ok u1
    simp only [getGrp_eq hu.1, getEvt_eq, k1, shr3, and7]
    obtain ⟨l', g1, g2, g3⟩ := setOneAt_ok t.evt emit (i := 8 * off (e / 32) + e % 32) (by rw [h.evtLen]; omega)
    rw [show (8 * off (e / 32) + e % 32) / 8 = (off (e / 32) + e % 32 / 8) % 256 by omega,
      show (8 * off (e / 32) + e % 32) % 8 = e % 32 % 8 by omega] at g1
    rw [g1, mask_ok _ u1]
    have hevt : ∀ x, Used x → bitAt l' (8 * off (x / 32) + x % 32) = upd a.evt e emit x := by
      intro x hx
      obtain ⟨v1, v2, v3⟩ := used_pos hx
      rw [g3, upd]
      by_cases hxe : x = e
      · subst hxe; simp
      · rw [if_neg hxe, if_neg, h.evt x hx]
        intro hc
        have := pos_inj v1 u1 v2 u2 hc
        rw [this] at hc
        omega
    cases emit with
    | true =>
      rw [if_pos (by decide)]
      refine ⟨_, rfl, ⟨by simpa [h.evtLen] using g2, h.smaLen, h.sigLen, ?_, hevt, h.sma, h.sig⟩⟩
      intro g hg
      simp only [if_true, BitVec.getLsbD_or, mask_bit _ g u1 hg, upd, h.grp g hg]
      by_cases hge : g = e / 32
      · simp [hge]
      · simp [hge, Ne.symm hge]
    | false =>
      rw [if_neg (by decide)]
      exact ⟨_, rfl, ⟨by simpa [h.evtLen] using g2, h.smaLen, h.sigLen, by simpa using h.grp, hevt, h.sma, h.sig⟩⟩

theorem mode_split (emit all : Bool) :
    (symMode emit all &&& ~~~ALL_FILTERS = ctl emit) ∧ ((symMode emit all &&& ALL_FILTERS ≠ 0#8) ↔ all = true) := by
  cases emit <;> cases all <;> decide

theorem slot_row {f : FCfg} {d : Tbl} {s : Nat} (h : SlotOk f d s) : s / 8 < tblSize f d := by
  cases d with
  | signal => exact tblBytes_gt h
  | sma => exact tblBytes_gt h

theorem tbl_len {f : FCfg} {t : Flt} {a : On} (h : FRep f t a) (d : Tbl) : (tbl t d).length = tblSize f d := by
  cases d with
  | signal => exact h.sigLen
  | sma => exact h.smaLen

theorem tblSize_le {f : FCfg} (hs : f.maxSma ≤ 64 ∧ f.maxSig ≤ 2040) (d : Tbl) : tblSize f d ≤ 255 := by
  cases d <;> (simp only [tblSize, tblBytes]; split <;> omega)

theorem slot_le_row {f : FCfg} {d : Tbl} {s : Nat} (h : SlotOk f d s) : s ≤ tblSize f d <<< 3 := by
  have := slot_row h
  rw [Nat.shiftLeft_eq]; omega

theorem symFil_rep {f : FCfg} (hs : f.maxSma ≤ 64 ∧ f.maxSig ≤ 2040) {t : Flt} {a : On} (h : FRep f t a) (d : Tbl)
    {slot : Nat} (hslot : SlotOk f d slot) (emit all : Bool) :
    ∃ t', symFil f t d slot (symMode emit all) = .ok t' ∧ FRep f t' (sym a d slot emit all) := by
  unfold symFil
  obtain ⟨m1, m2⟩ := mode_split emit all
  simp only [Nat.mod_eq_of_lt (slotMod_gt hs hslot)]
  rw [show assertIf f.assertEn (decide (slot ≤ tblSize f d <<< 3)) = .ok () by simp [assertIf, slot_le_row hslot]]
  simp only [Res.bind, m1, shr3, and7]
  cases all with
  | true =>
    rw [if_pos (m2.mpr rfl)]
    obtain ⟨l', g1, g2, g3⟩ := setAllFilters_ok (tbl t d) emit (ft := 0) (size := tblSize f d) (tblSize_le hs d)
      (by rw [tbl_len h]; omega)
    rw [g1]
    refine ⟨_, rfl, ?_⟩
    have hl := g2
    rw [tbl_len h] at hl
    cases d with
    | signal =>
      refine ⟨h.evtLen, h.smaLen, hl, h.grp, h.evt, h.sma, fun s hs => ?_⟩
      have := slot_row (f := f) (d := .signal) hs
      simp only [setTbl, sym, if_true]
      rw [g3, if_pos (by omega)]
    | sma =>
      refine ⟨h.evtLen, hl, h.sigLen, h.grp, h.evt, fun s hs => ?_, h.sig⟩
      have := slot_row (f := f) (d := .sma) hs
      simp only [setTbl, sym, if_true]
      rw [g3, if_pos (by omega)]
  | false =>
    rw [if_neg (fun hc => by simpa using m2.mp hc)]
    obtain ⟨l', g1, g2, g3⟩ := setOneAt_ok (tbl t d) emit (i := slot) (by rw [tbl_len h]; exact slot_row hslot)
    rw [g1]
    refine ⟨_, rfl, ?_⟩
    have hl := g2
    rw [tbl_len h] at hl
    cases d with
    | signal =>
      refine ⟨h.evtLen, h.smaLen, hl, h.grp, h.evt, h.sma, fun s hs => ?_⟩
      simp only [setTbl, sym, Bool.false_eq_true, if_false, upd]
      rw [g3, ← h.sig s hs]; rfl
    | sma =>
      refine ⟨h.evtLen, hl, h.sigLen, h.grp, h.evt, fun s hs => ?_, h.sig⟩
      simp only [setTbl, sym, Bool.false_eq_true, if_false, upd]
      rw [g3, ← h.sma s hs]; rfl

theorem symFilIsOff_rep {f : FCfg} (hs : f.maxSma ≤ 64 ∧ f.maxSig ≤ 2040) {t : Flt} {a : On} (h : FRep f t a) (d : Tbl)
    {slot : Nat} (hslot : SlotOk f d slot) (hlt : slot < 256) : symFilIsOff f t d slot = .ok (bitAt (tbl t d) slot) := by
  unfold symFilIsOff
  simp only [Nat.mod_eq_of_lt (slotMod_gt hs hslot)]
  rw [show assertIf f.assertEn (decide (slot ≤ tblSize f d <<< 3)) = .ok () by simp [assertIf, slot_le_row hslot]]
  simp only [Res.bind]
  rw [isOffFilter_ok _ 0 hlt (by rw [tbl_len h]; have := slot_row hslot; omega)]
  simp

theorem isOff_rep {f : FCfg} {t : Flt} {a : On} (h : FRep f t a) {e : Nat} (he : Used e) :
    isOff t e = .ok (a.grp (e / 32) && a.evt e) := by
  obtain ⟨u1, u2, u3⟩ := used_pos he
  obtain ⟨k1, k2, k3⟩ := gmtbl_ok u1
  unfold isOff
  simp only [getGrp_eq he.1, getEvt_eq, k1, mask_ok _ u1, Res.bind]
  have ht := test_mask t.grp u1
  rw [h.grp _ u1] at ht
  by_cases hg : t.grp &&& (1#8 <<< (e / 32)) ≠ 0#8
  · rw [if_pos hg]
    rw [decide_eq_true hg] at ht
    rw [isOffFilter_ok _ _ (by omega) (by rw [h.evtLen]; omega), h.evt e he, ← ht]
    simp
  · rw [if_neg hg]
    rw [decide_eq_false hg] at ht
    rw [← ht]; simp

theorem aoIsOff_rep {f : FCfg} (hs : f.maxSma ≤ 64 ∧ f.maxSig ≤ 2040) {t : Flt} {a : On} (h : FRep f t a) {p : Nat}
    (hp : SlotOk f .sma p) : aoIsOff f t p = .ok (!f.smaEn || a.sma p) := by
  unfold aoIsOff
  cases f.smaEn with
  | false => rfl
  | true =>
    rw [if_pos rfl, symFilIsOff_rep hs h .sma hp (by have : p < f.maxSma := hp; omega)]
    simp only [tbl, h.sma p hp]
    simp

theorem sigIsOff_rep {f : FCfg} (hs : f.maxSma ≤ 64 ∧ f.maxSig ≤ 2040) {t : Flt} {a : On} (h : FRep f t a) {s : Nat}
    (hp : s = f.compl ∨ SlotOk f .signal s ∧ s < 256) : sigIsOff f t s = .ok (!f.sigEn || (s == f.compl || a.sig s)) := by
  unfold sigIsOff
  cases f.sigEn with
  | false => rfl
  | true =>
    rw [if_pos rfl]
    by_cases hc : s = f.compl
    · rw [if_pos hc]; simp [hc]
    · rw [if_neg hc]
      rcases hp with hp | hp
      · exact absurd hp hc
      · rw [symFilIsOff_rep hs h .signal hp.1 hp.2]
        simp only [tbl, h.sig s hp.1]
        simp [hc]

theorem andThen_ok (x y : Bool) : andThen (.ok x) (.ok y) = .ok (x && y) := by
  cases x <;> simp [andThen, Res.bind]

/-- The condition in front of a record is the specified one. -/
theorem passes_rep {f : FCfg} (hs : f.maxSma ≤ 64 ∧ f.maxSig ≤ 2040) {t : Flt} {a : On} (h : FRep f t a) {k : Kind} {e : Nat}
    (he : Used e) (hk : KindOk f k) : passes f t k e = .ok (emits f a k e) := by
  cases k with
  | full p s =>
    simp only [passes, emits, isOff_rep h he, aoIsOff_rep hs h hk.1, sigIsOff_rep hs h hk.2, andThen_ok]
  | woAo s => simp only [passes, emits, isOff_rep h he, sigIsOff_rep hs h hk, andThen_ok]
  | woSig p => simp only [passes, emits, isOff_rep h he, aoIsOff_rep hs h hk, andThen_ok]
  | woAoSig => simp only [passes, emits, isOff_rep h he]
  | woFil => rfl
  | dft => rfl

/-! ### The whole facility -/

/-- The state represents the abstract one. -/
structure WRep (c : Cfg) (f : FCfg) (w : World) (a : Abs) : Prop where
  stm : Rep c.sz w.tr.stm a.unread
  nseq : w.tr.nseq = a.nseq
  flt : FRep f w.flt a.on

theorem start_rep {c : Cfg} {f : FCfg} (hc : CfgOk c f) (mem : List Byte) (hm : mem.length = c.sz) :
    ∃ w, start c f mem = .ok w ∧ WRep c f w Abs.init := by
  obtain ⟨s, h1, h2⟩ := streamInit_rep hc.sz mem hm
  exact ⟨⟨⟨s, 0#8, 0#8⟩, fltInit f⟩, by simp [start, recInit, h1, Res.map'], ⟨h2, rfl, frep_init f⟩⟩

theorem step_rep {c : Cfg} {f : FCfg} (hc : CfgOk c f) {w : World} {a : Abs} (h : WRep c f w a) (op : Op) (hl : Legal f op) :
    ∃ w' o a', step c f w op = .ok (w', o) ∧ WRep c f w' a' ∧ WStep c f a op o a' := by
  have hs : f.maxSma ≤ 64 ∧ f.maxSig ≤ 2040 := ⟨hc.sma.2, hc.sig.2⟩
  cases op with
  | group emit g ch =>
    obtain ⟨t', h1, h2⟩ := filterGroup_rep h.flt emit hl ch
    exact ⟨{ w with flt := t' }, .unit, { a with on := group a.on emit g ch }, by simp only [step, h1]; rfl, ⟨h.stm, h.nseq, h2⟩, .group a emit g ch⟩
  | event emit e =>
    obtain ⟨t', h1, h2⟩ := filterEvent_rep h.flt emit hl
    exact ⟨{ w with flt := t' }, .unit, { a with on := event a.on emit e }, by simp only [step, h1]; rfl, ⟨h.stm, h.nseq, h2⟩, .event a emit e⟩
  | sym d slot emit all =>
    obtain ⟨t', h1, h2⟩ := symFil_rep hs h.flt d hl emit all
    exact ⟨{ w with flt := t' }, .unit, { a with on := sym a.on d slot emit all }, by simp only [step, h1]; rfl, ⟨h.stm, h.nseq, h2⟩, .sym a d slot emit all⟩
  | trace k eid ts fs =>
    obtain ⟨l1, l2, l3⟩ := hl
    have hp : passes f w.flt k eid.toNat = .ok (emits f a.on k eid.toNat) := by
      rcases l1 with rfl | rfl | l1
      · rfl
      · rfl
      · exact passes_rep hs h.flt l1 l2
    cases he : emits f a.on k eid.toNat with
    | false =>
      refine ⟨w, .unit, _, ?_, ?_, .trace a k eid ts fs⟩
      · simp [step, trace, hp, he, Res.map']
      · rw [if_neg (by simp [he])]; exact h
    | true =>
      rw [he] at hp
      by_cases hk : k = .dft
      · obtain ⟨r', h1, h2, h3⟩ := recordDft_rep hc.sz.2 h.stm eid ts fs l3
        refine ⟨{ w with tr := r' }, .unit, _, ?_, ?_, .trace a k eid ts fs⟩
        · simp only [step, trace, hp, Res.bind, if_pos hk, h1]; rfl
        · rw [if_pos he]
          have hr : recOf k eid ts fs = ⟨true, eid, ts, fs⟩ := by simp [recOf, hk]
          rw [h.nseq] at h2 h3
          exact ⟨by simpa [emit, hr] using h2, by simpa [emit, hr] using h3, h.flt⟩
      · obtain ⟨r', h1, h2, h3⟩ := record_rep hc.sz.2 h.stm eid ts fs l3
        refine ⟨{ w with tr := r' }, .unit, _, ?_, ?_, .trace a k eid ts fs⟩
        · simp [step, trace, hp, hk, h1, Res.map']
        · rw [if_pos he]
          have hr : recOf k eid ts fs = ⟨false, eid, ts, fs⟩ := by simp [recOf, hk]
          rw [h.nseq] at h2 h3
          exact ⟨by simpa [emit, hr] using h2, by simpa [emit, hr] using h3, h.flt⟩
  | get =>
    obtain ⟨s', o, u', h1, h2, h3⟩ := get_rep h.stm
    exact ⟨{ w with tr := { w.tr with stm := s' } }, _, { a with unread := u' }, by simp only [step, h1]; rfl, ⟨h2, h.nseq, h.flt⟩, .get a u' _ h3⟩
  | block n =>
    obtain ⟨s', o, u', h1, h2, h3⟩ := getBlock_rep h.stm n
    exact ⟨{ w with tr := { w.tr with stm := s' } }, _, { a with unread := u' }, by simp only [step, h1]; rfl, ⟨h2, h.nseq, h.flt⟩, .block a u' _ n h3⟩
  | whole d n =>
    obtain ⟨s', m, d', u', h1, h2, h3⟩ := getWholeBlock_rep h.stm d n hl
    exact ⟨{ w with tr := { w.tr with stm := s' } }, _, { a with unread := u' }, by simp only [step, h1]; rfl, ⟨h2, h.nseq, h.flt⟩, .whole a u' _ d n h3⟩

end Verif.Trc
