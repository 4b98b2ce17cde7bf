import Verif.Port.Lemmas
/-
Each port satisfies the conditions.
-/
namespace Verif.Port
open Verif

/-- Depth and mask of a counting port. -/
def CntI (on : Nat) (d m : Nat) (s : Cnt) : Prop := s.nesting = d ∧ s.bp = if d = 0 then m else on

theorem wrap_succ {d : Nat} (h : d < 2 ^ 32 - 1) : (d + 1) % 2 ^ 32 = d + 1 := Nat.mod_eq_of_lt (by omega)
theorem wrap_pred {d : Nat} (h : d < 2 ^ 32 - 1) : (d + 1 + (2 ^ 32 - 1)) % 2 ^ 32 = d := by
  rw [show d + 1 + (2 ^ 32 - 1) = d + 2 ^ 32 by omega, Nat.add_mod_right]; exact Nat.mod_eq_of_lt (by omega)

theorem stm32_good {on : Nat} (hon : on ≠ 0) : Good (stm32 on) false on (2 ^ 32 - 1) (CntI on) Eq where
  refl _ := rfl
  trans _ _ _ h1 h2 := h1.trans h2
  keep _ _ _ _ h1 h2 := h2 ▸ h1
  open_ d m s h h0 := by
    have h2 := h.2
    by_cases hd : d = 0
    · rw [if_pos hd] at h2; exact ⟨hd, h2 ▸ h0⟩
    · rw [if_neg hd] at h2; exact absurd (h2 ▸ h0) hon
  on_ d m s h := by have := h.2; rw [if_neg (by omega)] at this; exact this
  enter d m s hi hd h0 h1 h2 h3 _ hh := by
    have hop : (stm32 on).mask s = 0 → CntI on 0 0 s := by
      intro h
      have h2 := hi.2
      by_cases hd : d = 0
      · subst hd; rw [if_pos rfl] at h2; exact ⟨hi.1, by rw [if_pos rfl]; exact h⟩
      · rw [if_neg hd] at h2; exact absurd (h2 ▸ h) hon
    obtain ⟨_, lg1, rfl, e2, e3⟩ := stepI_handler (p := stm32 on) (fun _ => rfl) hop (fun s hs => hh s hs h0 (by simp))
      (stm32 on).e0 { a := 0, b := 0 } [] (by simp)
    obtain ⟨_, lg2, rfl, f2, f3⟩ := stepI_handler (p := stm32 on) (fun _ => rfl) hop (fun s hs => hh s hs h1 (by simp))
      (stm32 on).e1 { a := s.bp, b := 0 } lg1 e2
    have hm : ∀ n, (stm32 on).mask { bp := on, nesting := n } ≠ 0 := fun n => hon
    refine ⟨{ bp := on, nesting := d + 1 }, { a := s.bp, b := s.nesting }, lg2, ?_, ⟨rfl, by simp⟩, f2, ?_⟩
    · refine chain4 (e3 s { a := s.bp, b := 0 } rfl) (f3 { s with bp := on } { a := s.bp, b := 0 } rfl)
        (stepI_quiet (hm _) (l2 := { a := s.bp, b := s.nesting }) rfl) (stepI_quiet (hm _) ?_)
      simp [stm32, hi.1, wrap_succ hd]
    · rintro s4 rfl g0 g1 g2 g3 hg lg0 hlg0
      have y0 : stepI (stm32 on) g0 (stm32 on).x0 ({ bp := on, nesting := d + 1 }, { a := s.bp, b := s.nesting }, lg0) =
          .ok ({ bp := on, nesting := d + 1 }, { a := s.bp, b := d + 1 }, lg0) := stepI_quiet (hm _) rfl
      have y1 : stepI (stm32 on) g1 (stm32 on).x1 ({ bp := on, nesting := d + 1 }, { a := s.bp, b := d + 1 }, lg0) =
          .ok ({ bp := on, nesting := d }, { a := s.bp, b := d + 1 }, lg0) :=
        stepI_quiet (hm _) (by simp [stm32, wrap_pred hd])
      have y2 : stepI (stm32 on) g2 (stm32 on).x2 ({ bp := on, nesting := d }, { a := s.bp, b := d + 1 }, lg0) =
          .ok (s, { a := s.bp, b := d + 1 }, lg0) := by
        refine stepI_quiet (hm _) ?_
        have h2 := hi.2
        by_cases h0 : d = 0
        · subst h0
          rw [show s = { bp := s.bp, nesting := 0 } by rw [← hi.1]]; rfl
        · rw [if_neg h0] at h2
          rw [show s = { bp := on, nesting := d } by rw [← hi.1, ← h2]]
          simp [stm32, h0]
      obtain ⟨_, lg6, rfl, r2, r3⟩ := stepI_handler (p := stm32 on) (fun _ => rfl) hop (fun s hs => hg s hs g3 (by simp))
          (stm32 on).x3 { a := s.bp, b := d + 1 } lg0 hlg0
      exact ⟨s, { a := s.bp, b := d + 1 }, lg6, chain4 y0 y1 y2 (r3 _ _ rfl), rfl, r2⟩

theorem armCnt_good {on : Nat} (hon : on ≠ 0) :
    Good (armCnt on) false on (2 ^ 32 - 1) (fun d m s => m = 0 ∧ CntI on d m s) Eq where
  refl _ := rfl
  trans _ _ _ h1 h2 := h1.trans h2
  keep _ _ _ _ h1 h2 := h2 ▸ h1
  open_ d m s h h0 := by
    have h2 := h.2.2
    by_cases hd : d = 0
    · exact ⟨hd, h.1⟩
    · rw [if_neg hd] at h2; exact absurd (h2 ▸ h0) hon
  on_ d m s h := by have := h.2.2; rw [if_neg (by omega)] at this; exact this
  enter d m s hi hd h0 h1 h2 h3 _ hh := by
    obtain ⟨rfl, hi⟩ := hi
    have hop : (armCnt on).mask s = 0 → 0 = 0 ∧ CntI on 0 0 s := by
      intro h
      have h2 := hi.2
      by_cases hd : d = 0
      · subst hd; rw [if_pos rfl] at h2; exact ⟨rfl, hi.1, by rw [if_pos rfl]; exact h⟩
      · rw [if_neg hd] at h2; exact absurd (h2 ▸ h) hon
    obtain ⟨_, lg1, rfl, e2, e3⟩ := stepI_handler (p := armCnt on) (I := fun d m s => m = 0 ∧ CntI on d m s)
      (fun _ => rfl) hop (fun s hs => hh s hs h0 (by simp)) (armCnt on).e0 { a := 0, b := 0 } [] (by simp)
    have hm : ∀ n, (armCnt on).mask { bp := on, nesting := n } ≠ 0 := fun n => hon
    refine ⟨{ bp := on, nesting := d + 1 }, { a := s.nesting, b := 0 }, lg1, ?_, ⟨rfl, rfl, by simp⟩, e2, ?_⟩
    · refine chain4 (e3 { s with bp := on } { a := 0, b := 0 } rfl)
        (stepI_quiet (hm _) (l2 := { a := s.nesting, b := 0 }) rfl)
        (stepI_quiet (hm _) (s2 := { bp := on, nesting := d + 1 }) (l2 := { a := s.nesting, b := 0 }) ?_)
        (stepI_quiet (hm _) rfl)
      simp [armCnt, hi.1, wrap_succ hd]
    · rintro s4 rfl g0 g1 g2 g3 hg lg0 hlg0
      have y0 : stepI (armCnt on) g0 (armCnt on).x0 ({ bp := on, nesting := d + 1 }, { a := s.nesting, b := 0 }, lg0) =
          .ok ({ bp := on, nesting := d + 1 }, { a := d + 1, b := 0 }, lg0) := stepI_quiet (hm _) rfl
      have y1 : stepI (armCnt on) g1 (armCnt on).x1 ({ bp := on, nesting := d + 1 }, { a := d + 1, b := 0 }, lg0) =
          .ok ({ bp := on, nesting := d }, { a := d + 1, b := 0 }, lg0) :=
        stepI_quiet (hm _) (by simp [armCnt, wrap_pred hd])
      have y2 : stepI (armCnt on) g2 (armCnt on).x2 ({ bp := on, nesting := d }, { a := d + 1, b := 0 }, lg0) =
          .ok (s, { a := d + 1, b := 0 }, lg0) := by
        refine stepI_quiet (hm _) ?_
        have h2 := hi.2
        by_cases h0 : d = 0
        · subst h0
          rw [if_pos rfl] at h2
          have hs : s = { bp := 0, nesting := 0 } := by
            obtain ⟨bp, n⟩ := s
            have h1 := hi.1
            simp only at h1 h2
            rw [h1, h2]
          rw [hs]; rfl
        · rw [if_neg h0] at h2
          rw [show s = { bp := on, nesting := d } by rw [← hi.1, ← h2]]
          simp [armCnt, h0]
      obtain ⟨_, lg6, rfl, r2, r3⟩ := stepI_handler (p := armCnt on) (I := fun d m s => m = 0 ∧ CntI on d m s)
        (fun _ => rfl) hop (fun s hs => hg s hs g3 (by simp)) (armCnt on).x3 { a := d + 1, b := 0 } lg0 hlg0
      exact ⟨s, { a := d + 1, b := 0 }, lg6, chain4 y0 y1 y2 (r3 _ _ rfl), rfl, r2⟩

theorem ucos_good {on : Nat} (hon : on ≠ 0) (lim : Nat) :
    Good (ucos on) false on lim (fun d m s => s = if d = 0 then m else on) Eq where
  refl _ := rfl
  trans _ _ _ h1 h2 := h1.trans h2
  keep _ _ _ _ h1 h2 := h2 ▸ h1
  open_ d m s h h0 := by
    have h0 : s = 0 := h0
    by_cases hd : d = 0
    · rw [if_pos hd] at h; exact ⟨hd, h ▸ h0⟩
    · rw [if_neg hd] at h; exact absurd (h ▸ h0) hon
  on_ d m s h := by rw [if_neg (by omega)] at h; exact h
  enter d m s hi hd h0 h1 h2 h3 _ hh := by
    have hop : (ucos on).mask s = 0 → s = if 0 = 0 then 0 else on := fun h => by rw [if_pos rfl]; exact h
    obtain ⟨_, lg1, rfl, e2, e3⟩ := stepI_handler (p := ucos on) (I := fun d m s => s = if d = 0 then m else on)
      (fun _ => rfl) hop (fun s hs => hh s hs h0 (by simp)) (ucos on).e0 { a := 0, b := 0 } [] (by simp)
    obtain ⟨_, lg2, rfl, f2, f3⟩ := stepI_handler (p := ucos on) (I := fun d m s => s = if d = 0 then m else on)
      (fun _ => rfl) hop (fun s hs => hh s hs h1 (by simp)) (ucos on).e1 { a := s, b := 0 } lg1 e2
    have hm : (ucos on).mask on ≠ 0 := hon
    refine ⟨on, { a := s, b := 0 }, lg2, ?_, by simp, f2, ?_⟩
    · exact chain4 (e3 s { a := s, b := 0 } rfl) (f3 on { a := s, b := 0 } rfl)
        (stepI_quiet hm (l2 := { a := s, b := 0 }) rfl) (stepI_quiet hm rfl)
    · rintro s4 rfl g0 g1 g2 g3 hg lg0 hlg0
      have y0 : stepI (ucos on) g0 (ucos on).x0 (on, { a := s, b := 0 }, lg0) = .ok (s, { a := s, b := 0 }, lg0) :=
        stepI_quiet hm rfl
      obtain ⟨_, lg1, rfl, r2, r3⟩ := stepI_handler (p := ucos on) (I := fun d m s => s = if d = 0 then m else on)
        (fun _ => rfl) hop (fun s hs => hg s hs g1 (by simp)) (ucos on).x1 { a := s, b := 0 } lg0 hlg0
      obtain ⟨_, lg2, rfl, t2, t3⟩ := stepI_handler (p := ucos on) (I := fun d m s => s = if d = 0 then m else on)
        (fun _ => rfl) hop (fun s hs => hg s hs g2 (by simp)) (ucos on).x2 { a := s, b := 0 } lg1 r2
      obtain ⟨_, lg3, rfl, u2, u3⟩ := stepI_handler (p := ucos on) (I := fun d m s => s = if d = 0 then m else on)
        (fun _ => rfl) hop (fun s hs => hg s hs g3 (by simp)) (ucos on).x3 { a := s, b := 0 } lg2 t2
      exact ⟨s, { a := s, b := 0 }, lg3, chain4 y0 (r3 _ _ rfl) (t3 _ _ rfl) (u3 _ _ rfl), rfl, u2⟩

/-- Depth, mask and size of the array on the S08. -/
def S08I (on n : Nat) (d m : Nat) (s : S08) : Prop :=
  s.sp = d ∧ s.mem.length = n ∧ s.ccr = if d = 0 then m else on

/-- Equal up to the unused part of the array. -/
def S08E (a b : S08) : Prop :=
  a.ccr = b.ccr ∧ a.sp = b.sp ∧ a.mem.length = b.mem.length ∧ ∀ i, i < a.sp → a.mem[i]? = b.mem[i]?

theorem S08E_refl (a : S08) : S08E a a := ⟨rfl, rfl, rfl, fun _ _ => rfl⟩

theorem S08E_trans {a b c : S08} (h1 : S08E a b) (h2 : S08E b c) : S08E a c :=
  ⟨h1.1.trans h2.1, h1.2.1.trans h2.2.1, h1.2.2.1.trans h2.2.2.1,
    fun i hi => (h1.2.2.2 i hi).trans (h2.2.2.2 i (h1.2.1 ▸ hi))⟩

theorem s08_good {on : Nat} (hon : on ≠ 0) (n : Nat) : Good (s08 on) false on n (S08I on n) S08E where
  refl := S08E_refl
  trans _ _ _ h1 h2 := S08E_trans h1 h2
  keep _ _ _ _ h1 h2 := ⟨h2.2.1 ▸ h1.1, h2.2.2.1 ▸ h1.2.1, h2.1 ▸ h1.2.2⟩
  open_ d m s h h0 := by
    have h2 := h.2.2
    have h0 : s.ccr = 0 := h0
    by_cases hd : d = 0
    · rw [if_pos hd] at h2; exact ⟨hd, h2 ▸ h0⟩
    · rw [if_neg hd] at h2; exact absurd (h2 ▸ h0) hon
  on_ d m s h := by have := h.2.2; rw [if_neg (by omega)] at this; exact this
  enter d m s hi hd h0 h1 h2 h3 _ hh := by
    have hop : ∀ t, S08E s t → (s08 on).mask t = 0 → S08I on n 0 0 t := by
      intro t ht h
      have h : t.ccr = 0 := h
      have h2 := hi.2.2
      by_cases hd : d = 0
      · subst hd; exact ⟨ht.2.1 ▸ hi.1, ht.2.2.1 ▸ hi.2.1, by rw [if_pos rfl]; exact h⟩
      · rw [if_neg hd, ht.1] at h2; exact absurd (h2 ▸ h) hon
    obtain ⟨s1, lg1, e1, e2, e3⟩ := stepI_handler (p := s08 on) S08E_refl (hop s (S08E_refl s))
      (fun s hs => hh s hs h0 (by simp)) (s08 on).e0 { a := 0, b := 0 } [] (by simp)
    obtain ⟨s2, lg2, f1, f2, f3⟩ := stepI_handler (p := s08 on) S08E_refl (hop s1 e1)
      (fun s hs => hh s hs h1 (by simp)) (s08 on).e1 { a := s1.ccr, b := 0 } lg1 e2
    have hE : S08E s s2 := S08E_trans e1 f1
    have hsp : s2.sp = d := hE.2.1 ▸ hi.1
    have hlen : s2.mem.length = n := hE.2.2.1 ▸ hi.2.1
    have hm : ∀ a b, (s08 on).mask { ccr := on, mem := a, sp := b } ≠ 0 := fun _ _ => hon
    refine ⟨{ ccr := on, mem := s2.mem.set d s1.ccr, sp := d + 1 }, { a := s1.ccr, b := 0 }, lg2, ?_,
      ⟨rfl, by simp [hlen], by simp⟩, f2, ?_⟩
    · refine chain4 (e3 s1 { a := s1.ccr, b := 0 } rfl) (f3 { s2 with ccr := on } { a := s1.ccr, b := 0 } rfl)
        (stepI_quiet (hm _ _) (s2 := { ccr := on, mem := s2.mem.set d s1.ccr, sp := d }) (l2 := { a := s1.ccr, b := 0 }) ?_)
        (stepI_quiet (hm _ _) rfl)
      simp [s08, hsp, hlen, hd]
    · intro s4 h4 g0 g1 g2 g3 hg lg0 hlg0
      obtain ⟨c4, m4, p4⟩ := s4
      obtain ⟨q1, q2, q3, q4⟩ := h4
      simp only at q1 q2 q3 q4
      subst q1 q2
      have hget : m4[d]? = some s1.ccr := by
        rw [← q4 d (by omega), List.getElem?_set]
        simp [hlen, hd]
      have y0 : stepI (s08 on) g0 (s08 on).x0 ({ ccr := on, mem := m4, sp := d + 1 }, { a := s1.ccr, b := 0 }, lg0) =
          .ok ({ ccr := on, mem := m4, sp := d }, { a := s1.ccr, b := 0 }, lg0) := stepI_quiet (hm _ _) (by simp [s08])
      have y1 : stepI (s08 on) g1 (s08 on).x1 ({ ccr := on, mem := m4, sp := d }, { a := s1.ccr, b := 0 }, lg0) =
          .ok ({ ccr := on, mem := m4, sp := d }, { a := s1.ccr, b := 0 }, lg0) :=
        stepI_quiet (hm _ _) (by simp [s08, hget])
      have y2 : stepI (s08 on) g2 (s08 on).x2 ({ ccr := on, mem := m4, sp := d }, { a := s1.ccr, b := 0 }, lg0) =
          .ok ({ ccr := s1.ccr, mem := m4, sp := d }, { a := s1.ccr, b := 0 }, lg0) := stepI_quiet (hm _ _) rfl
      have hE5 : S08E s { ccr := s1.ccr, mem := m4, sp := d } := by
        refine ⟨e1.1, hi.1, ?_, ?_⟩
        · rw [← q3, List.length_set, hlen, hi.2.1]
        · intro i hi'
          have hid : i < d := hi.1 ▸ hi'
          show s.mem[i]? = m4[i]?
          rw [← q4 i (by omega), List.getElem?_set, if_neg (by omega)]
          exact hE.2.2.2 i hi'
      obtain ⟨s6, lg6, r1, r2, r3⟩ := stepI_handler (p := s08 on) S08E_refl (hop _ hE5)
        (fun s hs => hg s hs g3 (by simp)) (s08 on).x3 { a := s1.ccr, b := 0 } lg0 hlg0
      exact ⟨s6, { a := s1.ccr, b := 0 }, lg6, chain4 y0 y1 y2 (r3 _ _ rfl), S08E_trans hE5 r1, r2⟩

/-- Depth and mask on the ColdFire. -/
def CfI (on : Nat) (d m : Nat) (s : Cf) : Prop := s.cnt = d ∧ s.sr = if d = 0 then m else on

/-- Equal up to the saved register outside of sections. -/
def CfE (a b : Cf) : Prop := a.sr = b.sr ∧ a.cnt = b.cnt ∧ (0 < a.cnt → a.mem = b.mem)

theorem CfE_refl (a : Cf) : CfE a a := ⟨rfl, rfl, fun _ => rfl⟩

theorem CfE_trans {a b c : Cf} (h1 : CfE a b) (h2 : CfE b c) : CfE a c :=
  ⟨h1.1.trans h2.1, h1.2.1.trans h2.2.1, fun h => (h1.2.2 h).trans (h2.2.2 (h1.2.1 ▸ h))⟩

theorem wrap16 {d : Nat} (h : d < 2 ^ 16 - 1) : (d + 1) % 2 ^ 16 = d + 1 := Nat.mod_eq_of_lt (by omega)

theorem cfv1_good {on : Nat} (hon : on ≠ 0) : Good (cfv1 on) true on (2 ^ 16 - 1) (CfI on) CfE where
  refl := CfE_refl
  trans _ _ _ h1 h2 := CfE_trans h1 h2
  keep _ _ _ _ h1 h2 := ⟨h2.2.1 ▸ h1.1, h2.1 ▸ h1.2⟩
  open_ d m s h h0 := by
    have h2 := h.2
    have h0 : s.sr = 0 := h0
    by_cases hd : d = 0
    · rw [if_pos hd] at h2; exact ⟨hd, h2 ▸ h0⟩
    · rw [if_neg hd] at h2; exact absurd (h2 ▸ h0) hon
  on_ d m s h := by have := h.2; rw [if_neg (by omega)] at this; exact this
  enter d m s hi hd h0 h1 h2 h3 hw hh := by
    obtain ⟨rfl, rfl⟩ := hw rfl
    have hop : ∀ t, CfE s t → (cfv1 on).mask t = 0 → CfI on 0 0 t := by
      intro t ht h
      have h : t.sr = 0 := h
      have h2 := hi.2
      by_cases hd : d = 0
      · subst hd; exact ⟨ht.2.1 ▸ hi.1, by rw [if_pos rfl]; exact h⟩
      · rw [if_neg hd, ht.1] at h2; exact absurd (h2 ▸ h) hon
    obtain ⟨s1, lg1, e1, e2, e3⟩ := stepI_handler (p := cfv1 on) CfE_refl (hop s (CfE_refl s))
      (fun s hs => hh s hs h0 (by simp)) (cfv1 on).e0 { a := 0, b := 0 } [] (by simp)
    obtain ⟨s2, lg2, f1, f2, f3⟩ := stepI_handler (p := cfv1 on) CfE_refl (hop s1 e1)
      (fun s hs => hh s hs h1 (by simp)) (cfv1 on).e1 { a := s1.cnt, b := 0 } lg1 e2
    have hE : CfE s s2 := CfE_trans e1 f1
    have hc1 : s1.cnt = d := e1.2.1 ▸ hi.1
    have hsr : s2.sr = s.sr := hE.1.symm
    have hdone : ∀ (f : Cf → Loc → Res (Cf × Loc)) t l lg t2 l2, f t l = .ok (t2, l2) →
        stepI (cfv1 on) (run (cfv1 on) .done) f (t, l, lg) = .ok (t2, l2, lg) := by
      intro f t l lg t2 l2 h
      unfold stepI served run
      by_cases h0 : (cfv1 on).mask t = 0 <;> simp [h0, h]
    have z1 := f3 { s2 with cnt := d + 1 } { a := d + 1, b := 0 } (by simp [cfv1, hc1, wrap16 hd])
    have hmem : 0 < d → s2.mem = s.mem := fun h => (hE.2.2 (hi.1 ▸ h)).symm
    refine ⟨{ sr := on, cnt := d + 1, mem := if d = 0 then s.sr else s.mem }, { a := d + 1, b := 0 }, lg2, ?_,
      ⟨rfl, by simp⟩, f2, ?_⟩
    · by_cases h0 : d = 0
      · subst h0
        refine chain4 (e3 s1 { a := s1.cnt, b := 0 } rfl) z1
          (hdone (cfv1 on).e2 _ _ _ { sr := s2.sr, cnt := 1, mem := s2.sr } { a := 1, b := 0 } rfl) (hdone (cfv1 on).e3 _ _ _ _ _ ?_)
        simp [cfv1, hsr]
      · have h2 := hi.2
        rw [if_neg h0] at h2
        have hgt : d + 1 > 1 := by omega
        refine chain4 (e3 s1 { a := s1.cnt, b := 0 } rfl) z1
          (hdone (cfv1 on).e2 _ _ _ { sr := s2.sr, cnt := d + 1, mem := s2.mem } { a := d + 1, b := 0 } ?_) (hdone (cfv1 on).e3 _ _ _ _ _ ?_)
        · simp [cfv1, h0, Nat.pos_of_ne_zero h0]
        · simp [cfv1, h0, Nat.pos_of_ne_zero h0, hsr, h2, hmem (Nat.pos_of_ne_zero h0)]
    · intro s4 h4 g0 g1 g2 g3 hg lg0 hlg0
      obtain ⟨r4, c4, m4⟩ := s4
      obtain ⟨q1, q2, q3⟩ := h4
      simp only at q1 q2 q3
      subst q1 q2
      have q3 := q3 (by omega)
      subst q3
      have hm : ∀ a b, (cfv1 on).mask { sr := on, cnt := a, mem := b } ≠ 0 := fun _ _ => hon
      have y0 : stepI (cfv1 on) g0 (cfv1 on).x0 ({ sr := on, cnt := d + 1, mem := if d = 0 then s.sr else s.mem },
          { a := d + 1, b := 0 }, lg0) = .ok ({ sr := on, cnt := d + 1, mem := if d = 0 then s.sr else s.mem },
          { a := d, b := 0 }, lg0) := stepI_quiet (hm _ _) rfl
      have y1 : stepI (cfv1 on) g1 (cfv1 on).x1 ({ sr := on, cnt := d + 1, mem := if d = 0 then s.sr else s.mem },
          { a := d, b := 0 }, lg0) = .ok ({ sr := on, cnt := d, mem := if d = 0 then s.sr else s.mem },
          { a := d, b := 0 }, lg0) := stepI_quiet (hm _ _) rfl
      have y2 : stepI (cfv1 on) g2 (cfv1 on).x2 ({ sr := on, cnt := d, mem := if d = 0 then s.sr else s.mem },
          { a := d, b := 0 }, lg0) = .ok ({ sr := s.sr, cnt := d, mem := if d = 0 then s.sr else s.mem },
          { a := d, b := 0 }, lg0) := by
        refine stepI_quiet (hm _ _) ?_
        have h2 := hi.2
        by_cases h0 : d = 0
        · simp [cfv1, h0]
        · rw [if_neg h0] at h2
          simp [cfv1, h0, h2]
      have hE5 : CfE s { sr := s.sr, cnt := d, mem := if d = 0 then s.sr else s.mem } := by
        refine ⟨rfl, hi.1, fun h => ?_⟩
        rw [hi.1] at h
        exact (if_neg (by omega)).symm
      obtain ⟨s6, lg6, r1, r2, r3⟩ := stepI_handler (p := cfv1 on) CfE_refl (hop _ hE5)
        (fun s hs => hg s hs g3 (by simp)) (cfv1 on).x3 { a := d, b := 0 } lg0 hlg0
      exact ⟨s6, { a := d, b := 0 }, lg6, chain4 y0 y1 y2 (r3 _ _ rfl), CfE_trans hE5 r1, r2⟩

end Verif.Port
