import Verif.Port.Spec
/-
One induction for all ports: conditions on the eight steps from which protection and preservation follow.
-/
namespace Verif.Port
open Verif

/-- What a port must satisfy. `I d m s`: at depth `d`, outside of sections the mask is `m`. `E`: states that agree in what has to
survive a nested call. `w`: handlers requested between the second and the
fourth entry step are excluded. -/
structure Good {σ : Type} (p : Port σ) (w : Bool) (on lim : Nat) (I : Nat → Nat → σ → Prop) (E : σ → σ → Prop) : Prop where
  refl : ∀ s, E s s
  trans : ∀ a b c, E a b → E b c → E a c
  keep : ∀ d m s s', I d m s → E s s' → I d m s'
  open_ : ∀ d m s, I d m s → p.mask s = 0 → d = 0 ∧ m = 0
  on_ : ∀ d m s, I (d + 1) m s → p.mask s = on
  /-- Entering, whatever handlers do in between. -/
  enter : ∀ d m s, I d m s → d < lim → ∀ h0 h1 h2 h3 : σ → Res (σ × List Nat),
    (w = true → h2 = run p .done ∧ h3 = run p .done) →
    (∀ s, I 0 0 s → ∀ h ∈ [h0, h1, h2, h3], ∃ s' lg, h s = .ok (s', lg) ∧ E s s' ∧ ∀ v ∈ lg, v = on) →
    ∃ s3 l lg, (stepI p h0 p.e0 (s, { a := 0, b := 0 }, [])).bind (fun x => (stepI p h1 p.e1 x).bind fun x =>
        (stepI p h2 p.e2 x).bind fun x => stepI p h3 p.e3 x) = .ok (s3, l, lg) ∧ I (d + 1) m s3 ∧ (∀ v ∈ lg, v = on) ∧
      ∀ s4, E s3 s4 → ∀ g0 g1 g2 g3 : σ → Res (σ × List Nat),
        (∀ s, I 0 0 s → ∀ h ∈ [g0, g1, g2, g3], ∃ s' lg, h s = .ok (s', lg) ∧ E s s' ∧ ∀ v ∈ lg, v = on) →
        ∀ lg0 : List Nat, (∀ v ∈ lg0, v = on) →
        ∃ s5 l5 lg5, (stepI p g0 p.x0 (s4, l, lg0)).bind (fun x => (stepI p g1 p.x1 x).bind fun x =>
          (stepI p g2 p.x2 x).bind fun x => stepI p g3 p.x3 x) = .ok (s5, l5, lg5) ∧ E s s5 ∧ ∀ v ∈ lg5, v = on

theorem bind_assoc' {α β γ : Type} (r : Res α) (f : α → Res β) (g : β → Res γ) :
    (r.bind f).bind g = r.bind fun x => (f x).bind g := by
  cases r <;> rfl

theorem good_run {σ : Type} {p : Port σ} {w : Bool} {on lim : Nat} {I : Nat → Nat → σ → Prop} {E : σ → σ → Prop}
    (g : Good p w on lim I E) (c : Code) : (w = true → NoWindow c) → ∀ d m s, Fits lim d c → I d m s →
      ∃ s' lg, run p c s = .ok (s', lg) ∧ E s s' ∧ ∀ v ∈ lg, v = on := by
  induction c with
  | done => intro _ d m s _ _; exact ⟨s, [], rfl, g.refl s, by simp⟩
  | work k ih =>
    intro hw d m s hf hi
    obtain ⟨s', lg, h1, h2, h3⟩ := ih hw d m s hf.2 hi
    refine ⟨s', p.mask s :: lg, by simp [run, h1], h2, ?_⟩
    intro v hv
    rcases List.mem_cons.1 hv with rfl | hv
    · match d, hf.1, hi with
      | d + 1, _, hi => exact g.on_ d m s hi
    · exact h3 v hv
  | irq h k ihh ihk =>
    intro hw d m s hf hi
    have : ∃ s1 lg1, served p (run p h) s = .ok (s1, lg1) ∧ E s s1 ∧ ∀ v ∈ lg1, v = on := by
      unfold served
      by_cases h0 : p.mask s = 0
      · obtain ⟨rfl, rfl⟩ := g.open_ _ _ _ hi h0
        rw [if_pos h0]
        exact ihh (fun w => (hw w).1) 0 0 s hf.1 hi
      · rw [if_neg h0]; exact ⟨s, [], rfl, g.refl s, by simp⟩
    obtain ⟨s1, lg1, h1, h2, h3⟩ := this
    obtain ⟨s2, lg2, h4, h5, h6⟩ := ihk (fun w => (hw w).2) d m s1 hf.2 (g.keep _ _ _ _ hi h2)
    refine ⟨s2, lg1 ++ lg2, by simp [run, h1, h4], g.trans _ _ _ h2 h5, ?_⟩
    intro v hv
    rcases List.mem_append.1 hv with hv | hv
    · exact h3 v hv
    · exact h6 v hv
  | sec i0 i1 i2 i3 body j0 j1 j2 j3 k a0 a1 a2 a3 ab b0 b1 b2 b3 ak =>
    intro hw d m s hf hi
    obtain ⟨hd, ⟨f0, f1, f2, f3⟩, fb, ⟨q0, q1, q2, q3⟩, fk⟩ := hf
    obtain ⟨s3, l, lg, e1, e2, e3, e4⟩ := g.enter d m s hi hd (run p i0) (run p i1) (run p i2) (run p i3) (fun w => by
        rw [(hw w).1.2.2.1, (hw w).1.2.2.2]; exact ⟨rfl, rfl⟩) (by
      intro s hs h hh
      simp only [List.mem_cons, List.not_mem_nil, or_false] at hh
      rcases hh with rfl | rfl | rfl | rfl
      · exact a0 (fun w => (hw w).1.1) 0 0 s f0 hs
      · exact a1 (fun w => (hw w).1.2.1) 0 0 s f1 hs
      · exact a2 (fun w => by rw [(hw w).1.2.2.1]; trivial) 0 0 s f2 hs
      · exact a3 (fun w => by rw [(hw w).1.2.2.2]; trivial) 0 0 s f3 hs)
    obtain ⟨s4, lgb, h1, h2, h3⟩ := ab (fun w => (hw w).2.1) (d + 1) m s3 fb e2
    obtain ⟨s5, l5, lg5, x1, x2, x3⟩ := e4 s4 h2 (run p j0) (run p j1) (run p j2) (run p j3) (by
      intro s hs h hh
      simp only [List.mem_cons, List.not_mem_nil, or_false] at hh
      rcases hh with rfl | rfl | rfl | rfl
      · exact b0 (fun w => (hw w).2.2.1.1) 0 0 s q0 hs
      · exact b1 (fun w => (hw w).2.2.1.2.1) 0 0 s q1 hs
      · exact b2 (fun w => (hw w).2.2.1.2.2.1) 0 0 s q2 hs
      · exact b3 (fun w => (hw w).2.2.1.2.2.2) 0 0 s q3 hs) (lg ++ lgb) (by
        intro v hv
        rcases List.mem_append.1 hv with hv | hv
        · exact e3 v hv
        · exact h3 v hv)
    obtain ⟨s6, lg6, k1, k2, k3⟩ := ak (fun w => (hw w).2.2.2) d m s5 fk (g.keep _ _ _ _ hi x2)
    refine ⟨s6, lg5 ++ lg6, ?_, g.trans _ _ _ x2 k2, ?_⟩
    · simp only [run]
      simp only [← bind_assoc'] at e1 x1 ⊢
      rw [e1]
      simp only [Res.bind'_ok, h1]
      rw [x1]
      simp [k1]
    · intro v hv
      rcases List.mem_append.1 hv with hv | hv
      · exact x3 v hv
      · exact k3 v hv

/-- A requested handler that may only change what need not survive. -/
theorem stepI_ok {σ : Type} {p : Port σ} {on : Nat} {I : Nat → Nat → σ → Prop} {E : σ → σ → Prop} (hrefl : ∀ s, E s s)
    {h : σ → Res (σ × List Nat)} {s : σ} (hs : p.mask s = 0 → I 0 0 s)
    (hh : ∀ s, I 0 0 s → ∃ s' lg, h s = .ok (s', lg) ∧ E s s' ∧ ∀ v ∈ lg, v = on)
    (f : σ → Loc → Res (σ × Loc)) (l : Loc) (lg : List Nat) (hlg : ∀ v ∈ lg, v = on) :
    ∃ s1 lg1, E s s1 ∧ (∀ v ∈ lg1, v = on) ∧
      stepI p h f (s, l, lg) = (f s1 l).bind fun r => .ok (r.1, r.2, lg1) := by
  unfold stepI served
  by_cases h0 : p.mask s = 0
  · obtain ⟨s', lg', h1, h2, h3⟩ := hh s (hs h0)
    refine ⟨s', lg ++ lg', h2, ?_, by simp [h0, h1]⟩
    intro v hv
    rcases List.mem_append.1 hv with hv | hv
    · exact hlg v hv
    · exact h3 v hv
  · exact ⟨s, lg, hrefl s, hlg, by simp [h0]⟩

/-- The four steps in a row. -/
theorem chain4 {α : Type} {f0 f1 f2 f3 : α → Res α} {a b c d e : α} (h0 : f0 a = .ok b) (h1 : f1 b = .ok c)
    (h2 : f2 c = .ok d) (h3 : f3 d = .ok e) :
    (f0 a).bind (fun x => (f1 x).bind fun x => (f2 x).bind fun x => f3 x) = .ok e := by
  simp [h0, h1, h2, h3]

/-- A step that succeeds, after the requested handler. -/
theorem stepI_handler {σ : Type} {p : Port σ} {on : Nat} {I : Nat → Nat → σ → Prop} {E : σ → σ → Prop} (hrefl : ∀ s, E s s)
    {h : σ → Res (σ × List Nat)} {s : σ} (hs : p.mask s = 0 → I 0 0 s)
    (hh : ∀ s, I 0 0 s → ∃ s' lg, h s = .ok (s', lg) ∧ E s s' ∧ ∀ v ∈ lg, v = on)
    (f : σ → Loc → Res (σ × Loc)) (l : Loc) (lg : List Nat) (hlg : ∀ v ∈ lg, v = on) :
    ∃ s1 lg1, E s s1 ∧ (∀ v ∈ lg1, v = on) ∧
      ∀ s2 l2, f s1 l = .ok (s2, l2) → stepI p h f (s, l, lg) = .ok (s2, l2, lg1) := by
  obtain ⟨s1, lg1, h1, h2, h3⟩ := stepI_ok hrefl hs hh f l lg hlg
  exact ⟨s1, lg1, h1, h2, fun s2 l2 hf => by rw [h3, hf]; rfl⟩

/-- A step with interrupts masked. -/
theorem stepI_quiet {σ : Type} {p : Port σ} {h : σ → Res (σ × List Nat)} {s : σ} (hs : p.mask s ≠ 0)
    {f : σ → Loc → Res (σ × Loc)} {l : Loc} {lg : List Nat} {s2 : σ} {l2 : Loc} (hf : f s l = .ok (s2, l2)) :
    stepI p h f (s, l, lg) = .ok (s2, l2, lg) := by
  unfold stepI served; simp [hs, hf]

/-- With interrupts masked nothing is served. -/
theorem stepI_masked {σ : Type} {p : Port σ} {h : σ → Res (σ × List Nat)} {s : σ} (hs : p.mask s ≠ 0)
    (f : σ → Loc → Res (σ × Loc)) (l : Loc) (lg : List Nat) :
    stepI p h f (s, l, lg) = (f s l).bind fun r => .ok (r.1, r.2, lg) := by
  unfold stepI served; simp [hs]

end Verif.Port
