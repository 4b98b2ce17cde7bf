import Verif.SM.Props
/-
Properties of the state machine engine, continued: histories, branches, completion events, creation, limits.
-/
namespace Verif.SM
open Eng Spec

/-! ### Helpers -/

theorem guardsFalse_guards {env : Env} {e : Sig} {g : List (Option Guard)} {a b : List Obs} (h : GuardsFalse env e g a b) :
    ∃ q, b = a ++ q ∧ ∀ o ∈ q, ∃ g b, o = Obs.guard g e b := by
  induction h with
  | nil => exact ⟨[], by simp, by simp⟩
  | @cons g gs l l' _ _ ih =>
    obtain ⟨q, rfl, hq⟩ := ih
    refine ⟨.guard g e false :: q, by simp, fun o ho => ?_⟩
    rcases List.mem_cons.1 ho with rfl | ho
    · exact ⟨g, false, rfl⟩
    · exact hq o ho

theorem guardTrue_guards {env : Env} {e : Sig} {g : Option Guard} {a b : List Obs} (h : GuardTrue env e g a b) :
    ∃ q, b = a ++ q ∧ ∀ o ∈ q, ∃ g b, o = Obs.guard g e b := by
  cases h with
  | none => exact ⟨[], by simp, by simp⟩
  | els => exact ⟨[], by simp, by simp⟩
  | fn _ => exact ⟨_, rfl, by simp⟩

theorem guards_trans {e : Sig} {a b c : List Obs} (h1 : ∃ q, b = a ++ q ∧ ∀ o ∈ q, ∃ g b, o = Obs.guard g e b)
    (h2 : ∃ q, c = b ++ q ∧ ∀ o ∈ q, ∃ g b, o = Obs.guard g e b) :
    ∃ q, c = a ++ q ∧ ∀ o ∈ q, ∃ g b, o = Obs.guard g e b := by
  obtain ⟨q, rfl, hq⟩ := h1
  obtain ⟨q', rfl, hq'⟩ := h2
  refine ⟨q ++ q', by simp, fun o ho => ?_⟩
  rcases List.mem_append.1 ho with ho | ho
  · exact hq o ho
  · exact hq' o ho

theorem selected_guards {m : Machine} {env : Env} {e : Sig} {l : List Vid} {log log1 : List Obs} {v : Vid} {t : Tr}
    (h : Selected m env e l log v t log1) : ∃ q, log1 = log ++ q ∧ ∀ o ∈ q, ∃ g b, o = Obs.guard g e b := by
  obtain ⟨_, _, _, _, h1, h2⟩ := h
  exact guards_trans (guardsFalse_guards h1) (guardTrue_guards h2)

theorem branch_guards {env : Env} {e : Sig} {tbl : List Tr} {log log1 : List Obs} {t : Tr}
    (h : Branch env e tbl log t log1) : ∃ q, log1 = log ++ q ∧ ∀ o ∈ q, ∃ g b, o = Obs.guard g e b := by
  obtain ⟨_, _, _, _, h1, h2⟩ := h
  exact guards_trans (guardsFalse_guards h1) (guardTrue_guards h2)

theorem then_prefix {m : Machine} {env : Env} {cs cs' : Vid} {o : Outcome} {log log' : List Obs} {r : Ans Unit}
    (h : Then m env cs o log cs' log' r) : ∃ q, log' = log ++ q := by
  cases o with
  | internal => exact ⟨[], by rw [h.2.1]; simp⟩
  | failed c => exact ⟨[], by rw [h.2.1]; simp⟩
  | ok w =>
    rcases h with ⟨_, _, h, _⟩ | ⟨_, h⟩
    · exact ⟨[], by rw [h]; simp⟩
    · exact dispatches_prefix h

theorem stuck_code {m : Machine} {env : Env} {e : Sig} {hist : Vid → Option Vid} {v : Vid} {pend : List Act} {c : RC}
    {a b : List Obs} (h : Stuck m env e hist v pend a c b) : c = .cndNFound ∨ c = .grdFalse ∨ c = .exTseg := by
  induction h <;> simp_all

theorem completes_code {m : Machine} {env : Env} {e : Sig} {hist : Vid → Option Vid} {ts : Vid} {c : RC}
    {a b : List Obs} (h : Completes m env e hist ts a (.failed c) b) :
    c = .evtNFound ∨ c = .cndNFound ∨ c = .grdFalse ∨ c = .exTseg := by
  cases h with
  | failed h =>
    refine .inr ?_
    induction h with
    | path _ h => exact stuck_code h
    | later _ _ _ _ _ ih => exact ih

theorem turn_code {m : Machine} {env : Env} {e : Sig} {cs : Vid} {c : RC} {a b : List Obs}
    (h : Turn m env e cs a (.failed c) b) : c = .evtNFound ∨ c = .cndNFound ∨ c = .grdFalse ∨ c = .exTseg := by
  cases h with
  | none => exact .inl rfl
  | taken _ _ ht =>
    cases ht with
    | external _ hc =>
      cases hc with
      | moves _ hg => obtain ⟨_, _, _, _, hg⟩ := hg; exact completes_code hg
      | stuck hs => exact .inr (stuck_code hs)

theorem dispatches_code {m : Machine} {env : Env} {e : Sig} {cs cs' : Vid} {a b : List Obs} {r : Ans Unit}
    (h : Dispatches m env e cs a cs' b r) : r = .ok () ∨ ∃ c, r = .stop (shown m c) ∧
      (c = .evtNFound ∨ c = .cndNFound ∨ c = .grdFalse ∨ c = .exTseg) := by
  induction h with
  | internal => exact .inl rfl
  | ok => exact .inl rfl
  | failed ht => exact .inr ⟨_, rfl, turn_code ht⟩
  | completion _ _ _ ih => exact ih

/-! ### What histories mean, in terms of the log -/

theorem lastChild_cleared {m : Machine} {h c : Vid} {b : List Obs} {r : Option Vid}
    (hx : ∀ x, .exit x ∈ b → m.parent x ≠ some (some c)) (hc : .clear h ∉ b) : lastChild m h c b r = r := by
  induction b generalizing r with
  | nil => rfl
  | cons o b ih =>
    have ih' := @ih r (fun x hx' => hx x (by simp [hx'])) (by simp at hc; exact hc.2)
    cases o with
    | exit v => rw [lastChild, if_neg (hx v (by simp))]; exact ih'
    | clear k => rw [lastChild, if_neg (by rintro rfl; simp at hc)]; exact ih'
    | _ => exact ih'

theorem lastLeaf_cleared {m : Machine} {h c : Vid} {b : List Obs} {r : Option Vid}
    (hx : ∀ x, .stable x ∈ b → ¬ Below m c x) (hc : .clear h ∉ b) : lastLeaf m h c b r = r := by
  induction b generalizing r with
  | nil => rfl
  | cons o b ih =>
    have ih' := @ih r (fun x hx' => hx x (by simp [hx'])) (by simp at hc; exact hc.2)
    cases o with
    | stable v => rw [lastLeaf, if_neg (hx v (by simp))]; exact ih'
    | clear k => rw [lastLeaf, if_neg (by rintro rfl; simp at hc)]; exact ih'
    | _ => exact ih'

/-- A shallow history of `c` refers to `w` iff `w` is a direct child of `c`, was left, and since then no direct child of
`c` was left and the history was not cleared. -/
theorem shallow_refers_to {m : Machine} {h c w : Vid} {trn : Tr}
    (hv : m.vert h = some (.hist false (some c) trn)) {log : List Obs} :
    histOf m log h = some w ↔ ∃ a b, log = a ++ .exit w :: b ∧ m.parent w = some (some c) ∧
      (∀ x, .exit x ∈ b → m.parent x ≠ some (some c)) ∧ .clear h ∉ b := by
  have hh : histOf m log h = lastChild m h c log none := by unfold histOf; rw [hv]
  rw [hh]
  constructor
  · intro hw
    clear hh
    suffices ∀ (log : List Obs) (r : Option Vid), lastChild m h c log r = some w →
        (∃ a b, log = a ++ .exit w :: b ∧ m.parent w = some (some c) ∧
          (∀ x, .exit x ∈ b → m.parent x ≠ some (some c)) ∧ .clear h ∉ b) ∨
        (r = some w ∧ (∀ x, .exit x ∈ log → m.parent x ≠ some (some c)) ∧ .clear h ∉ log) by
      rcases this log none hw with h | h
      · exact h
      · simp at h
    intro log
    induction log with
    | nil => intro r hr; exact .inr ⟨hr, by simp, by simp⟩
    | cons o log ih =>
      intro r hr
      have skip : ∀ {r : Option Vid}, lastChild m h c log r = some w →
          (∀ x, o = .exit x → m.parent x ≠ some (some c)) → o ≠ .clear h →
          (∃ a b, o :: log = a ++ .exit w :: b ∧ m.parent w = some (some c) ∧
            (∀ x, .exit x ∈ b → m.parent x ≠ some (some c)) ∧ .clear h ∉ b) ∨
          (r = some w ∧ (∀ x, .exit x ∈ o :: log → m.parent x ≠ some (some c)) ∧ .clear h ∉ o :: log) := by
        intro r hr ho1 ho2
        rcases ih r hr with ⟨a, b, rfl, h2⟩ | ⟨h1, h2, h3⟩
        · exact .inl ⟨o :: a, b, rfl, h2⟩
        · refine .inr ⟨h1, fun x hx => ?_, fun hc => ?_⟩
          · rcases List.mem_cons.1 hx with rfl | hx
            · exact ho1 x rfl
            · exact h2 x hx
          · rcases List.mem_cons.1 hc with rfl | hc
            · exact ho2 rfl
            · exact h3 hc
      cases o with
      | exit v =>
        by_cases hp : m.parent v = some (some c)
        · rw [lastChild, if_pos hp] at hr
          rcases ih _ hr with ⟨a, b, rfl, h2⟩ | ⟨h1, h2, h3⟩
          · exact .inl ⟨.exit v :: a, b, rfl, h2⟩
          · simp only [Option.some.injEq] at h1
            subst h1
            exact .inl ⟨[], log, rfl, hp, h2, h3⟩
        · rw [lastChild, if_neg hp] at hr
          exact skip hr (fun x hx => by cases hx; exact hp) (by simp)
      | clear k =>
        by_cases hk : k = h
        · rw [lastChild, if_pos hk] at hr
          rcases ih _ hr with ⟨a, b, rfl, h2⟩ | ⟨h1, _⟩
          · exact .inl ⟨.clear k :: a, b, rfl, h2⟩
          · simp at h1
        · rw [lastChild, if_neg hk] at hr
          exact skip hr (by simp) (by simp [hk])
      | entry v => exact skip hr (by simp) (by simp)
      | act a e => exact skip hr (by simp) (by simp)
      | guard g e b => exact skip hr (by simp) (by simp)
      | stable v => exact skip hr (by simp) (by simp)
  · rintro ⟨a, b, rfl, hp, hx, hc⟩
    rw [lastChild_append, lastChild, if_pos hp, lastChild_cleared hx hc]

/-- A shallow history is empty iff since the last time it was cleared, or since creation, no direct child of its
composite state was left. -/
theorem shallow_is_empty {m : Machine} {h c : Vid} {trn : Tr} (hv : m.vert h = some (.hist false (some c) trn))
    {log : List Obs} : histOf m log h = none ↔ ∃ b, (log = b ∨ ∃ a, log = a ++ .clear h :: b) ∧
      ∀ x, .exit x ∈ b → m.parent x ≠ some (some c) := by
  have hh : histOf m log h = lastChild m h c log none := by unfold histOf; rw [hv]
  rw [hh]
  constructor
  · intro hw
    clear hh
    suffices ∀ (log : List Obs) (r : Option Vid), lastChild m h c log r = none →
        (∃ a b, log = a ++ .clear h :: b ∧ ∀ x, .exit x ∈ b → m.parent x ≠ some (some c)) ∨
        (r = none ∧ ∀ x, .exit x ∈ log → m.parent x ≠ some (some c)) by
      rcases this log none hw with ⟨a, b, h1, h2⟩ | h
      · exact ⟨b, .inr ⟨a, h1⟩, h2⟩
      · exact ⟨log, .inl rfl, h.2⟩
    intro log
    induction log with
    | nil => intro r hr; exact .inr ⟨hr, by simp⟩
    | cons o log ih =>
      intro r hr
      have skip : ∀ {r : Option Vid}, lastChild m h c log r = none →
          (∀ x, o = .exit x → m.parent x ≠ some (some c)) →
          (∃ a b, o :: log = a ++ .clear h :: b ∧ ∀ x, .exit x ∈ b → m.parent x ≠ some (some c)) ∨
          (r = none ∧ ∀ x, .exit x ∈ o :: log → m.parent x ≠ some (some c)) := by
        intro r hr ho1
        rcases ih r hr with ⟨a, b, rfl, h2⟩ | ⟨h1, h2⟩
        · exact .inl ⟨o :: a, b, rfl, h2⟩
        · refine .inr ⟨h1, fun x hx => ?_⟩
          rcases List.mem_cons.1 hx with rfl | hx
          · exact ho1 x rfl
          · exact h2 x hx
      cases o with
      | exit v =>
        by_cases hp : m.parent v = some (some c)
        · rw [lastChild, if_pos hp] at hr
          rcases ih _ hr with ⟨a, b, rfl, h2⟩ | ⟨h1, _⟩
          · exact .inl ⟨.exit v :: a, b, rfl, h2⟩
          · simp at h1
        · rw [lastChild, if_neg hp] at hr
          exact skip hr (fun x hx => by cases hx; exact hp)
      | clear k =>
        by_cases hk : k = h
        · subst hk
          rw [lastChild, if_pos rfl] at hr
          rcases ih _ hr with ⟨a, b, rfl, h2⟩ | ⟨_, h2⟩
          · exact .inl ⟨.clear k :: a, b, rfl, h2⟩
          · exact .inl ⟨[], log, rfl, h2⟩
        · rw [lastChild, if_neg hk] at hr
          exact skip hr (by simp)
      | entry v => exact skip hr (by simp)
      | act a e => exact skip hr (by simp)
      | guard g e b => exact skip hr (by simp)
      | stable v => exact skip hr (by simp)
  · have key : ∀ (b : List Obs), (∀ x, .exit x ∈ b → m.parent x ≠ some (some c)) → lastChild m h c b none = none := by
      intro b
      induction b with
      | nil => intro _; rfl
      | cons o b ih =>
        intro hx
        have ih' := ih fun x hx' => hx x (by simp [hx'])
        cases o with
        | exit v => rw [lastChild, if_neg (hx v (by simp))]; exact ih'
        | clear k => rw [lastChild, ite_self]; exact ih'
        | _ => exact ih'
    rintro ⟨b, rfl | ⟨a, rfl⟩, hx⟩
    · exact key _ hx
    · rw [lastChild_append, lastChild, if_pos rfl]; exact key _ hx

/-- A deep history of `c` refers to `w` iff `w` lies inside `c`, was a stable state, and since then no state inside `c`
was stable and the history was not cleared. -/
theorem deep_refers_to {m : Machine} {h c w : Vid} {trn : Tr}
    (hv : m.vert h = some (.hist true (some c) trn)) {log : List Obs} :
    histOf m log h = some w ↔ ∃ a b, log = a ++ .stable w :: b ∧ Below m c w ∧
      (∀ x, .stable x ∈ b → ¬ Below m c x) ∧ .clear h ∉ b := by
  have hh : histOf m log h = lastLeaf m h c log none := by unfold histOf; rw [hv]
  rw [hh]
  constructor
  · intro hw
    clear hh
    suffices ∀ (log : List Obs) (r : Option Vid), lastLeaf m h c log r = some w →
        (∃ a b, log = a ++ .stable w :: b ∧ Below m c w ∧
          (∀ x, .stable x ∈ b → ¬ Below m c x) ∧ .clear h ∉ b) ∨
        (r = some w ∧ (∀ x, .stable x ∈ log → ¬ Below m c x) ∧ .clear h ∉ log) by
      rcases this log none hw with h | h
      · exact h
      · simp at h
    intro log
    induction log with
    | nil => intro r hr; exact .inr ⟨hr, by simp, by simp⟩
    | cons o log ih =>
      intro r hr
      have skip : ∀ {r : Option Vid}, lastLeaf m h c log r = some w →
          (∀ x, o = .stable x → ¬ Below m c x) → o ≠ .clear h →
          (∃ a b, o :: log = a ++ .stable w :: b ∧ Below m c w ∧
            (∀ x, .stable x ∈ b → ¬ Below m c x) ∧ .clear h ∉ b) ∨
          (r = some w ∧ (∀ x, .stable x ∈ o :: log → ¬ Below m c x) ∧ .clear h ∉ o :: log) := by
        intro r hr ho1 ho2
        rcases ih r hr with ⟨a, b, rfl, h2⟩ | ⟨h1, h2, h3⟩
        · exact .inl ⟨o :: a, b, rfl, h2⟩
        · refine .inr ⟨h1, fun x hx => ?_, fun hc => ?_⟩
          · rcases List.mem_cons.1 hx with rfl | hx
            · exact ho1 x rfl
            · exact h2 x hx
          · rcases List.mem_cons.1 hc with rfl | hc
            · exact ho2 rfl
            · exact h3 hc
      cases o with
      | stable v =>
        by_cases hp : Below m c v
        · rw [lastLeaf, if_pos hp] at hr
          rcases ih _ hr with ⟨a, b, rfl, h2⟩ | ⟨h1, h2, h3⟩
          · exact .inl ⟨.stable v :: a, b, rfl, h2⟩
          · simp only [Option.some.injEq] at h1
            subst h1
            exact .inl ⟨[], log, rfl, hp, h2, h3⟩
        · rw [lastLeaf, if_neg hp] at hr
          exact skip hr (fun x hx => by cases hx; exact hp) (by simp)
      | clear k =>
        by_cases hk : k = h
        · rw [lastLeaf, if_pos hk] at hr
          rcases ih _ hr with ⟨a, b, rfl, h2⟩ | ⟨h1, _⟩
          · exact .inl ⟨.clear k :: a, b, rfl, h2⟩
          · simp at h1
        · rw [lastLeaf, if_neg hk] at hr
          exact skip hr (by simp) (by simp [hk])
      | entry v => exact skip hr (by simp) (by simp)
      | act a e => exact skip hr (by simp) (by simp)
      | guard g e b => exact skip hr (by simp) (by simp)
      | exit v => exact skip hr (by simp) (by simp)
  · rintro ⟨a, b, rfl, hp, hx, hc⟩
    rw [lastLeaf_append, lastLeaf, if_pos hp, lastLeaf_cleared hx hc]

/-- A deep history is empty iff since the last time it was cleared, or since creation, no state inside its composite
state was stable. -/
theorem deep_is_empty {m : Machine} {h c : Vid} {trn : Tr} (hv : m.vert h = some (.hist true (some c) trn))
    {log : List Obs} : histOf m log h = none ↔ ∃ b, (log = b ∨ ∃ a, log = a ++ .clear h :: b) ∧
      ∀ x, .stable x ∈ b → ¬ Below m c x := by
  have hh : histOf m log h = lastLeaf m h c log none := by unfold histOf; rw [hv]
  rw [hh]
  constructor
  · intro hw
    clear hh
    suffices ∀ (log : List Obs) (r : Option Vid), lastLeaf m h c log r = none →
        (∃ a b, log = a ++ .clear h :: b ∧ ∀ x, .stable x ∈ b → ¬ Below m c x) ∨
        (r = none ∧ ∀ x, .stable x ∈ log → ¬ Below m c x) by
      rcases this log none hw with ⟨a, b, h1, h2⟩ | h
      · exact ⟨b, .inr ⟨a, h1⟩, h2⟩
      · exact ⟨log, .inl rfl, h.2⟩
    intro log
    induction log with
    | nil => intro r hr; exact .inr ⟨hr, by simp⟩
    | cons o log ih =>
      intro r hr
      have skip : ∀ {r : Option Vid}, lastLeaf m h c log r = none →
          (∀ x, o = .stable x → ¬ Below m c x) →
          (∃ a b, o :: log = a ++ .clear h :: b ∧ ∀ x, .stable x ∈ b → ¬ Below m c x) ∨
          (r = none ∧ ∀ x, .stable x ∈ o :: log → ¬ Below m c x) := by
        intro r hr ho1
        rcases ih r hr with ⟨a, b, rfl, h2⟩ | ⟨h1, h2⟩
        · exact .inl ⟨o :: a, b, rfl, h2⟩
        · refine .inr ⟨h1, fun x hx => ?_⟩
          rcases List.mem_cons.1 hx with rfl | hx
          · exact ho1 x rfl
          · exact h2 x hx
      cases o with
      | stable v =>
        by_cases hp : Below m c v
        · rw [lastLeaf, if_pos hp] at hr
          rcases ih _ hr with ⟨a, b, rfl, h2⟩ | ⟨h1, _⟩
          · exact .inl ⟨.stable v :: a, b, rfl, h2⟩
          · simp at h1
        · rw [lastLeaf, if_neg hp] at hr
          exact skip hr (fun x hx => by cases hx; exact hp)
      | clear k =>
        by_cases hk : k = h
        · subst hk
          rw [lastLeaf, if_pos rfl] at hr
          rcases ih _ hr with ⟨a, b, rfl, h2⟩ | ⟨_, h2⟩
          · exact .inl ⟨.clear k :: a, b, rfl, h2⟩
          · exact .inl ⟨[], log, rfl, h2⟩
        · rw [lastLeaf, if_neg hk] at hr
          exact skip hr (by simp)
      | entry v => exact skip hr (by simp)
      | act a e => exact skip hr (by simp)
      | guard g e b => exact skip hr (by simp)
      | exit v => exact skip hr (by simp)
  · have key : ∀ (b : List Obs), (∀ x, .stable x ∈ b → ¬ Below m c x) → lastLeaf m h c b none = none := by
      intro b
      induction b with
      | nil => intro _; rfl
      | cons o b ih =>
        intro hx
        have ih' := ih fun x hx' => hx x (by simp [hx'])
        cases o with
        | stable v => rw [lastLeaf, if_neg (hx v (by simp))]; exact ih'
        | clear k => rw [lastLeaf, ite_self]; exact ih'
        | _ => exact ih'
    rintro ⟨b, rfl | ⟨a, rfl⟩, hx⟩
    · exact key _ hx
    · rw [lastLeaf_append, lastLeaf, if_pos rfl]; exact key _ hx

theorem split_unique {α : Type} {c : α} : ∀ {a b r r' : List α}, a ++ c :: r = b ++ c :: r' → (b ++ c :: r').Nodup →
    a = b := by
  intro a
  induction a with
  | nil =>
    intro b r r' h hn
    cases b with
    | nil => rfl
    | cons x b =>
      simp only [List.nil_append, List.cons_append, List.cons.injEq] at h
      obtain ⟨rfl, _⟩ := h
      simp at hn
  | cons y a ih =>
    intro b r r' h hn
    cases b with
    | nil =>
      simp only [List.nil_append, List.cons_append, List.cons.injEq] at h
      obtain ⟨rfl, h⟩ := h
      simp only [List.nil_append, ← h] at hn
      simp at hn
    | cons x b =>
      simp only [List.cons_append, List.cons.injEq] at h
      obtain ⟨rfl, h⟩ := h
      rw [ih h (by simp only [List.cons_append, List.nodup_cons] at hn; exact hn.2)]

/-- Leaving: when a transition leaves the child `w` of `c`, the shallow history of `c` refers to `w`, whatever other
states are left with it. -/
theorem shallow_after_exits {m : Machine} {h c w cs ts : Vid} {trn : Tr} {l lt a r : List Vid}
    (hv : m.vert h = some (.hist false (some c) trn)) (hl : Path m cs l) (hlt : Path m ts lt)
    (hs : l = a ++ w :: c :: r) (hw : w ∈ exited l lt) (log : List Obs) :
    histOf m (log ++ (exited l lt).map .exit) h = some w := by
  rw [shallow_refers_to hv]
  obtain ⟨x, y, hxy⟩ := List.append_of_mem hw
  have hnd : l.Nodup := hl.nodup
  have hsub : (exited l lt).Sublist l := (exited_sublist l lt).1
  have hpw : m.parent w = some (some c) := by
    have := hl.suffix (a := a) (v := w) (r := c :: r) hs
    have h1 := this.parent_head
    simpa using h1
  refine ⟨log ++ x.map .exit, y.map .exit, by rw [hxy]; simp, hpw, ?_, by simp⟩
  intro v hv' hpv
  simp only [List.mem_map, Obs.exit.injEq, exists_eq_right] at hv'
  have hvl : v ∈ l := hsub.subset (by rw [hxy]; simp [hv'])
  have hvw : v = w := by
    -- two elements of one path with the same parent are equal
    obtain ⟨a', r', hs'⟩ := List.append_of_mem hvl
    have h1 := hl.suffix (a := a') (v := v) (r := r') hs'
    have h2 := h1.parent_head
    rw [hpv] at h2
    simp only [Option.some.injEq] at h2
    obtain ⟨r'', rfl⟩ : ∃ r'', r' = c :: r'' := by
      cases r' with
      | nil => simp at h2
      | cons z r' => simp at h2; exact ⟨r', by rw [h2]⟩
    have e1 : a ++ w :: c :: r = a' ++ v :: c :: r'' := by rw [← hs, hs']
    have e2 : (a ++ [w]) ++ c :: r = (a' ++ [v]) ++ c :: r'' := by simpa using e1
    have e3 := split_unique e2 (by rw [← e2]; simpa [hs] using hnd)
    have := congrArg List.getLast? e3
    simpa using this.symm
  subst hvw
  have : (x ++ v :: y).Nodup := by rw [← hxy]; exact hnd.sublist hsub
  rw [List.nodup_append] at this
  exact (List.nodup_cons.1 this.2.1).1 hv'

/-! ### One segment of a compound transition

`Continues m env e cs v pend log o log'`: the compound transition out of `cs` has reached the vertex `v`. -/

section
variable {m : Machine} {env : Env} {e : Sig} {cs v : Vid} {pend : List Act} {log log' : List Obs} {o : Outcome}

/-- A state is reached: states are left, effects executed and states entered. -/
theorem continues_state (hv : IsState m v) :
    Continues m env e cs v pend log o log' ↔ Goes m env e cs v pend log o log' := by
  constructor
  · intro h
    cases h with
    | moves hf hg => obtain ⟨rfl, rfl, rfl⟩ := hf.state_inv hv; exact hg
    | stuck hs => exact (hs.state_inv hv).elim
  · intro h; exact .moves (.state hv) h

/-- A conditional pseudostate: the guards are evaluated before the pending effects are executed; the transition goes on
along the first branch whose guard is true. -/
theorem continues_cond {tbl : List Tr} {t : Tr} {w : Vid} {log1 : List Obs} (hv : m.vert v = some (.cond tbl))
    (hb : Branch env e tbl log t log1) (hn : pend.length < m.maxSegs) (ht : t.target = some w) :
    Continues m env e cs v pend log o log' ↔ Continues m env e cs w (pend ++ t.action.toList) log1 o log' := by
  have hx : histOf m log1 = histOf m log := histOf_ext (branch_ext hb)
  constructor
  · intro h
    cases h with
    | moves hf hg =>
      cases hf with
      | cond hv' hb' _ ht' hf =>
        rw [hv] at hv'
        simp only [Option.some.injEq, Vertex.cond.injEq] at hv'
        subst hv'
        obtain ⟨rfl, rfl⟩ := branch_det hb hb'
        rw [ht] at ht'
        simp only [Option.some.injEq] at ht'
        subst ht'
        exact .moves (by rw [hx]; exact hf) hg
      | state hs => obtain ⟨p, hp⟩ := hs; simp [Machine.parent, hv] at hp
      | choice hv' => simp [hv] at hv'
      | restore hv' => simp [hv] at hv'
      | default hv' => simp [hv] at hv'
      | owner hv' => simp [hv] at hv'
    | stuck hs =>
      cases hs with
      | cond hv' hb' _ ht' hf =>
        rw [hv] at hv'
        simp only [Option.some.injEq, Vertex.cond.injEq] at hv'
        subst hv'
        obtain ⟨rfl, rfl⟩ := branch_det hb hb'
        rw [ht] at ht'
        simp only [Option.some.injEq] at ht'
        subst ht'
        exact .stuck (by rw [hx]; exact hf)
      | noCond hv' hg =>
        rw [hv] at hv'
        simp only [Option.some.injEq, Vertex.cond.injEq] at hv'
        subst hv'
        exact (branch_none hb hg).elim
      | fullCond hv' hb' hf => omega
      | noChoice hv' => simp [hv] at hv'
      | choice hv' => simp [hv] at hv'
      | noDefault hv' => simp [hv] at hv'
      | fullDefault hv' => simp [hv] at hv'
      | default hv' => simp [hv] at hv'
  · intro h
    cases h with
    | moves hf hg => exact .moves (.cond hv hb hn ht (by rw [← hx]; exact hf)) hg
    | stuck hs => exact .stuck (.cond hv hb hn ht (by rw [← hx]; exact hs))

/-- A choice pseudostate: first the pending effects are executed, then the guards are evaluated; the transition goes on
along the first branch whose guard is true. -/
theorem continues_choice {tbl : List Tr} {t : Tr} {w : Vid} {log1 : List Obs} (hv : m.vert v = some (.choice tbl))
    (hb : Branch env e tbl (log ++ acts e pend) t log1) (ht : t.target = some w) :
    Continues m env e cs v pend log o log' ↔ Continues m env e cs w t.action.toList log1 o log' := by
  have hx : histOf m log1 = histOf m log := histOf_ext ((Ext.acts log e pend).trans (branch_ext hb))
  constructor
  · intro h
    cases h with
    | moves hf hg =>
      cases hf with
      | choice hv' hb' ht' hf =>
        rw [hv] at hv'
        simp only [Option.some.injEq, Vertex.choice.injEq] at hv'
        subst hv'
        obtain ⟨rfl, rfl⟩ := branch_det hb hb'
        rw [ht] at ht'
        simp only [Option.some.injEq] at ht'
        subst ht'
        exact .moves (by rw [hx]; exact hf) hg
      | state hs => obtain ⟨p, hp⟩ := hs; simp [Machine.parent, hv] at hp
      | cond hv' => simp [hv] at hv'
      | restore hv' => simp [hv] at hv'
      | default hv' => simp [hv] at hv'
      | owner hv' => simp [hv] at hv'
    | stuck hs =>
      cases hs with
      | choice hv' hb' ht' hf =>
        rw [hv] at hv'
        simp only [Option.some.injEq, Vertex.choice.injEq] at hv'
        subst hv'
        obtain ⟨rfl, rfl⟩ := branch_det hb hb'
        rw [ht] at ht'
        simp only [Option.some.injEq] at ht'
        subst ht'
        exact .stuck (by rw [hx]; exact hf)
      | noChoice hv' hg =>
        rw [hv] at hv'
        simp only [Option.some.injEq, Vertex.choice.injEq] at hv'
        subst hv'
        exact (branch_none hb hg).elim
      | noCond hv' => simp [hv] at hv'
      | cond hv' => simp [hv] at hv'
      | fullCond hv' => simp [hv] at hv'
      | noDefault hv' => simp [hv] at hv'
      | fullDefault hv' => simp [hv] at hv'
      | default hv' => simp [hv] at hv'
  · intro h
    cases h with
    | moves hf hg => exact .moves (.choice hv hb ht (by rw [← hx]; exact hf)) hg
    | stuck hs => exact .stuck (.choice hv hb ht (by rw [← hx]; exact hs))

/-- No branch of a conditional is enabled: the transition fails with `RKH_CND_NFOUND`; only guards have been called. -/
theorem continues_no_cond {tbl : List Tr} {log1 : List Obs} (hv : m.vert v = some (.cond tbl))
    (hn : GuardsFalse env e ((branches tbl).map Tr.guard) log log1) :
    Continues m env e cs v pend log o log' ↔ o = .failed .cndNFound ∧ log' = log1 := by
  have hs : Continues m env e cs v pend log (.failed .cndNFound) log1 := .stuck (.noCond hv hn)
  exact ⟨fun h => by obtain ⟨rfl, rfl⟩ := hs.det h; exact ⟨rfl, rfl⟩, fun ⟨h1, h2⟩ => by rw [h1, h2]; exact hs⟩

/-- No branch of a choice is enabled: the transition fails with `RKH_CND_NFOUND`, after the effects before the choice
have been executed. -/
theorem continues_no_choice {tbl : List Tr} {log1 : List Obs} (hv : m.vert v = some (.choice tbl))
    (hn : GuardsFalse env e ((branches tbl).map Tr.guard) (log ++ acts e pend) log1) :
    Continues m env e cs v pend log o log' ↔ o = .failed .cndNFound ∧ log' = log1 := by
  have hs : Continues m env e cs v pend log (.failed .cndNFound) log1 := .stuck (.noChoice hv hn)
  exact ⟨fun h => by obtain ⟨rfl, rfl⟩ := hs.det h; exact ⟨rfl, rfl⟩, fun ⟨h1, h2⟩ => by rw [h1, h2]; exact hs⟩

/-- Either some branch is the first one whose guard is true, or there is none. -/
theorem branch_or_none (tbl : List Tr) (log : List Obs) : (∃ t log1, Branch env e tbl log t log1) ∨
    ∃ log1, GuardsFalse env e ((branches tbl).map Tr.guard) log log1 := by
  unfold Branch
  generalize branches tbl = bs
  induction bs generalizing log with
  | nil => exact .inr ⟨log, .nil⟩
  | cons x c ih =>
    rcases hg : x.guard with _ | _ | g
    · exact .inl ⟨x, log, [], c, log, rfl, .nil, by rw [hg]; exact .none⟩
    · exact .inl ⟨x, log, [], c, log, rfl, .nil, by rw [hg]; exact .els⟩
    · cases hb : env g e log with
      | true => exact .inl ⟨x, _, [], c, log, rfl, .nil, by rw [hg]; exact .fn hb⟩
      | false =>
        rcases ih (log ++ [.guard g e false]) with ⟨y, l1, pre, post, l2, hc, h1, h2⟩ | ⟨l1, h⟩
        · refine .inl ⟨y, l1, x :: pre, post, l2, by rw [hc]; rfl, ?_, h2⟩
          rw [List.map_cons, hg]
          exact .cons hb h1
        · exact .inr ⟨l1, by rw [List.map_cons, hg]; exact .cons hb h⟩

/-- An `ELSE` branch is always taken if it is reached, so a branch is always found if there is one. -/
theorem else_branch {tbl : List Tr} {t : Tr} (ht : t ∈ branches tbl) (hg : t.guard = some .els) (log : List Obs) :
    ∃ t' log1, Branch env e tbl log t' log1 := by
  rcases branch_or_none (env := env) (e := e) tbl log with h | ⟨log1, h⟩
  · exact h
  · exfalso
    generalize branches tbl = bs at ht h
    induction bs generalizing log with
    | nil => simp at ht
    | cons x bs ih =>
      rw [List.map_cons] at h
      rcases List.mem_cons.1 ht with rfl | ht
      · rw [hg] at h; cases h
      · generalize x.guard = xg at h
        cases h with
        | cons _ h => exact ih _ ht h

/-- A transition to a history that refers to `w` is a transition to `w`. -/
theorem continues_history {d : Bool} {p : Option Vid} {trn : Tr} {w : Vid} (hv : m.vert v = some (.hist d p trn))
    (hw : histOf m log v = some w) :
    Continues m env e cs v pend log o log' ↔ Goes m env e cs w pend log o log' := by
  have hst : IsState m w := by
    unfold histOf at hw
    rw [hv] at hw
    cases p with
    | none => cases d <;> simp at hw
    | some c => exact (inside_histOf v d c trn w hv (by unfold histOf; rw [hv]; exact hw)).isState
  rw [← continues_state hst]
  constructor
  · intro h
    cases h with
    | moves hf hg =>
      cases hf with
      | restore hv' hw' hf =>
        rw [hw] at hw'
        simp only [Option.some.injEq] at hw'
        subst hw'
        exact .moves hf hg
      | state hs => obtain ⟨p, hp⟩ := hs; simp [Machine.parent, hv] at hp
      | cond hv' => simp [hv] at hv'
      | choice hv' => simp [hv] at hv'
      | default _ hw' => simp [hw] at hw'
      | owner _ hw' => simp [hw] at hw'
    | stuck hs =>
      cases hs with
      | noCond hv' => simp [hv] at hv'
      | cond hv' => simp [hv] at hv'
      | fullCond hv' => simp [hv] at hv'
      | noChoice hv' => simp [hv] at hv'
      | choice hv' => simp [hv] at hv'
      | noDefault _ hw' => simp [hw] at hw'
      | fullDefault _ hw' => simp [hw] at hw'
      | default _ hw' => simp [hw] at hw'
  · intro h
    cases h with
    | moves hf hg => exact .moves (.restore hv hw hf) hg
    | stuck hs => exact (hs.state_inv hst).elim

/-- A transition to an empty history goes on along the history's default transition. -/
theorem continues_history_default {d : Bool} {p : Option Vid} {trn : Tr} {w : Vid} {log1 : List Obs}
    (hv : m.vert v = some (.hist d p trn)) (hw : histOf m log v = none) (ht : trn.target = some w)
    (hg : GuardTrue env e trn.guard log log1) (hn : pend.length < m.maxSegs) :
    Continues m env e cs v pend log o log' ↔ Continues m env e cs w (pend ++ trn.action.toList) log1 o log' := by
  have hx : histOf m log1 = histOf m log := histOf_ext hg.ext
  constructor
  · intro h
    cases h with
    | moves hf hgo =>
      cases hf with
      | default hv' hw' ht' hg' _ hf =>
        rw [hv] at hv'
        simp only [Option.some.injEq, Vertex.hist.injEq] at hv'
        obtain ⟨rfl, rfl, rfl⟩ := hv'
        rw [ht] at ht'
        simp only [Option.some.injEq] at ht'
        subst ht'
        have := hg.det hg'
        subst this
        exact .moves (by rw [hx]; exact hf) hgo
      | state hs => obtain ⟨p, hp⟩ := hs; simp [Machine.parent, hv] at hp
      | cond hv' => simp [hv] at hv'
      | choice hv' => simp [hv] at hv'
      | restore _ hw' => simp [hw] at hw'
      | owner hv' _ ht' =>
        rw [hv] at hv'
        simp only [Option.some.injEq, Vertex.hist.injEq] at hv'
        obtain ⟨_, _, rfl⟩ := hv'
        simp [ht] at ht'
    | stuck hs =>
      cases hs with
      | noCond hv' => simp [hv] at hv'
      | cond hv' => simp [hv] at hv'
      | fullCond hv' => simp [hv] at hv'
      | noChoice hv' => simp [hv] at hv'
      | choice hv' => simp [hv] at hv'
      | noDefault hv' _ _ hgf =>
        rw [hv] at hv'
        simp only [Option.some.injEq, Vertex.hist.injEq] at hv'
        obtain ⟨_, _, rfl⟩ := hv'
        exact (guard_contra hg hgf).elim
      | fullDefault _ _ _ _ hf => omega
      | default hv' _ ht' hg' _ hf =>
        rw [hv] at hv'
        simp only [Option.some.injEq, Vertex.hist.injEq] at hv'
        obtain ⟨rfl, rfl, rfl⟩ := hv'
        rw [ht] at ht'
        simp only [Option.some.injEq] at ht'
        subst ht'
        have := hg.det hg'
        subst this
        exact .stuck (by rw [hx]; exact hf)
  · intro h
    cases h with
    | moves hf hgo => exact .moves (.default hv hw ht hg hn (by rw [← hx]; exact hf)) hgo
    | stuck hs => exact .stuck (.default hv hw ht hg hn (by rw [← hx]; exact hs))

/-- If the guard of that default transition is false the transition fails with `RKH_GRD_FALSE`. -/
theorem continues_history_guard_false {d : Bool} {p : Option Vid} {trn : Tr} {w : Vid} {log1 : List Obs}
    (hv : m.vert v = some (.hist d p trn)) (hw : histOf m log v = none) (ht : trn.target = some w)
    (hg : GuardsFalse env e [trn.guard] log log1) :
    Continues m env e cs v pend log o log' ↔ o = .failed .grdFalse ∧ log' = log1 := by
  have hs : Continues m env e cs v pend log (.failed .grdFalse) log1 := .stuck (.noDefault hv hw ht hg)
  exact ⟨fun h => by obtain ⟨rfl, rfl⟩ := hs.det h; exact ⟨rfl, rfl⟩, fun ⟨h1, h2⟩ => by rw [h1, h2]; exact hs⟩

/-- A transition to an empty history without default transition is a transition to the composite state itself, i.e. a
default entry. -/
theorem continues_history_owner (wf : WellFormed m) {d : Bool} {c : Vid} {trn : Tr}
    (hv : m.vert v = some (.hist d (some c) trn)) (hw : histOf m log v = none) (ht : trn.target = none) :
    Continues m env e cs v pend log o log' ↔ Goes m env e cs c pend log o log' := by
  have hst : IsState m c := by
    obtain ⟨c', hc, ⟨q, t, d, i, hcv⟩, _⟩ := wf.hist _ _ _ _ hv
    simp only [Option.some.injEq] at hc
    subst hc
    exact IsComposite.isState ⟨q, t, d, i, _, hcv⟩
  rw [← continues_state hst]
  constructor
  · intro h
    cases h with
    | moves hf hg =>
      cases hf with
      | owner hv' hw' _ hf =>
        rw [hv] at hv'
        simp only [Option.some.injEq, Vertex.hist.injEq] at hv'
        obtain ⟨rfl, rfl, rfl⟩ := hv'
        exact .moves hf hg
      | state hs => obtain ⟨p, hp⟩ := hs; simp [Machine.parent, hv] at hp
      | cond hv' => simp [hv] at hv'
      | choice hv' => simp [hv] at hv'
      | restore _ hw' => simp [hw] at hw'
      | default hv' _ ht' =>
        rw [hv] at hv'
        simp only [Option.some.injEq, Vertex.hist.injEq] at hv'
        obtain ⟨_, _, rfl⟩ := hv'
        simp [ht] at ht'
    | stuck hs =>
      have key : ∀ {trn' : Tr} {d' : Bool} {p' : Option Vid} {w : Vid}, m.vert v = some (.hist d' p' trn') →
          trn'.target = some w → False := by
        intro trn' d' p' w hv' ht'
        rw [hv] at hv'
        simp only [Option.some.injEq, Vertex.hist.injEq] at hv'
        obtain ⟨_, _, rfl⟩ := hv'
        simp [ht] at ht'
      cases hs with
      | noCond hv' => simp [hv] at hv'
      | cond hv' => simp [hv] at hv'
      | fullCond hv' => simp [hv] at hv'
      | noChoice hv' => simp [hv] at hv'
      | choice hv' => simp [hv] at hv'
      | noDefault hv' _ ht' => exact (key hv' ht').elim
      | fullDefault hv' _ ht' => exact (key hv' ht').elim
      | default hv' _ ht' => exact (key hv' ht').elim
  · intro h
    cases h with
    | moves hf hg => exact .moves (.owner hv hw ht hf) hg
    | stuck hs => exact (hs.state_inv hst).elim

end

end Verif.SM
