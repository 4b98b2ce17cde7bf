import Verif.SM.Spec
/-
Helper lemmas: weakest preconditions for the engine monad, paths in the hierarchy, and the effect of each stage.
-/
namespace Verif.SM
open Eng Spec

/-! ### Weakest preconditions -/

/-- `Q` holds if the piece ends regularly, `R` if it ends early. -/
def wp {α : Type} (x : Eng α) (Q : α → Mem → Prop) (R : Stop → Mem → Prop) (s : Mem) : Prop :=
  match x s with
  | (s', .ok a) => Q a s'
  | (s', .stop c) => R c s'

section
variable {α β : Type} {Q : α → Mem → Prop} {R : Stop → Mem → Prop} {s : Mem}

@[simp] theorem wp_pure (a : α) : wp (pure a : Eng α) Q R s ↔ Q a s := Iff.rfl
@[simp] theorem wp_stop (c : Stop) : wp (stop c : Eng α) Q R s ↔ R c s := Iff.rfl
@[simp] theorem wp_lift_ok (a : α) : wp (lift (.ok a)) Q R s ↔ Q a s := Iff.rfl
@[simp] theorem wp_lift_stop (c : Stop) : wp (lift (.stop c) : Eng α) Q R s ↔ R c s := Iff.rfl
@[simp] theorem wp_get {Q : Mem → Mem → Prop} : wp get Q R s ↔ Q s s := Iff.rfl
@[simp] theorem wp_modify {Q : Unit → Mem → Prop} (f : Mem → Mem) : wp (modify f) Q R s ↔ Q () (f s) := Iff.rfl
@[simp] theorem wp_emit {Q : Unit → Mem → Prop} (o : Obs) :
    wp (emit o) Q R s ↔ Q () { s with log := s.log ++ [o] } := Iff.rfl
@[simp] theorem wp_bind {Q : β → Mem → Prop} (x : Eng α) (f : α → Eng β) :
    wp (x >>= f) Q R s ↔ wp x (fun a s' => wp (f a) Q R s') R s := by
  show wp (Eng.bind x f) Q R s ↔ _
  unfold wp Eng.bind
  rcases x s with ⟨s1, a | c⟩ <;> rfl
@[simp] theorem wp_error (m : Machine) (c : RC) :
    wp (error m c : Eng α) Q R s ↔ R (if m.assertEn then .assert else .rc c) s := Iff.rfl

theorem wp_mono {Q' : α → Mem → Prop} {R' : Stop → Mem → Prop} {x : Eng α} (h : wp x Q R s)
    (hQ : ∀ a s', Q a s' → Q' a s') (hR : ∀ c s', R c s' → R' c s') : wp x Q' R' s := by
  unfold wp at *
  rcases e : x s with ⟨s1, a | c⟩ <;> rw [e] at h
  · exact hQ _ _ h
  · exact hR _ _ h

theorem wp_and {Q' : α → Mem → Prop} {R' : Stop → Mem → Prop} {x : Eng α} (h : wp x Q R s) (h' : wp x Q' R' s) :
    wp x (fun a s => Q a s ∧ Q' a s) (fun c s => R c s ∧ R' c s) s := by
  unfold wp at *
  rcases e : x s with ⟨s1, a | c⟩ <;> rw [e] at h h'
  · exact ⟨h, h'⟩
  · exact ⟨h, h'⟩

theorem wp_ok {x : Eng α} {a : α} {s' : Mem} (h : wp x Q R s) (e : x s = (s', .ok a)) : Q a s' := by
  unfold wp at h; rw [e] at h; exact h
theorem wp_stopped {x : Eng α} {c : Stop} {s' : Mem} (h : wp x Q R s) (e : x s = (s', .stop c)) : R c s' := by
  unfold wp at h; rw [e] at h; exact h
end

/-! ### Paths -/

theorem Spec.Path.cons {m : Machine} {s : Vid} {l : List Vid} (h : Path m s l) : ∃ r, l = s :: r := by
  cases h <;> exact ⟨_, rfl⟩

theorem Spec.Path.unique {m : Machine} {s : Vid} {l l' : List Vid} (h : Path m s l) (h' : Path m s l') : l = l' := by
  induction h generalizing l' with
  | root hp =>
    cases h' with
    | root => rfl
    | child hp' => rw [hp] at hp'; simp at hp'
  | child hp _ ih =>
    cases h' with
    | root hp' => rw [hp] at hp'; simp at hp'
    | child hp' h2 =>
      rw [hp] at hp'
      simp only [Option.some.injEq] at hp'
      subst hp'
      rw [ih h2]

/-- Part of a path from one of its members on. -/
theorem Spec.Path.suffix {m : Machine} {s : Vid} {l : List Vid} (h : Path m s l) :
    ∀ {a : List Vid} {v : Vid} {r : List Vid}, l = a ++ v :: r → Path m v (v :: r) := by
  induction h with
  | root hp =>
    intro a v r e
    cases a with
    | nil => simp at e; obtain ⟨rfl, rfl⟩ := e; exact .root hp
    | cons x a => simp at e
  | child hp h2 ih =>
    intro a v r e
    cases a with
    | nil => simp at e; obtain ⟨rfl, rfl⟩ := e; exact .child hp h2
    | cons x a => simp only [List.cons_append, List.cons.injEq] at e; exact ih e.2

theorem Spec.Path.self_not_mem {m : Machine} {s : Vid} {r : List Vid} (h : Path m s (s :: r)) : s ∉ r := by
  intro hm
  obtain ⟨a, b, rfl⟩ := List.append_of_mem hm
  have h2 : Path m s (s :: b) := h.suffix (a := s :: a) rfl
  have := congrArg List.length (h.unique h2)
  simp at this
  omega

theorem Spec.Path.nodup {m : Machine} {s : Vid} {l : List Vid} (h : Path m s l) : l.Nodup := by
  induction h with
  | root => simp
  | child hp h2 ih => exact List.nodup_cons.2 ⟨(Path.child hp h2).self_not_mem, ih⟩

/-- Two paths share exactly a common end. -/
theorem Spec.Path.split {m : Machine} {s t : Vid} {l l' : List Vid} (h : Path m s l) (h' : Path m t l') :
    ∃ a b c, l = a ++ c ∧ l' = b ++ c ∧ (∀ x ∈ a, x ∉ l') ∧ (∀ x ∈ b, x ∉ l) := by
  induction h with
  | @root s hp =>
    by_cases hm : s ∈ l'
    · obtain ⟨b, r, rfl⟩ := List.append_of_mem hm
      have h1 := h'.suffix (a := b) rfl
      have h2 := (Path.root hp).unique h1
      simp only [List.cons.injEq, true_and] at h2
      subst h2
      refine ⟨[], b, [s], rfl, rfl, by simp, ?_⟩
      intro x hx hxs
      simp only [List.mem_singleton] at hxs
      subst hxs
      have := h'.nodup
      rw [List.nodup_append] at this
      exact this.2.2 x hx x (by simp) rfl
    · exact ⟨[s], l', [], by simp, by simp, by simpa using hm, fun x hx hxs => by
        simp only [List.mem_singleton] at hxs; subst hxs; exact hm hx⟩
  | @child s p l hp h2 ih =>
    by_cases hm : s ∈ l'
    · obtain ⟨b, r, rfl⟩ := List.append_of_mem hm
      have h1 := h'.suffix (a := b) rfl
      have h3 := (Path.child hp h2).unique h1
      simp only [List.cons.injEq, true_and] at h3
      subst h3
      refine ⟨[], b, s :: l, rfl, rfl, by simp, ?_⟩
      intro x hx hxs
      have := h'.nodup
      rw [List.nodup_append] at this
      exact this.2.2 x hx x hxs rfl
    · obtain ⟨a, b, c, rfl, rfl, ha, hb⟩ := ih
      refine ⟨s :: a, b, c, rfl, rfl, ?_, ?_⟩
      · intro x hx
        rcases List.mem_cons.1 hx with rfl | hx
        · exact hm
        · exact ha x hx
      · intro x hx hxs
        rcases List.mem_cons.1 hxs with rfl | hxs
        · exact hm (List.mem_append_left _ hx)
        · exact hb x hx hxs

theorem Spec.Path.parent_head {m : Machine} {s : Vid} {r : List Vid} (h : Path m s (s :: r)) :
    m.parent s = some r.head? := by
  cases h with
  | root hp => simpa using hp
  | child hp h2 => obtain ⟨r', rfl⟩ := h2.cons; simpa using hp

theorem Spec.Path.isState {m : Machine} {s : Vid} {l : List Vid} (h : Path m s l) : IsState m s := by
  cases h with
  | root hp => exact ⟨_, hp⟩
  | child hp _ => exact ⟨_, hp⟩

theorem Spec.Below.path {m : Machine} {c v : Vid} (h : Below m c v) :
    ∀ {l lc : List Vid}, Path m v l → Path m c lc → ∃ b, b ≠ [] ∧ l = b ++ lc := by
  induction h with
  | child hp =>
    intro l lc hl hc
    cases hl with
    | root hp' => rw [hp] at hp'; simp at hp'
    | child hp' h2 =>
      rw [hp] at hp'
      simp only [Option.some.injEq] at hp'
      subst hp'
      rw [h2.unique hc]
      exact ⟨[_], by simp, rfl⟩
  | trans hp _ ih =>
    intro l lc hl hc
    cases hl with
    | root hp' => rw [hp] at hp'; simp at hp'
    | child hp' h2 =>
      rw [hp] at hp'
      simp only [Option.some.injEq] at hp'
      subst hp'
      obtain ⟨b, _, rfl⟩ := ih h2 hc
      exact ⟨_ :: b, by simp, rfl⟩

theorem Spec.Path.isBelow {m : Machine} {c : Vid} : ∀ {b : List Vid} {v : Vid} {lc : List Vid}, Path m v (b ++ lc) →
    Path m c lc → b ≠ [] → Below m c v := by
  intro b
  induction b with
  | nil => intro v lc _ _ h; exact absurd rfl h
  | cons x b ih =>
    intro v lc h hc _
    have hx : v = x := by obtain ⟨r, hr⟩ := h.cons; simp at hr; exact hr.1.symm
    subst hx
    cases b with
    | nil =>
      obtain ⟨r, rfl⟩ := hc.cons
      exact .child (by have := h.parent_head; simpa using this)
    | cons y b =>
      have h2 : Path m y ((y :: b) ++ lc) := h.suffix (a := [v]) rfl
      exact .trans (by have := h.parent_head; simpa using this) (ih h2 hc (by simp))

theorem Spec.Below.isState {m : Machine} {c v : Vid} (h : Below m c v) : IsState m v := by
  cases h with
  | child hp => exact ⟨_, hp⟩
  | trans hp _ => exact ⟨_, hp⟩

theorem Spec.IsState.cases {m : Machine} {v : Vid} (h : IsState m v) : IsLeaf m v ∨ IsComposite m v := by
  obtain ⟨p, hp⟩ := h
  unfold Machine.parent at hp
  unfold IsLeaf IsComposite
  split at hp <;> simp_all

theorem Spec.IsLeaf.isState {m : Machine} {v : Vid} (h : IsLeaf m v) : IsState m v := by
  rcases h with ⟨p, t, h⟩ | ⟨p, h⟩ <;> exact ⟨p, by simp [Machine.parent, h]⟩

theorem Spec.IsComposite.isState {m : Machine} {v : Vid} (h : IsComposite m v) : IsState m v := by
  obtain ⟨p, t, d, i, h, hv⟩ := h
  exact ⟨p, by simp [Machine.parent, hv]⟩

theorem Spec.IsLeaf.not_composite {m : Machine} {v : Vid} (h : IsLeaf m v) : ¬ IsComposite m v := by
  rintro ⟨p, t, d, i, k, hv⟩
  rcases h with ⟨p, t, h⟩ | ⟨p, h⟩ <;> rw [hv] at h <;> simp at h

/-! ### Replaying a log -/

theorem replay_append {m : Machine} (a b : List Obs) (st : List Vid) :
    replay m (a ++ b) st = (replay m a st).bind (replay m b) := by
  induction a generalizing st with
  | nil => rfl
  | cons o a ih =>
    cases o with
    | entry v =>
      simp only [List.cons_append, replay]
      split
      · exact ih _
      · rfl
    | exit v =>
      cases st with
      | nil => rfl
      | cons x r =>
        simp only [List.cons_append, replay]
        split
        · exact ih _
        · rfl
    | act a e => simp only [List.cons_append, replay]; exact ih _
    | guard g e b => simp only [List.cons_append, replay]; exact ih _
    | stable v => simp only [List.cons_append, replay]; exact ih _
    | clear h => simp only [List.cons_append, replay]; exact ih _

/-- Observations that are neither an entry nor an exit. -/
def Silent : Obs → Prop
  | .entry _ => False
  | .exit _ => False
  | _ => True

theorem replay_silent {m : Machine} {l : List Obs} (h : ∀ o ∈ l, Silent o) (st : List Vid) :
    replay m l st = some st := by
  induction l with
  | nil => rfl
  | cons o l ih =>
    have h1 := h o (by simp)
    have h2 := ih fun o ho => h o (by simp [ho])
    cases o <;> simp_all [replay, Silent]

theorem replay_exits {m : Machine} (a c : List Vid) : replay m (a.map .exit) (a ++ c) = some c := by
  induction a with
  | nil => rfl
  | cons x a ih => simpa [replay] using ih

theorem replay_entries {m : Machine} : ∀ (b : List Vid) {t : Vid} {c : List Vid}, Path m t (b ++ c) → 
    replay m (b.reverse.map .entry) c = some (b ++ c) := by
  intro b
  induction b with
  | nil => intro t c _; rfl
  | cons x b ih =>
    intro t c h
    have hx : t = x := by obtain ⟨r, hr⟩ := h.cons; simp at hr; exact hr.1.symm
    subst hx
    rw [List.reverse_cons, List.map_append, replay_append]
    have hp := h.parent_head
    cases b with
    | nil => simp only [List.reverse_nil, List.map_nil, replay, Option.bind_some]; simp only [List.map_cons, List.map_nil, replay]; simp at hp; simp [hp]
    | cons y b =>
      have h2 : Path m y ((y :: b) ++ c) := h.suffix (a := [t]) rfl
      rw [ih h2]
      simp only [Option.bind_some, List.map_cons, List.map_nil, replay]
      rw [if_pos (by simpa using hp)]
      rfl

end Verif.SM
