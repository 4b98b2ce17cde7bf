import Verif.SM.Design
/-
A decision procedure for the design rules, and machines that keep or break them.
-/
namespace Verif.SM
open Eng Spec

/-- A completion event is due in `v`. -/
def dueB (m : Machine) (v : Vid) : Bool :=
  match m.vert v with
  | some (.final (some _)) => true
  | some (.basic _ tbl) => (rows tbl).any fun t => t.event == sigCompletion
  | _ => false

theorem dueB_of {m : Machine} {v : Vid} (h : CompletionDue m v) : dueB m v = true := by
  rcases h with ⟨p, h⟩ | ⟨p, tbl, h, t, ht, he⟩
  · simp [dueB, h]
  · simp only [dueB, h, List.any_eq_true]
    exact ⟨t, ht, by simp [he]⟩

/-- States that may be inside `p`. -/
def belowB (m : Machine) (n : Nat) (p x : Vid) : Bool :=
  match pathOf m n x with
  | some l => l.tail.contains p
  | none => true

theorem belowB_of {m : Machine} (wf : WellFormed m) {n : Nat} {p x : Vid} (h : Below m p x) : belowB m n p x = true := by
  unfold belowB
  split
  · rename_i l hl
    obtain ⟨lp, hp⟩ := wf.path p (by
      have : ∀ {v}, Below m p v → IsState m p := by
        intro v hb
        induction hb with
        | child h => obtain ⟨q, t, d, i, k, hv⟩ := wf.parent _ _ h; exact ⟨q, by simp [Machine.parent, hv]⟩
        | trans _ _ ih => exact ih
      exact this h)
    obtain ⟨b, hb, rfl⟩ := h.path (pathOf_sound hl) hp
    obtain ⟨y, b', rfl⟩ := List.exists_cons_of_ne_nil hb
    obtain ⟨r, rfl⟩ := hp.cons
    simp
  · rfl

/-- Where a transition to `v` may go next. -/
def landNexts (m : Machine) (n : Nat) (v : Vid) : List Vid :=
  match m.vert v with
  | some (.composite _ _ d _ _) => [d]
  | some (.cond tbl) => (branches tbl).filterMap Tr.target
  | some (.choice tbl) => (branches tbl).filterMap Tr.target
  | some (.hist _ (some p) trn) => (trn.target.getD p) :: (List.range n).filter (belowB m n p)
  | some (.hist _ none trn) => trn.target.toList
  | _ => []

def landClosure (m : Machine) (n : Nat) : Nat → List Vid → List Vid
  | 0, l => l
  | f + 1, l => landClosure m n f (l ++ ((l.flatMap (landNexts m n)).filter fun x => x ∉ l).eraseDups)

theorem lands_closed {m : Machine} (wf : WellFormed m) {n : Nat} (hn : ∀ v, n ≤ v → m.vert v = none) {S : List Vid}
    (hS : ∀ x ∈ S, ∀ y ∈ landNexts m n x, y ∈ S) {v w : Vid} (h : Lands m v w) : v ∈ S → w ∈ S := by
  induction h with
  | leaf => exact id
  | composite hv _ ih => exact fun h => ih (hS _ h _ (by simp [landNexts, hv]))
  | cond hv hb ht _ ih =>
    exact fun h => ih (hS _ h _ (by simp only [landNexts, hv, List.mem_filterMap]; exact ⟨_, hb, ht⟩))
  | choice hv hb ht _ ih =>
    exact fun h => ih (hS _ h _ (by simp only [landNexts, hv, List.mem_filterMap]; exact ⟨_, hb, ht⟩))
  | @restore _ _ x _ _ _ hv hb _ ih =>
    intro h
    refine ih (hS _ h _ ?_)
    simp only [landNexts, hv, List.mem_cons, List.mem_filter, List.mem_range]
    refine .inr ⟨?_, belowB_of wf hb⟩
    rcases Nat.lt_or_ge x n with h | h
    · exact h
    · obtain ⟨p, hp⟩ := hb.isState
      simp [Machine.parent, hn x h] at hp
  | @default _ _ _ _ p _ hv ht _ ih =>
    exact fun h => ih (hS _ h _ (by cases p <;> simp [landNexts, hv, ht]))
  | owner hv ht _ ih => exact fun h => ih (hS _ h _ (by simp [landNexts, hv, ht]))

theorem landClosure_mem {m : Machine} {n : Nat} {v : Vid} : ∀ {f : Nat} {l : List Vid}, v ∈ l → v ∈ landClosure m n f l := by
  intro f
  induction f with
  | zero => intro l h; exact h
  | succ f ih => intro l h; exact ih (by simp [h])

/-- `NoCompletionCircle` for a machine with vertices `0 … n - 1`, given the ranks. -/
def okCircle (m : Machine) (n : Nat) (rank : Vid → Nat) : Bool :=
  (List.range n).all fun v => !dueB m v ||
    match pathOf m n v with
    | none => false
    | some l => (candidates m sigCompletion l).all fun xt =>
      match xt.2.target with
      | none => true
      | some u =>
        let S := landClosure m n n [u]
        S.all (fun x => (landNexts m n x).all S.contains) && S.all fun w => !dueB m w || decide (rank w < rank v)

theorem okCircle_sound {m : Machine} (wf : WellFormed m) {n : Nat} {rank : Vid → Nat} (hn : ∀ v, n ≤ v → m.vert v = none)
    (h : okCircle m n rank = true) : NoCompletionCircle m := by
  refine ⟨rank, fun v l x t u w hd hp hc ht hl hw => ?_⟩
  have hlt : v < n := by
    rcases Nat.lt_or_ge v n with h | h
    · exact h
    · have := hn v h
      rcases hd with ⟨p, h⟩ | ⟨p, tbl, h, _⟩ <;> rw [this] at h <;> cases h
  have h := List.all_eq_true.1 h v (List.mem_range.2 hlt)
  rw [dueB_of hd] at h
  cases hpo : pathOf m n v with
  | none => simp [hpo] at h
  | some l' =>
    simp only [hpo, Bool.not_true, Bool.false_or] at h
    have := (pathOf_sound hpo).unique hp
    subst this
    have h := List.all_eq_true.1 h _ hc
    simp only [ht, Bool.and_eq_true] at h
    have hw' := lands_closed wf hn (S := landClosure m n n [u]) (fun x hx y hy => by
      have := List.all_eq_true.1 (List.all_eq_true.1 h.1 x hx) y hy
      simpa using this) hl (landClosure_mem (by simp))
    have := List.all_eq_true.1 h.2 w hw'
    simpa [dueB_of hw] using this

/-- `Exhaustive` for a machine with vertices `0 … n - 1`, given the lengths. -/
def okExhaustive (m : Machine) (n : Nat) (len : Vid → Nat) : Bool :=
  (List.range n).all fun v =>
    ((m.trtbl v).getD []).all (fun t => match t.target with | some w => decide (1 + len w ≤ m.maxSegs) | none => true) &&
    match m.vert v with
    | some (.cond tbl) => (branches tbl).any (fun t => t.guard == some .els) &&
        (branches tbl).all fun t => match t.target with | some w => decide (1 + len w ≤ len v) | none => true
    | some (.choice tbl) => (branches tbl).any (fun t => t.guard == some .els) &&
        (branches tbl).all fun t => match t.target with | some w => decide (1 + len w ≤ m.maxSegs) | none => true
    | some (.hist _ _ trn) => match trn.target with
      | some w => (trn.guard == none || trn.guard == some .els) && decide (1 + len w ≤ len v)
      | none => true
    | some (.composite _ _ d _ _) => decide (1 + len d ≤ m.maxSegs)
    | _ => true

theorem okExhaustive_sound {m : Machine} {n : Nat} {len : Vid → Nat} (hn : ∀ v, n ≤ v → m.vert v = none)
    (h : okExhaustive m n len = true) : Exhaustive m := by
  have lt : ∀ v x, m.vert v = some x → v < n := by
    intro v x hx
    rcases Nat.lt_or_ge v n with h | h
    · exact h
    · rw [hn v h] at hx; simp at hx
  have h : ∀ v x, m.vert v = some x → _ := fun v x hx => List.all_eq_true.1 h v (List.mem_range.2 (lt v x hx))
  simp only [Bool.and_eq_true] at h
  refine ⟨?_, ?_, ?_, len, ?_, ?_, ?_, ?_, ?_⟩
  · intro v tbl hv
    have h := (h v _ hv).2
    simp only [hv, Bool.and_eq_true, List.any_eq_true, beq_iff_eq] at h
    exact h.1
  · intro v tbl hv
    have h := (h v _ hv).2
    simp only [hv, Bool.and_eq_true, List.any_eq_true, beq_iff_eq] at h
    exact h.1
  · intro v d p trn w hv ht
    have h := (h v _ hv).2
    simp only [hv, ht, Bool.and_eq_true, Bool.or_eq_true, beq_iff_eq] at h
    exact h.1
  · intro v tbl t w hv hb ht
    have h := (h v _ hv).2
    simp only [hv, Bool.and_eq_true] at h
    have := List.all_eq_true.1 h.2 t hb
    simpa [ht] using this
  · intro v tbl t w hv hb ht
    have h := (h v _ hv).2
    simp only [hv, Bool.and_eq_true] at h
    have := List.all_eq_true.1 h.2 t hb
    simpa [ht] using this
  · intro v d p trn w hv ht
    have h := (h v _ hv).2
    simp only [hv, ht, Bool.and_eq_true, decide_eq_true_eq] at h
    exact h.2
  · intro v tbl t w hv hb ht
    have hx : ∃ x, m.vert v = some x := by
      cases hx : m.vert v with
      | none => simp [Machine.trtbl, hx] at hv
      | some x => exact ⟨x, rfl⟩
    obtain ⟨x, hx⟩ := hx
    have h := (h v _ hx).1
    rw [hv] at h
    have := List.all_eq_true.1 h t ((List.takeWhile_prefix _).subset hb)
    simpa [ht] using this
  · intro c p tbl d i k hc
    have h := (h c _ hc).2
    simpa [hc] using h

/-- The last rule of `ExhaustiveFor` for a machine with vertices `0 … n - 1`, given the lengths. -/
def okEffects (m : Machine) (n : Nat) (len : Vid → Nat) : Bool :=
  (List.range n).all fun v =>
    ((m.trtbl v).getD []).all (fun t => match t.target with | some w => decide (1 + len w ≤ m.maxSegs) | none => true) &&
    match m.vert v with
    | some (.cond tbl) => (branches tbl).all fun t => match t.target with | some w => decide (1 + len w ≤ len v) | none => true
    | some (.choice tbl) => (branches tbl).all fun t => match t.target with | some w => decide (1 + len w ≤ m.maxSegs) | none => true
    | some (.hist _ _ trn) => match trn.target with
      | some w => decide (1 + len w ≤ len v)
      | none => true
    | some (.composite _ _ d _ _) => decide (1 + len d ≤ m.maxSegs)
    | _ => true

theorem okEffects_sound {m : Machine} {n : Nat} {len : Vid → Nat} (hn : ∀ v, n ≤ v → m.vert v = none)
    (h : okEffects m n len = true) :
    (∀ v tbl t w, m.vert v = some (.cond tbl) → t ∈ branches tbl → t.target = some w → 1 + len w ≤ len v) ∧
    (∀ v tbl t w, m.vert v = some (.choice tbl) → t ∈ branches tbl → t.target = some w → 1 + len w ≤ m.maxSegs) ∧
    (∀ v d p trn w, m.vert v = some (.hist d p trn) → trn.target = some w → 1 + len w ≤ len v) ∧
    (∀ v tbl t w, m.trtbl v = some tbl → t ∈ rows tbl → t.target = some w → 1 + len w ≤ m.maxSegs) ∧
    (∀ c p tbl d i h, m.vert c = some (.composite p tbl d i h) → 1 + len d ≤ m.maxSegs) := by
  have lt : ∀ v x, m.vert v = some x → v < n := by
    intro v x hx
    rcases Nat.lt_or_ge v n with h | h
    · exact h
    · rw [hn v h] at hx; simp at hx
  have h : ∀ v x, m.vert v = some x → _ := fun v x hx => List.all_eq_true.1 h v (List.mem_range.2 (lt v x hx))
  simp only [Bool.and_eq_true] at h
  refine ⟨?_, ?_, ?_, ?_, ?_⟩
  · intro v tbl t w hv hb ht
    have h := (h v _ hv).2
    simp only [hv] at h
    have := List.all_eq_true.1 h t hb
    simpa [ht] using this
  · intro v tbl t w hv hb ht
    have h := (h v _ hv).2
    simp only [hv] at h
    have := List.all_eq_true.1 h t hb
    simpa [ht] using this
  · intro v d p trn w hv ht
    have h := (h v _ hv).2
    simpa [hv, ht] using h
  · intro v tbl t w hv hb ht
    have hx : ∃ x, m.vert v = some x := by
      cases hx : m.vert v with
      | none => simp [Machine.trtbl, hx] at hv
      | some x => exact ⟨x, rfl⟩
    obtain ⟨x, hx⟩ := hx
    have h := (h v _ hx).1
    rw [hv] at h
    have := List.all_eq_true.1 h t ((List.takeWhile_prefix _).subset hb)
    simpa [ht] using this
  · intro c p tbl d i k hc
    have h := (h c _ hc).2
    simpa [hc] using h

end Verif.SM

namespace Verif.SM.DesignDemo
open Verif.SM Eng Spec Demo

/-- The demo machine (`Demo.m`) with an else branch in every choice and conditional. -/
def vertices : List Vertex := [
  .composite none [tr 1 none (some 10) (some 3)] 1 (some 20) none,
  .basic (some 0) A1,
  .basic (some 0) [tr sigCompletion (some (.fn 1)) none (some 1)],
  .composite none [tr 3 none (some 17) (some 0)] 4 none (some 7),
  .basic (some 3) [tr 7 none none (some 5)],
  .composite (some 3) [tr sigCompletion none (some 50) (some 9)] 6 none (some 8),
  .basic (some 5) [tr 8 none none (some 11), tr 1 none none (some 4)],
  .hist false (some 3) (tr 0 none none none),
  .hist true (some 5) (tr 0 none (some 18) (some 6)),
  .choice [tr 0 none none (some 4), tr 0 (some (.fn 2)) (some 21) (some 2), tr 0 (some .els) none (some 4)],
  .cond [tr 0 (some (.fn 3)) (some 22) (some 5), tr 0 (some .els) (some 23) (some 0)],
  .final (some 5)]

def m : Machine := ofList vertices 0 (some 40) 4 3 false

theorem wf : WellFormed m := (ofList_sound (by decide +kernel)).1
theorem lim : Limits m := (ofList_sound (by decide +kernel)).2
theorem acyclic : Acyclic m :=
  okAcyclic_sound (n := 12) (rank := fun v => if v = 8 ∨ v = 9 ∨ v = 10 then 1 else 0)
    (fun v hv => List.getElem?_eq_none hv) (by decide +kernel)
theorem exhaustive : Exhaustive m :=
  okExhaustive_sound (n := 12) (len := fun v => if v = 8 ∨ v = 10 then 1 else 0) (fun v hv => List.getElem?_eq_none hv) (by decide +kernel)
/-- The final state of D completes D, whose completion transition may lead to A2, which completes to A1. -/
theorem noCircle : NoCompletionCircle m :=
  okCircle_sound wf (n := 12) (rank := fun v => if v = 11 then 1 else 0) (fun v hv => List.getElem?_eq_none hv) (by decide +kernel)

def env : Env := Demo.env

theorem started : ∃ s, Reached m env s ∧ s.state = some 1 := by
  refine ⟨(init m env 50 (mem0 m)).1, (complete_design_starts wf lim exhaustive (f := 50) (r := .ok ()) ?_ (by simp)).2, ?_⟩
  · exact Prod.ext rfl (by decide +kernel)
  · decide +kernel

-- complete_design_never_fails, no_circles_dispatch_ends, no_circles_init_ends: in A1 event 5 leads to D1, event 8 then to D's final
-- state, from there completion events lead to A2 and the machine does not stop half-way
example : ∃ s n s' r, Reached m env s ∧ s.state = some 1 ∧ (∀ f, n ≤ f → dispatch m env f 5 s = (s', r)) ∧
    (r = .ok () ∨ r = .stop (.rc .evtNFound)) ∧ Reached m env s' := by
  obtain ⟨s, hs, h1⟩ := started
  obtain ⟨n, s', r, hr, hn⟩ := no_circles_dispatch_ends wf lim acyclic noCircle hs (e := 5) (by decide)
  obtain ⟨h2, h3⟩ := complete_design_never_fails wf lim exhaustive hs (by decide) (hn n (Nat.le_refl _)) hr
  exact ⟨s, n, s', r, hs, h1, hn, h2, h3⟩

example : (dispatch m env 90 8 (dispatch m env 90 5 (init m env 50 (mem0 m)).1).1).1.state = some 2 ∧
    Obs.stable 11 ∈ (dispatch m env 90 8 (dispatch m env 90 5 (init m env 50 (mem0 m)).1).1).1.log ∧
    (dispatch m env 90 8 (dispatch m env 90 5 (init m env 50 (mem0 m)).1).1).2 = .stop (.rc .evtNFound) := by decide +kernel

example : ∃ n s' r, r ≠ .stop .fuel ∧ ∀ f, n ≤ f → init m env f (mem0 m) = (s', r) := no_circles_init_ends wf lim acyclic noCircle

-- the rules are needed: without an else branch a dispatch can fail half-way (`Findings`), with completion transitions in a circle it
-- never returns
example : ¬ NoCompletionCircle Findings.completionLoop := fun h => by
  obtain ⟨s, hs, hf⟩ := Findings.completion_loop_never_returns (fun _ _ _ => true)
  obtain ⟨n, s', r, hr, hn⟩ := no_circles_dispatch_ends Findings.completionLoop_wf.1 Findings.completionLoop_wf.2
    Findings.completionLoop_acyclic h hs (e := 2) (by decide)
  have := hf n
  rw [hn n (Nat.le_refl _)] at this
  exact hr this

end Verif.SM.DesignDemo
