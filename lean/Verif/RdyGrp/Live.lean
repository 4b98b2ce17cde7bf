import Verif.RdyGrp.Props
/-
Properties C183 and C184: a traverse whose callback changes the group being traversed. With polymorphic active objects (RKH_CFG_SMA_VFUNCT_EN) the callback
`publish` (rkhfwk_pubsub.c:163-175) calls functions of the application, which may subscribe and unsubscribe.
-/
namespace Verif.RdyGrp
open Verif

/-! ### Model -/

/-- Outer loop of `rkh_rdygrp_traverse` (rkhfwk_rdygrp.c:127-139) when the callback may change the group: `get s` is the group in state `s`, and
`column = *pTbl` (rkhfwk_rdygrp.c:129) reads the row when its turn comes. First argument: rows left. -/
def liveRows {S : Type} (get : S → Grp) (cb : S → Nat → Res S) : Nat → Nat → S → Nat → Res (S × Nat)
  | 0, _, s, n => .ok (s, n)
  | k + 1, row, s, n =>
    (ix (get s).tbl row).bind fun column => (colLoop cb row column 0 s n).bind fun r => liveRows get cb k (row + 1) r.1 r.2

/-- `rkh_rdygrp_traverse` (rkhfwk_rdygrp.c:118-142) when the callback may change the group. `me->grp` is read once, at the beginning. -/
def liveTraverse {S : Type} (maxSma : Nat) (get : S → Grp) (cb : S → Nat → Res S) (s : S) : Res (S × Nat) :=
  if (get s).grp ≠ 0#8 then liveRows get cb (numRows maxSma) 0 s 0 else .ok (s, 0)

/-- A callback that, for a priority `p`, makes calls on the group and changes the caller's state: state is the group and the rest. -/
def callsCb {T : Type} (en : Bool) (maxSma : Nat) (cb : T → Nat → List Op × T) (s : Grp × T) (p : Nat) : Res (Grp × T) :=
  (runOps (step en maxSma) s.1 (cb s.2 p).1).2.map' fun g => (g, (cb s.2 p).2)

/-! ### Specification -/

/-- What has happened so far: the calls made on the group, the caller's state, and the priorities presented. -/
structure Now (T : Type) where
  ops : List Op
  st : T
  seen : List Nat

variable {T : Type}

/-- `p` is presented to the callback. -/
def visit (cb : T → Nat → List Op × T) (x : Now T) (p : Nat) : Now T := ⟨x.ops ++ (cb x.st p).1, (cb x.st p).2, x.seen ++ [p]⟩

/-- What one would expect: each priority is presented if it is a member when its turn comes. -/
def byTurn (cb : T → Nat → List Op × T) (maxSma : Nat) (x : Now T) : Now T :=
  (List.range maxSma).foldl (fun x p => if memberAfter x.ops p = true then visit cb x p else x) x

/-- What happens: in each group of eight priorities those are presented that are members when the group of eight is begun. -/
def byRow (cb : T → Nat → List Op × T) : Nat → Nat → Now T → Now T
  | 0, _, x => x
  | k + 1, row, x => byRow cb k (row + 1) (((List.range' (8 * row) 8).filter (memberAfter x.ops)).foldl (visit cb) x)

/-! ### Lemmas -/

theorem colBits_eq {g : Grp} {row : Nat} {c : BitVec 8} (h : g.tbl[row]? = some c) :
    colBits row c 0 8 = (List.range' (8 * row) 8).filter (bit g) := by
  have e : List.range' (8 * row) 8 = (List.range' 0 8).map (8 * row + ·) := by
    rw [List.map_add_range']; simp
  rw [e, List.filter_map]
  simp only [colBits]
  congr 1
  apply List.filter_congr
  intro b hb
  simp only [List.mem_range'_1] at hb
  simp only [Function.comp_apply, bit, show (8 * row + b) / 8 = row by omega, show (8 * row + b) % 8 = b by omega, h, Nat.sub_zero]

/-- Visiting a list of priorities through the code's callback. -/
theorem fold_visit {en : Bool} {maxSma : Nat} (hm : maxSma ≤ 64) {cb : T → Nat → List Op × T} (hcb : ∀ t p, InRange maxSma (cb t p).1) :
    ∀ (l : List Nat) (x : Now T) (g : Grp), InRange maxSma x.ops → Reached en maxSma x.ops g →
      ∃ g', foldRes (callsCb en maxSma cb) (g, x.st) l = .ok (g', (l.foldl (visit cb) x).st) ∧
        InRange maxSma (l.foldl (visit cb) x).ops ∧ Reached en maxSma (l.foldl (visit cb) x).ops g' := by
  intro l
  induction l with
  | nil => intro x g hr hg; exact ⟨g, rfl, hr, hg⟩
  | cons p l ih =>
    intro x g hr hg
    have hr' : InRange maxSma (x.ops ++ (cb x.st p).1) := by
      intro o ho
      rcases List.mem_append.mp ho with h | h
      · exact hr o h
      · exact hcb _ _ o h
    obtain ⟨g1, h1, _, _⟩ := reached_inv (en := en) hm _ hr'
    have h2 : (runOps (step en maxSma) g (cb x.st p).1).2 = .ok g1 := by
      unfold Reached at h1 hg
      rw [← (runOps_append_ok (f := step en maxSma) x.ops (cb x.st p).1 (init maxSma) g hg).2]
      exact h1
    obtain ⟨g', h3, h4, h5⟩ := ih (visit cb x p) g1 hr' h1
    refine ⟨g', ?_, h4, h5⟩
    simp only [foldRes, callsCb, h2, Res.map', Res.bind]
    exact h3

theorem seen_length {cb : T → Nat → List Op × T} : ∀ (l : List Nat) (x : Now T), (l.foldl (visit cb) x).seen = x.seen ++ l := by
  intro l
  induction l with
  | nil => intro x; simp
  | cons p l ih => intro x; simp only [List.foldl_cons]; rw [ih]; simp [visit]

theorem live_rows {en : Bool} {maxSma : Nat} (hm : maxSma ≤ 64) {cb : T → Nat → List Op × T} (hcb : ∀ t p, InRange maxSma (cb t p).1) :
    ∀ (k row : Nat) (x : Now T) (g : Grp) (n : Nat), row + k = numRows maxSma → InRange maxSma x.ops → Reached en maxSma x.ops g → x.seen.length = n →
      n ≤ 8 * row →
      ∃ g', liveRows (S := Grp × T) Prod.fst (callsCb en maxSma cb) k row (g, x.st) n =
          .ok ((g', (byRow cb k row x).st), (byRow cb k row x).seen.length) ∧ Reached en maxSma (byRow cb k row x).ops g' := by
  intro k
  induction k with
  | zero => intro row x g n _ _ hg hn _; subst hn; exact ⟨g, rfl, hg⟩
  | succ k ih =>
    intro row x g n hk hr hg hn hle
    have hrl := rows_le maxSma
    obtain ⟨g1, hg1, hinv, hb⟩ := reached_inv (en := en) hm x.ops hr
    have : g1 = g := by unfold Reached at hg hg1; rw [hg] at hg1; cases hg1; rfl
    subst this
    have hlt : row < g1.tbl.length := by rw [hinv.len]; omega
    have hc : g1.tbl[row]? = some g1.tbl[row] := List.getElem?_eq_getElem hlt
    have hbits : colBits row g1.tbl[row] 0 8 = (List.range' (8 * row) 8).filter (memberAfter x.ops) := by
      rw [colBits_eq hc]
      exact List.filter_congr fun p _ => hb p
    have hlen : (colBits row g1.tbl[row] 0 8).length ≤ 8 := by
      rw [hbits]
      have := List.length_filter_le (memberAfter x.ops) (List.range' (8 * row) 8)
      simpa using this
    obtain ⟨g2, h2, h3, h4⟩ := fold_visit (en := en) hm hcb ((List.range' (8 * row) 8).filter (memberAfter x.ops)) x g1 hr hg
    obtain ⟨g', h5, h6⟩ := ih (row + 1) (((List.range' (8 * row) 8).filter (memberAfter x.ops)).foldl (visit cb) x) g2 (n + (colBits row g1.tbl[row] 0 8).length)
      (by omega) h3 h4 (by rw [seen_length, List.length_append, hn, hbits]) (by omega)
    refine ⟨g', ?_, h6⟩
    simp only [liveRows, ix, hc, Res.bind]
    rw [colLoop_eq _ row 8 0 rfl _ _ n (by omega), hbits, h2]
    simp only [Res.map']
    rw [← congrArg List.length hbits, Nat.mod_eq_of_lt (by omega), h5]
    rfl

/-! ### C183 -/

/-- **C183.** For every history of the group, every callback that makes any configured `setReady` and `setUnready` calls on the group it is called for, and
every state of the caller: the traverse goes through, presents in each group of eight priorities exactly those that are members when the traverse begins that
group, in ascending order, leaves the group as all the calls leave it, and returns the number of priorities presented. -/
theorem live_traverse_exact (en : Bool) (maxSma : Nat) (hm : maxSma ≤ 64) (ops : List Op) (hr : InRange maxSma ops) (g : Grp)
    (hg : Reached en maxSma ops g) (cb : T → Nat → List Op × T) (hcb : ∀ t p, InRange maxSma (cb t p).1) (t : T) :
    ∃ g', liveTraverse maxSma Prod.fst (callsCb en maxSma cb) (g, t) =
        .ok ((g', (byRow cb (numRows maxSma) 0 ⟨ops, t, []⟩).st), (byRow cb (numRows maxSma) 0 ⟨ops, t, []⟩).seen.length) ∧
      Reached en maxSma (byRow cb (numRows maxSma) 0 ⟨ops, t, []⟩).ops g' := by
  unfold liveTraverse
  by_cases hz : g.grp = 0#8
  · rw [if_neg (by simpa using hz)]
    obtain ⟨g1, hg1, hinv, hb⟩ := reached_inv (en := en) hm ops hr
    have : g1 = g := by unfold Reached at hg hg1; rw [hg] at hg1; cases hg1; rfl
    subst this
    have hno : ∀ p, memberAfter ops p = false := by
      intro p
      have hne : ¬ isReady g1 = true := by simp [isReady, hz]
      rw [isReady_iff hinv] at hne
      cases h : memberAfter ops p with
      | false => rfl
      | true => exact absurd ⟨p, by rw [hb]; exact h⟩ hne
    have key : ∀ k row, byRow cb k row ⟨ops, t, []⟩ = ⟨ops, t, []⟩ := by
      intro k
      induction k with
      | zero => intro row; rfl
      | succ k ih =>
        intro row
        simp only [byRow]
        rw [List.filter_eq_nil_iff.mpr (by intro p _; rw [hno p]; simp)]
        exact ih (row + 1)
    rw [key]
    exact ⟨g1, rfl, hg⟩
  · rw [if_pos (by simpa using hz)]
    exact live_rows hm hcb _ 0 ⟨ops, t, []⟩ g 0 (by omega) hr hg rfl (by omega)

theorem seen_mono {cb : T → Nat → List Op × T} {p : Nat} : ∀ (k row : Nat) (x : Now T), p ∈ x.seen → p ∈ (byRow cb k row x).seen := by
  intro k
  induction k with
  | zero => intro row x h; exact h
  | succ k ih =>
    intro row x h
    refine ih _ _ ?_
    rw [seen_length]
    exact List.mem_append_left _ h

theorem seen_rows {cb : T → Nat → List Op × T} {p : Nat} : ∀ (k row : Nat) (x : Now T), p < 8 * row → (p ∈ (byRow cb k row x).seen ↔ p ∈ x.seen) := by
  intro k
  induction k with
  | zero => intro row x _; rfl
  | succ k ih =>
    intro row x h
    simp only [byRow]
    rw [ih _ _ (by omega), seen_length, List.mem_append]
    constructor
    · rintro (h1 | h1)
      · exact h1
      · have := (List.mem_filter.mp h1).1
        rw [List.mem_range'_1] at this
        omega
    · exact Or.inl

/-- The state of the traverse when it begins the `r`-th group of eight. -/
def atRow (cb : T → Nat → List Op × T) (r : Nat) (x : Now T) : Now T := byRow cb r 0 x

theorem byRow_add {cb : T → Nat → List Op × T} : ∀ (j k row : Nat) (x : Now T), byRow cb (j + k) row x = byRow cb k (row + j) (byRow cb j row x) := by
  intro j
  induction j with
  | zero => intro k row x; simp [byRow]
  | succ j ih =>
    intro k row x
    rw [show j + 1 + k = (j + k) + 1 by omega]
    simp only [byRow]
    rw [ih, show row + 1 + j = row + (j + 1) by omega]

theorem seen_below {cb : T → Nat → List Op × T} {p : Nat} : ∀ (k row : Nat) (x : Now T), (∀ q ∈ x.seen, q < 8 * row) →
    p ∈ (byRow cb k row x).seen → p < 8 * (row + k) := by
  intro k
  induction k with
  | zero => intro row x h hp; simpa using h p hp
  | succ k ih =>
    intro row x h hp
    have := ih (row + 1) _ ?_ hp
    · omega
    · intro q hq
      rw [seen_length, List.mem_append] at hq
      rcases hq with hq | hq
      · have := h q hq; omega
      · have := (List.mem_filter.mp hq).1
        rw [List.mem_range'_1] at this
        omega

/-- **C183 (who is presented).** A configured priority is presented exactly if it is a member when the traverse begins its group of eight. -/
theorem presented_iff_member_when_row_begins (maxSma : Nat) (hm : maxSma ≤ 64) (ops : List Op) (cb : T → Nat → List Op × T) (t : T) (p : Nat) (hp : p < maxSma) :
    p ∈ (byRow cb (numRows maxSma) 0 ⟨ops, t, []⟩).seen ↔ memberAfter (atRow cb (p / 8) ⟨ops, t, []⟩).ops p = true := by
  have hrow := rows_enough hp hm
  obtain ⟨k, hk⟩ : ∃ k, numRows maxSma = p / 8 + (k + 1) := ⟨numRows maxSma - p / 8 - 1, by omega⟩
  rw [hk, byRow_add, Nat.zero_add]
  simp only [byRow]
  rw [seen_rows _ _ _ (by omega), seen_length, List.mem_append, atRow]
  constructor
  · rintro (h | h)
    · have := seen_below (p / 8) 0 _ (by simp) h
      omega
    · exact (List.mem_filter.mp h).2
  · intro h
    exact Or.inr (List.mem_filter.mpr ⟨by rw [List.mem_range'_1]; omega, h⟩)

/-! ### C184 -/

theorem member_unchanged {ops more : List Op} {q : Nat} (h : ∀ o ∈ more, o.prio ≠ q) : memberAfter (ops ++ more) q = memberAfter ops q := by
  have : more.reverse.find? (fun o => o.prio == q) = none := by
    rw [List.find?_eq_none]
    intro o ho
    simpa using h o (List.mem_reverse.mp ho)
  simp only [memberAfter, List.reverse_append, List.find?_append, this, Option.none_or]

theorem row_by_turn {cb : T → Nat → List Op × T} {row : Nat} (hc : ∀ t p, ∀ o ∈ (cb t p).1, o.prio ≤ p ∨ o.prio / 8 ≠ p / 8) {m : Nat → Bool} :
    ∀ (l : List Nat) (x : Now T), l.Pairwise (· < ·) → (∀ q ∈ l, q / 8 = row) → (∀ q ∈ l, m q = memberAfter x.ops q) →
      (l.filter m).foldl (visit cb) x = l.foldl (fun x p => if memberAfter x.ops p = true then visit cb x p else x) x := by
  intro l
  induction l with
  | nil => intro x _ _ _; rfl
  | cons p l ih =>
    intro x hs hrow hmem
    rw [List.pairwise_cons] at hs
    have hp := hmem p (by simp)
    simp only [List.foldl_cons]
    rw [← hp]
    cases h : m p with
    | false =>
      rw [List.filter_cons_of_neg (by simp [h])]
      exact ih x hs.2 (fun q hq => hrow q (by simp [hq])) (fun q hq => hmem q (by simp [hq]))
    | true =>
      rw [List.filter_cons_of_pos h, List.foldl_cons]
      refine ih (visit cb x p) hs.2 (fun q hq => hrow q (by simp [hq])) (fun q hq => ?_)
      rw [hmem q (by simp [hq])]
      refine (member_unchanged fun o ho e => ?_).symm
      have h1 := hs.1 q hq
      have h2 := hrow q (by simp [hq])
      have h3 := hrow p (by simp)
      rcases hc x.st p o ho with h4 | h4
      · omega
      · exact h4 (by rw [e, h2, h3])

theorem rows_by_turn {cb : T → Nat → List Op × T} (hc : ∀ t p, ∀ o ∈ (cb t p).1, o.prio ≤ p ∨ o.prio / 8 ≠ p / 8) : ∀ (k row : Nat) (x : Now T),
    byRow cb k row x = (List.range' (8 * row) (8 * k)).foldl (fun x p => if memberAfter x.ops p = true then visit cb x p else x) x := by
  intro k
  induction k with
  | zero => intro row x; rfl
  | succ k ih =>
    intro row x
    have e : List.range' (8 * row) (8 * (k + 1)) = List.range' (8 * row) 8 ++ List.range' (8 * (row + 1)) (8 * k) := by
      have := List.range'_append (s := 8 * row) (m := 8) (n := 8 * k) (step := 1)
      rw [show 8 * row + 1 * 8 = 8 * (row + 1) by omega, show 8 + 8 * k = 8 * (k + 1) by omega] at this
      exact this.symm
    rw [e, List.foldl_append]
    simp only [byRow]
    rw [ih, row_by_turn (row := row) hc _ x List.pairwise_lt_range' (fun q hq => by rw [List.mem_range'_1] at hq; omega) (fun _ _ => rfl)]

theorem range_turn {cb : T → Nat → List Op × T} {maxSma : Nat} (hcb : ∀ t p, InRange maxSma (cb t p).1) : ∀ (l : List Nat) (x : Now T), InRange maxSma x.ops →
    InRange maxSma (l.foldl (fun x p => if memberAfter x.ops p = true then visit cb x p else x) x).ops := by
  intro l
  induction l with
  | nil => intro x h; exact h
  | cons p l ih =>
    intro x h
    simp only [List.foldl_cons]
    refine ih _ ?_
    split
    · intro o ho
      rcases List.mem_append.mp ho with h1 | h1
      · exact h o h1
      · exact hcb _ _ o h1
    · exact h

theorem not_member {maxSma p : Nat} {ops : List Op} (h : InRange maxSma ops) (hp : maxSma ≤ p) : memberAfter ops p = false := by
  have : ops.reverse.find? (fun o => o.prio == p) = none := by
    rw [List.find?_eq_none]
    intro o ho
    have := h o (List.mem_reverse.mp ho)
    simp; omega
  simp [memberAfter, this]

theorem tail_turn {cb : T → Nat → List Op × T} {maxSma : Nat} : ∀ (l : List Nat) (x : Now T), InRange maxSma x.ops → (∀ p ∈ l, maxSma ≤ p) →
    l.foldl (fun x p => if memberAfter x.ops p = true then visit cb x p else x) x = x := by
  intro l
  induction l with
  | nil => intro x _ _; rfl
  | cons p l ih =>
    intro x h hl
    simp only [List.foldl_cons]
    rw [if_neg (by rw [not_member h (hl p (by simp))]; simp)]
    exact ih x h fun q hq => hl q (by simp [hq])

/-- **C184, the part that holds.** If the calls made for a priority concern only that priority, priorities already passed, or other groups of eight (an object
may always withdraw itself), each priority is presented exactly if it is a member when its turn comes. Missing: calls that concern a priority still to come
in the same group of eight; for these the claim is false (`withdrawn_is_still_served`). -/
theorem presented_by_turn_partial (en : Bool) (maxSma : Nat) (hm : maxSma ≤ 64) (ops : List Op) (hr : InRange maxSma ops) (g : Grp)
    (hg : Reached en maxSma ops g) (cb : T → Nat → List Op × T) (hcb : ∀ t p, InRange maxSma (cb t p).1)
    (hc : ∀ t p, ∀ o ∈ (cb t p).1, o.prio ≤ p ∨ o.prio / 8 ≠ p / 8) (t : T) :
    ∃ g', liveTraverse maxSma Prod.fst (callsCb en maxSma cb) (g, t) =
        .ok ((g', (byTurn cb maxSma ⟨ops, t, []⟩).st), (byTurn cb maxSma ⟨ops, t, []⟩).seen.length) ∧
      Reached en maxSma (byTurn cb maxSma ⟨ops, t, []⟩).ops g' := by
  have e : byRow cb (numRows maxSma) 0 ⟨ops, t, []⟩ = byTurn cb maxSma ⟨ops, t, []⟩ := by
    have hle : maxSma ≤ 8 * numRows maxSma := by
      unfold numRows; repeat' split
      all_goals omega
    obtain ⟨d, hd⟩ : ∃ d, 8 * numRows maxSma = maxSma + d := ⟨_, (Nat.add_sub_of_le hle).symm⟩
    rw [rows_by_turn hc, hd]
    have := List.range'_append (s := 0) (m := maxSma) (n := d) (step := 1)
    rw [Nat.mul_zero, ← this, List.foldl_append, byTurn, List.range_eq_range']
    exact tail_turn _ _ (range_turn hcb _ _ hr) fun p hp => by rw [List.mem_range'_1] at hp; omega
  rw [← e]
  exact live_traverse_exact en maxSma hm ops hr g hg cb hcb t

/-- In the specifications, two members `p < q` of the same group of eight: if the callback for `p` withdraws `q` (and no other call is made before), `q`
is presented although it is no longer a member when its turn comes. -/
theorem withdrawn_is_still_presented (maxSma : Nat) (hm : maxSma ≤ 64) (ops : List Op) (p q : Nat) (hpq : p < q) (hq : q < maxSma)
    (hrow : p / 8 = q / 8) (hmp : memberAfter ops p = true) (hmq : memberAfter ops q = true) {cb : T → Nat → List Op × T} (t : T)
    (hcb : ∀ t i, (cb t i).1 = if i = p then [.unready q] else []) :
    q ∈ (byRow cb (numRows maxSma) 0 ⟨ops, t, []⟩).seen ∧ q ∉ (byTurn cb maxSma ⟨ops, t, []⟩).seen := by
  have turn : ∀ (l : List Nat) (x : Now T), p ∉ l → (l.foldl (fun x p => if memberAfter x.ops p = true then visit cb x p else x) x).ops = x.ops ∧
      (q ∉ l ∨ memberAfter x.ops q = false → q ∉ x.seen → q ∉ (l.foldl (fun x p => if memberAfter x.ops p = true then visit cb x p else x) x).seen) := by
    intro l
    induction l with
    | nil => intro x _; exact ⟨rfl, fun _ h => h⟩
    | cons i l ih =>
      intro x h
      simp only [List.mem_cons, not_or] at h
      simp only [List.foldl_cons]
      by_cases hi : memberAfter x.ops i = true
      · rw [if_pos hi]
        have ho : (visit cb x i).ops = x.ops := by simp [visit, hcb, Ne.symm (show p ≠ i from h.1)]
        obtain ⟨h1, h2⟩ := ih (visit cb x i) h.2
        refine ⟨h1.trans ho, fun h3 h4 => h2 ?_ ?_⟩
        · rw [ho]
          exact h3.imp (fun h5 h6 => h5 (by simp [h6])) id
        · simp only [visit, List.mem_append, List.mem_singleton, not_or]
          refine ⟨h4, fun e => ?_⟩
          subst e
          rcases h3 with h3 | h3
          · exact h3 (by simp)
          · rw [h3] at hi; cases hi
      · rw [if_neg hi]
        obtain ⟨h1, h2⟩ := ih x h.2
        exact ⟨h1, fun h3 h4 => h2 (h3.imp (fun h5 h6 => h5 (by simp [h6])) id) h4⟩
  constructor
  · rw [presented_iff_member_when_row_begins maxSma hm ops cb t q hq]
    -- before the group of eight of `p` the callback makes no calls
    have key : ∀ (k row : Nat) (x : Now T), 8 * (row + k) ≤ p → (byRow cb k row x).ops = x.ops := by
      intro k
      induction k with
      | zero => intro row x _; rfl
      | succ k ih =>
        intro row x h
        simp only [byRow]
        rw [ih _ _ (by omega)]
        have : ∀ (l : List Nat) (x : Now T), p ∉ l → (l.foldl (visit cb) x).ops = x.ops := by
          intro l
          induction l with
          | nil => intro x _; rfl
          | cons i l ih =>
            intro x h
            simp only [List.mem_cons, not_or] at h
            simp only [List.foldl_cons]
            rw [ih _ h.2]
            simp [visit, hcb, Ne.symm (show p ≠ i from h.1)]
        refine this _ _ fun hx => ?_
        have := (List.mem_filter.mp hx).1
        rw [List.mem_range'_1] at this
        omega
    rw [atRow, key _ _ _ (by omega)]
    exact hmq
  · have e : List.range maxSma = List.range p ++ p :: List.range' (p + 1) (maxSma - p - 1) := by
      have h1 := List.range'_append (s := 0) (m := p) (n := maxSma - p) (step := 1)
      rw [show p + (maxSma - p) = maxSma by omega] at h1
      rw [List.range_eq_range', List.range_eq_range', ← h1, show maxSma - p = (maxSma - p - 1) + 1 by omega, List.range'_succ]
      simp
    unfold byTurn
    rw [e, List.foldl_append, List.foldl_cons]
    obtain ⟨h1, h2⟩ := turn (List.range p) ⟨ops, t, []⟩ (by simp)
    generalize (List.range p).foldl (fun x p => if memberAfter x.ops p = true then visit cb x p else x) (⟨ops, t, []⟩ : Now T) = x at h1 h2
    have h3 := h2 (.inl (by simp; omega)) (by simp)
    rw [h1, if_pos hmp]
    refine (turn _ (visit cb x p) (by rw [List.mem_range'_1]; omega)).2 (.inr ?_) ?_
    · simp only [visit, hcb, if_true, memberAfter, List.reverse_append, List.reverse_cons, List.reverse_nil, List.nil_append, List.singleton_append,
        List.find?_cons, Op.prio, beq_self_eq_true]
    · simp only [visit, List.mem_append, List.mem_singleton, not_or]
      exact ⟨h3, by omega⟩

/-- The callback also writes down the priorities presented to it. -/
def logged (cb : T → Nat → List Op × T) (t : T × List Nat) (p : Nat) : List Op × (T × List Nat) := ((cb t.1 p).1, (cb t.1 p).2, t.2 ++ [p])

theorem logged_seen {cb : T → Nat → List Op × T} : ∀ (k row : Nat) (x : Now (T × List Nat)), x.st.2 = x.seen →
    (byRow (logged cb) k row x).st.2 = (byRow (logged cb) k row x).seen := by
  intro k
  induction k with
  | zero => intro row x h; exact h
  | succ k ih =>
    intro row x h
    refine ih _ _ ?_
    generalize (List.range' (8 * row) 8).filter (memberAfter x.ops) = l
    clear ih
    induction l generalizing x with
    | nil => exact h
    | cons p l ih => exact ih (visit (logged cb) x p) (by simp [visit, logged, h])

/-- **C183 (who is served, in terms of the code).** The priorities that the callback of a traverse is called for, as it notes them itself: `p` is among them
exactly if it is a member after the calls made for the priorities served in the groups of eight before its own. -/
theorem served_iff (en : Bool) (maxSma : Nat) (hm : maxSma ≤ 64) (ops : List Op) (hr : InRange maxSma ops) (g : Grp) (hg : Reached en maxSma ops g)
    (cb : T → Nat → List Op × T) (hcb : ∀ t p, InRange maxSma (cb t p).1) (t : T) :
    ∃ g' t' l, liveTraverse maxSma Prod.fst (callsCb en maxSma (logged cb)) (g, t, []) = .ok ((g', t', l), l.length) ∧
      ∀ p < maxSma, p ∈ l ↔ memberAfter (atRow (logged cb) (p / 8) ⟨ops, (t, []), []⟩).ops p = true := by
  obtain ⟨g', h1, _⟩ := live_traverse_exact en maxSma hm ops hr g hg (logged cb) (fun t p => hcb t.1 p) (t, [])
  have hs := logged_seen (cb := cb) (numRows maxSma) 0 ⟨ops, (t, []), []⟩ rfl
  refine ⟨g', (byRow (logged cb) (numRows maxSma) 0 ⟨ops, (t, []), []⟩).st.1, (byRow (logged cb) (numRows maxSma) 0 ⟨ops, (t, []), []⟩).seen, ?_, fun p hp => ?_⟩
  · rw [h1, ← hs]
  · exact presented_iff_member_when_row_begins maxSma hm ops (logged cb) (t, []) p hp

/-- **C184 is false of the code.** Whenever two members `p < q` are in the same group of eight and the callback for `p` withdraws `q`, the traverse calls the
callback for `q`, although `q` is not a member any more, and it is not one after the traverse either. -/
theorem withdrawn_is_still_served (en : Bool) (maxSma : Nat) (hm : maxSma ≤ 64) (ops : List Op) (hr : InRange maxSma ops) (g : Grp) (hg : Reached en maxSma ops g)
    (p q : Nat) (hpq : p < q) (hq : q < maxSma) (hrow : p / 8 = q / 8) (hmp : memberAfter ops p = true) (hmq : memberAfter ops q = true) :
    ∃ g' l, liveTraverse maxSma Prod.fst (callsCb en maxSma fun (l : List Nat) i => (if i = p then [.unready q] else [], l ++ [i])) (g, []) = .ok ((g', l), l.length) ∧
      q ∈ l ∧ q ∉ (byTurn (fun (l : List Nat) i => (if i = p then [.unready q] else [], l ++ [i])) maxSma ⟨ops, [], []⟩).st := by
  -- the caller's state plays no role in the calls, and is the list of priorities presented
  have hst : ∀ (l : List Nat) (x : Now (List Nat)) (cb : List Nat → Nat → List Op × List Nat), (∀ t i, (cb t i).2 = t ++ [i]) → x.st = x.seen →
      (l.foldl (visit cb) x).st = (l.foldl (visit cb) x).seen := by
    intro l
    induction l with
    | nil => intro x cb _ h; exact h
    | cons i l ih => intro x cb hc h; exact ih (visit cb x i) cb hc (by simp [visit, hc, h])
  have hrows : ∀ (cb : List Nat → Nat → List Op × List Nat), (∀ t i, (cb t i).2 = t ++ [i]) → ∀ (k row : Nat) (x : Now (List Nat)), x.st = x.seen →
      (byRow cb k row x).st = (byRow cb k row x).seen := by
    intro cb hc k
    induction k with
    | zero => intro row x h; exact h
    | succ k ih => intro row x h; exact ih _ _ (hst _ _ _ hc h)
  have hturn : ∀ (cb : List Nat → Nat → List Op × List Nat), (∀ t i, (cb t i).2 = t ++ [i]) → ∀ (l : List Nat) (x : Now (List Nat)), x.st = x.seen →
      (l.foldl (fun x p => if memberAfter x.ops p = true then visit cb x p else x) x).st =
        (l.foldl (fun x p => if memberAfter x.ops p = true then visit cb x p else x) x).seen := by
    intro cb hc l
    induction l with
    | nil => intro x h; exact h
    | cons i l ih =>
      intro x h
      simp only [List.foldl_cons]
      refine ih _ ?_
      split
      · simp [visit, hc, h]
      · exact h
  generalize hcb : (fun (l : List Nat) i => ((if i = p then [Op.unready q] else [] : List Op), l ++ [i])) = cb
  have hc2 : ∀ t i, (cb t i).2 = t ++ [i] := by intro t i; rw [← hcb]
  have hc1 : ∀ t i, (cb t i).1 = if i = p then [.unready q] else [] := by intro t i; rw [← hcb]
  obtain ⟨g', h1, _⟩ := live_traverse_exact en maxSma hm ops hr g hg cb (by
    intro t i o ho
    rw [hc1] at ho
    split at ho
    · simp only [List.mem_singleton] at ho; subst ho; exact hq
    · cases ho) []
  refine ⟨g', (byRow cb (numRows maxSma) 0 ⟨ops, [], []⟩).seen, by rw [h1, hrows cb hc2 _ _ _ rfl], ?_, ?_⟩
  all_goals
    have key := withdrawn_is_still_presented (T := List Nat) maxSma hm ops p q hpq hq hrow hmp hmq (cb := cb) []
  · exact (key hc1).1
  · rw [byTurn, hturn cb hc2 _ _ rfl]
    exact (key hc1).2

/-- With a callback that leaves the group alone the two models of the traverse agree. -/
theorem live_eq_traverse {S : Type} {maxSma : Nat} {get : S → Grp} {cb : S → Nat → Res S} (hcb : ∀ s p s', cb s p = .ok s' → get s' = get s) (s : S)
    (hlen : (get s).tbl.length = numRows maxSma) : liveTraverse maxSma get cb s = traverse (get s) cb s := by
  have col : ∀ (k nBit : Nat) (hk : nBit + k = 8) (row : Nat) (c : BitVec 8) (s : S) (n : Nat) (r : S × Nat),
      colLoop cb row c nBit s n = .ok r → get r.1 = get s := by
    intro k
    induction k with
    | zero =>
      intro nBit hk row c s n r h
      unfold colLoop at h
      rw [if_neg (by omega)] at h
      cases h; rfl
    | succ k ih =>
      intro nBit hk row c s n r h
      unfold colLoop at h
      split at h
      · split at h
        · cases h1 : cb s ((row <<< 3) ||| nBit) with
          | ok s' =>
            rw [h1] at h
            rw [ih _ (by omega) _ _ _ _ _ h, hcb _ _ _ h1]
          | assert => rw [h1] at h; cases h
          | ub => rw [h1] at h; cases h
        · exact ih _ (by omega) _ _ _ _ _ h
      · cases h; rfl
  have rows : ∀ (k row : Nat) (s : S) (n : Nat), row + k = (get s).tbl.length → liveRows get cb k row s n = rowLoop cb row ((get s).tbl.drop row) s n := by
    intro k
    induction k with
    | zero =>
      intro row s n hk
      rw [List.drop_of_length_le (by omega)]
      rfl
    | succ k ih =>
      intro row s n hk
      have hlt : row < (get s).tbl.length := by omega
      rw [List.drop_eq_getElem_cons hlt]
      simp only [liveRows, rowLoop, ix, List.getElem?_eq_getElem hlt, Res.bind]
      cases h : colLoop cb row (get s).tbl[row] 0 s n with
      | ok r =>
        have := col 8 0 rfl _ _ _ _ _ h
        simp only
        rw [ih _ _ _ (by rw [this]; omega), this]
      | assert => rfl
      | ub => rfl
  unfold liveTraverse traverse
  split
  · rw [rows _ 0 s 0 (by omega)]; rfl
  · rfl

end Verif.RdyGrp

namespace Verif.RdyGrp.LiveDemo
open Verif

/-- Four members in two groups of eight. -/
def ops : List Op := [.ready 9, .ready 5, .ready 2, .ready 12]

/-- The callback for 2 withdraws 5 and 9 and adds 6 and 13; the one for 12 withdraws itself. -/
def cb (t : List Nat) (p : Nat) : List Op × List Nat :=
  (if p = 2 then [.unready 5, .unready 9, .ready 6, .ready 13] else if p = 12 then [.unready 12] else [], t ++ [p])

/-- C183: hypotheses met; 5 is still presented and 6 is not, 9 is no longer presented and 13 is. -/
example : InRange 16 ops ∧ (∀ p < 16, InRange 16 (cb [] p).1) ∧ ∃ g, Reached true 16 ops g ∧
    (liveTraverse 16 Prod.fst (callsCb true 16 cb) (g, [])).map' (fun r => (r.1.2, r.2)) = .ok ([2, 5, 12, 13], 4) :=
  ⟨by decide, by decide, _, rfl, by decide +kernel⟩

/-- C184: hypotheses of `presented_by_turn_partial` met by a callback that withdraws itself and changes the other group of eight. -/
def cb2 (t : List Nat) (p : Nat) : List Op × List Nat := (if p = 2 then [.unready 2, .unready 9, .ready 13] else [], t ++ [p])

example : (∀ t p, InRange 16 (cb2 t p).1) ∧ (∀ t p, ∀ o ∈ (cb2 t p).1, o.prio ≤ p ∨ o.prio / 8 ≠ p / 8) ∧
    (byTurn cb2 16 ⟨ops, [], []⟩).seen = [2, 5, 12, 13] := by
  refine ⟨?_, ?_, by decide +kernel⟩
  · intro t p; unfold cb2; split <;> simp [InRange, Op.prio]
  · intro t p; unfold cb2; split
    · rename_i h; subst h; simp [Op.prio]
    · simp

/-- C184: hypotheses of `withdrawn_is_still_presented`. -/
example : memberAfter ops 2 = true ∧ memberAfter ops 5 = true ∧ 2 / 8 = 5 / 8 := by decide

end Verif.RdyGrp.LiveDemo
