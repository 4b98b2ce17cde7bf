import Verif.RdyGrp.Lemmas
/-
Property theorems for the bit tables and the ready group (C11-C14).
-/
namespace Verif.RdyGrp
open Verif

/-! ### Specification: a set of priorities determined by the call history -/

/-- The priority a call names. -/
def Op.prio : Op → Nat
  | .ready p => p
  | .unready p => p

/-- The set after a history of calls: `p` is a member iff the last call naming `p` was `ready p`. -/
def memberAfter (ops : List Op) (p : Nat) : Bool :=
  match ops.reverse.find? (fun o => o.prio == p) with
  | some (.ready _) => true
  | _ => false

/-- The members below `maxSma`, ascending. -/
def membersAfter (maxSma : Nat) (ops : List Op) : List Nat := (List.range maxSma).filter (memberAfter ops)

/-- All calls name a configured priority. -/
def InRange (maxSma : Nat) (ops : List Op) : Prop := ∀ o ∈ ops, o.prio < maxSma

instance (maxSma : Nat) (ops : List Op) : Decidable (InRange maxSma ops) := by unfold InRange; infer_instance

/-- The group after a history of calls on an initialised group. -/
def Reached (en : Bool) (maxSma : Nat) (ops : List Op) (g : Grp) : Prop :=
  (runOps (step en maxSma) (init maxSma) ops).2 = .ok g

theorem reached_inv {en : Bool} {maxSma : Nat} (hm : maxSma ≤ 64) (ops : List Op) (hr : InRange maxSma ops) :
    ∃ g, Reached en maxSma ops g ∧ Inv maxSma g ∧ ∀ p, bit g p = memberAfter ops p := by
  suffices H : ∀ (n : Nat) (ops : List Op), ops.length = n → InRange maxSma ops →
      ∃ g, Reached en maxSma ops g ∧ Inv maxSma g ∧ ∀ p, bit g p = memberAfter ops p from H _ ops rfl hr
  intro n
  induction n with
  | zero =>
    intro ops hl _
    rw [List.length_eq_zero_iff] at hl
    subst hl
    exact ⟨init maxSma, rfl, inv_init maxSma, fun p => by rw [bit_init]; rfl⟩
  | succ n ih =>
    intro ops hl hr
    obtain ⟨ops', op, rfl⟩ : ∃ o p, ops = o ++ [p] :=
      ⟨ops.dropLast, ops.getLast (by intro h; simp [h] at hl), (List.dropLast_concat_getLast _).symm⟩
    obtain ⟨g, hg, hinv, hb⟩ := ih ops' (by simpa using hl) (fun o ho => hr o (by simp [ho]))
    have hp := hr op (by simp)
    unfold Reached at hg
    cases op with
    | ready p =>
      simp only [Op.prio] at hp
      obtain ⟨g', h1, h2, h3⟩ := setReady_ok (en := en) hm hinv hp
      refine ⟨g', by simp [Reached, runOps_snoc, hg, step, h1, Res.map'], h2, ?_⟩
      intro q
      rw [h3, hb]
      simp only [memberAfter, List.reverse_append, List.reverse_cons, List.reverse_nil, List.nil_append,
        List.singleton_append, List.find?_cons, Op.prio]
      by_cases hq : q = p
      · simp [hq]
      · simp [hq, show (p == q) = false by simpa using fun h => hq h.symm]
    | unready p =>
      simp only [Op.prio] at hp
      obtain ⟨g', h1, h2, h3⟩ := setUnready_ok (en := en) hm hinv hp
      refine ⟨g', by simp [Reached, runOps_snoc, hg, step, h1, Res.map'], h2, ?_⟩
      intro q
      rw [h3, hb]
      simp only [memberAfter, List.reverse_append, List.reverse_cons, List.reverse_nil, List.nil_append,
        List.singleton_append, List.find?_cons, Op.prio]
      by_cases hq : q = p
      · simp [hq]
      · simp [hq, show (p == q) = false by simpa using fun h => hq h.symm]

theorem members_eq {maxSma : Nat} {g : Grp} {ops : List Op} (h : Inv maxSma g) (hb : ∀ p, bit g p = memberAfter ops p) :
    rowBits 0 g.tbl = membersAfter maxSma ops := by
  have hs1 := sorted_rowBits 0 g.tbl
  have hs2 : (membersAfter maxSma ops).Pairwise (· < ·) := List.pairwise_lt_range.filter _
  have hmem : ∀ p, p ∈ rowBits 0 g.tbl ↔ p ∈ membersAfter maxSma ops := by
    intro p
    rw [bit_iff_mem, hb]
    simp only [membersAfter, List.mem_filter, List.mem_range]
    constructor
    · intro hp; exact ⟨h.range p (by rw [hb]; exact hp), hp⟩
    · exact fun hp => hp.2
  have hnd1 : (rowBits 0 g.tbl).Nodup := hs1.imp (fun h => Nat.ne_of_lt h)
  have hnd2 : (membersAfter maxSma ops).Nodup := hs2.imp (fun h => Nat.ne_of_lt h)
  have hperm : (rowBits 0 g.tbl).Perm (membersAfter maxSma ops) :=
    (List.perm_ext_iff_of_nodup hnd1 hnd2).mpr (fun p => hmem p)
  exact hperm.eq_of_pairwise (fun a b _ _ h1 h2 => by omega) hs1 hs2

theorem traverse_rows {S : Type} {maxSma : Nat} {g : Grp} (h : Inv maxSma g) (cb : S → Nat → Res S) (s : S) :
    traverse g cb s = (foldRes cb s (rowBits 0 g.tbl)).map' fun s' => (s', (rowBits 0 g.tbl).length % 256) := by
  unfold traverse
  by_cases hz : g.grp = 0#8
  · have hne : ¬ isReady g = true := by simp [isReady, hz]
    rw [isReady_iff h] at hne
    have hnil : rowBits 0 g.tbl = [] := by
      apply List.eq_nil_iff_forall_not_mem.mpr
      intro p hp
      exact hne ⟨p, (bit_iff_mem g p).mp hp⟩
    simp [hz, hnil, foldRes, Res.map']
  · rw [if_pos hz, rowLoop_eq cb 0 g.tbl s 0 (by omega)]
    simp

/-! ### C11 -/

/-- **C11 (least bit).** For every non-zero byte, `rkh_bittbl_getLeastBitSetPos` returns the index of its least
significant set bit. -/
theorem getLeastBitSetPos_correct (value : BitVec 8) (h : value ≠ 0#8) :
    ∃ n, getLeastBitSetPos value = .ok n ∧ value.getLsbD n = true ∧ ∀ m, m < n → value.getLsbD m = false := by
  obtain ⟨n, _, h1, h2, h3⟩ := leastBit_table value h
  exact ⟨n, h1, h2, h3⟩

/-- **C11 (mask).** For every position below 8, `rkh_bittbl_getBitMask` returns the byte with exactly that bit set; any
other position gives 0xFF. -/
theorem getBitMask_correct (pos : Nat) :
    (pos < 8 → ∃ b, getBitMask pos = .ok b ∧ ∀ i, i < 8 → (b.getLsbD i = true ↔ i = pos)) ∧
    (8 ≤ pos → getBitMask pos = .ok 0xFF#8) := by
  constructor
  · intro h
    refine ⟨1#8 <<< pos, mask_ok pos h, ?_⟩
    intro i hi
    rw [mask_bit pos i h hi]
    simp [eq_comm]
  · intro h
    simp [getBitMask, show ¬ pos < 8 by omega]

example : getLeastBitSetPos 0xB0#8 = .ok 4 ∧ getBitMask 5 = .ok 0x20#8 := by decide

/-! ### C12 -/

/-- The priorities a traverse presents to its callback, in order. -/
def visited (g : Grp) : Res (List Nat × Nat) := traverse g (fun l p => .ok (l ++ [p])) []

theorem foldRes_collect (l acc : List Nat) : foldRes (fun l p => .ok (l ++ [p])) acc l = .ok (acc ++ l) := by
  induction l generalizing acc with
  | nil => simp [foldRes]
  | cons p l ih => simp [foldRes, ih]

/-- **C12.** For every configured maximum up to 64 and every history of `setReady`/`setUnready` calls with configured
priorities: the calls never fail; a priority is presented by a traverse iff the last call naming it was `setReady`; and
the group reports ready iff some priority is a member. -/
theorem rdygrp_is_set (en : Bool) (maxSma : Nat) (hm : maxSma ≤ 64) (ops : List Op) (hr : InRange maxSma ops) :
    ∃ g l n, Reached en maxSma ops g ∧ visited g = .ok (l, n) ∧ (∀ p, p ∈ l ↔ memberAfter ops p = true) ∧
      (isReady g = true ↔ ∃ p, memberAfter ops p = true) := by
  obtain ⟨g, hg, hinv, hb⟩ := reached_inv (en := en) hm ops hr
  refine ⟨g, [] ++ rowBits 0 g.tbl, (rowBits 0 g.tbl).length % 256, hg, ?_, ?_, ?_⟩
  · unfold visited
    rw [traverse_rows hinv, foldRes_collect]
    rfl
  · intro p
    rw [List.nil_append, bit_iff_mem, hb]
  · rw [isReady_iff hinv]
    simp [hb]

/-- **C12 (independence).** A call naming one priority never changes the membership of another: what a traverse presents before and after
the call differs at most in the priority of the call. -/
theorem rdygrp_ops_independent (en : Bool) (maxSma : Nat) (hm : maxSma ≤ 64) (ops : List Op) (o : Op) (hr : InRange maxSma (ops ++ [o]))
    {g g' : Grp} (hg : Reached en maxSma ops g) (hg' : Reached en maxSma (ops ++ [o]) g') {l l' : List Nat} {n n' : Nat}
    (hv : visited g = .ok (l, n)) (hv' : visited g' = .ok (l', n')) (p : Nat) (h : p ≠ o.prio) : p ∈ l' ↔ p ∈ l := by
  obtain ⟨g1, l1, n1, h1, h2, h3, _⟩ := rdygrp_is_set en maxSma hm ops (fun q hq => hr q (by simp [hq]))
  obtain ⟨g2, l2, n2, k1, k2, k3, _⟩ := rdygrp_is_set en maxSma hm (ops ++ [o]) hr
  unfold Reached at hg hg' h1 k1
  rw [h1] at hg; rw [k1] at hg'
  cases hg; cases hg'
  rw [h2] at hv; rw [k2] at hv'
  cases hv; cases hv'
  rw [k3, h3]
  simp [memberAfter, show (o.prio == p) = false by simpa using fun e => h e.symm]

/-- **C12 (range check).** With assertions compiled in, a call naming a priority outside the configured range halts. -/
theorem rdygrp_rejects_out_of_range (maxSma : Nat) (g : Grp) (p : Nat) (hp : maxSma ≤ p) :
    setReady true maxSma g p = .assert ∧ setUnready true maxSma g p = .assert := by
  simp [setReady, setUnready, show ¬ p < maxSma by omega]

example : InRange 64 [.ready 63, .ready 7, .ready 8, .unready 63, .ready 0, .unready 7, .ready 41] ∧
    (∃ g, Reached true 64 [.ready 63, .ready 7, .ready 8, .unready 63, .ready 0, .unready 7, .ready 41] g ∧
      visited g = .ok ([0, 8, 41], 3)) := ⟨by decide, _, rfl, by decide +kernel⟩

/-! ### C13 -/

/-- **C13.** Whenever the set is not empty, `rkh_rdygrp_findHighest` returns its smallest member. -/
theorem findHighest_is_minimum (en : Bool) (maxSma : Nat) (hm : maxSma ≤ 64) (ops : List Op) (hr : InRange maxSma ops)
    (g : Grp) (hg : Reached en maxSma ops g) (hne : ∃ p, memberAfter ops p = true) :
    ∃ p, findHighest g = .ok p ∧ memberAfter ops p = true ∧ ∀ q, q < p → memberAfter ops q = false := by
  obtain ⟨g', hg', hinv, hb⟩ := reached_inv (en := en) hm ops hr
  unfold Reached at hg hg'
  rw [hg, Res.ok.injEq] at hg'
  subst hg'
  have hrl := rows_le maxSma
  have hlen := hinv.len
  have hready : isReady g = true := (isReady_iff hinv).mpr (by simpa [hb] using hne)
  have hgz : g.grp ≠ 0#8 := by simpa [isReady] using hready
  obtain ⟨r, hr8, h1, h2, h3⟩ := leastBit_table g.grp hgz
  obtain ⟨c, hc, hcz⟩ := (hinv.grp r hr8).mp h2
  obtain ⟨n, hn8, k1, k2, k3⟩ := leastBit_table c hcz
  refine ⟨8 * r + n, ?_, ?_, ?_⟩
  · simp only [findHighest, h1, Res.bind_ok, ix, hc, k1, Res.pure_eq, Nat.shiftLeft_eq]
    congr 1
    omega
  · rw [← hb]
    simp only [bit]
    rw [show (8 * r + n) / 8 = r by omega, show (8 * r + n) % 8 = n by omega, hc]
    exact k2
  · intro q hq
    rw [← hb]
    simp only [bit]
    split
    · rename_i c' hc'
      by_cases hqr : q / 8 = r
      · rw [hqr, hc, Option.some.injEq] at hc'
        subst hc'
        exact k3 _ (by omega)
      · have hz := h3 (q / 8) (by omega)
        by_cases hc0 : c' = 0#8
        · simp [hc0]
        · have := (hinv.grp (q / 8) (by omega)).mpr ⟨c', hc', hc0⟩
          rw [hz] at this
          simp at this
    · rfl

example : ∃ g, Reached true 40 [.ready 39, .ready 17, .ready 23, .unready 17] g ∧ findHighest g = .ok 23 :=
  ⟨_, rfl, by decide +kernel⟩

/-! ### C14 -/

/-- **C14.** For every reachable group and every callback, `rkh_rdygrp_traverse` calls the callback exactly once for each
member, in ascending order, and for nothing else; if no call halts it returns the number of members. -/
theorem traverse_visits_members_ascending {S : Type} (en : Bool) (maxSma : Nat) (hm : maxSma ≤ 64) (ops : List Op)
    (hr : InRange maxSma ops) (g : Grp) (hg : Reached en maxSma ops g) (cb : S → Nat → Res S) (s : S) :
    traverse g cb s =
      (foldRes cb s (membersAfter maxSma ops)).map' fun s' => (s', (membersAfter maxSma ops).length) := by
  obtain ⟨g', hg', hinv, hb⟩ := reached_inv (en := en) hm ops hr
  unfold Reached at hg hg'
  rw [hg, Res.ok.injEq] at hg'
  subst hg'
  rw [traverse_rows hinv, members_eq hinv hb]
  have : (membersAfter maxSma ops).length < 256 := by
    have := List.length_filter_le (memberAfter ops) (List.range maxSma)
    simp only [membersAfter]
    simp at this
    omega
  simp only [Nat.mod_eq_of_lt this]

/-- The members listed by the specification are in strictly ascending order, without duplicates, and are exactly the
members below the maximum. -/
theorem membersAfter_sorted (maxSma : Nat) (ops : List Op) :
    (membersAfter maxSma ops).Pairwise (· < ·) ∧
    ∀ p, p ∈ membersAfter maxSma ops ↔ p < maxSma ∧ memberAfter ops p = true :=
  ⟨List.pairwise_lt_range.filter _, fun p => by simp [membersAfter]⟩

example : membersAfter 16 [.ready 12, .ready 3, .ready 7, .unready 3, .ready 1] = [1, 7, 12] := by decide

end Verif.RdyGrp
