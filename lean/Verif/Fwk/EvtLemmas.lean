import Verif.Fwk.Spec
/-
Reference counting: the relation between event headers, the references that exist, and the pools.
-/
namespace Verif.Fwk
open Verif Verif.Fwk.Spec

/-- `e` is in use and belongs to pool `i`. -/
def InUse (pools : List APool) (i e : Nat) : Prop := ∃ P, pools[i]? = some P ∧ e ∈ P.used

/-- `e` is a free block of pool `i`. -/
def InFree (pools : List APool) (i e : Nat) : Prop := ∃ P, pools[i]? = some P ∧ e ∈ P.free

/-- `H`: all references; `puts i e`: a function is about to return `e` to pool `i`. -/
structure EvInv (c : Cfg) (H : List Nat) (puts : Nat → Nat → Prop) (pools : List APool) (fresh : List Nat)
    (sig : Nat → Nat) (hdr : Nat → Evt) : Prop where
  hold : ∀ e ∈ H, e ≠ 0 ∧ (c.static e = true ∨ ∃ i, InUse pools i e)
  freshND : fresh.Nodup
  freshU : ∀ e ∈ fresh, (∃ i, InUse pools i e) ∧ H.count e = 0
  unref : ∀ i e, InUse pools i e → H.count e = 0 → e ∈ fresh
  putsOk : ∀ i e, puts i e → H.count e = 1 ∧ InUse pools i e
  bound : ∀ i e, InUse pools i e → H.count e ≤ 255
  nz : ∀ i e, InUse pools i e ∨ InFree pools i e → e ≠ 0
  disj : ∀ i j e, (InUse pools i e ∨ InFree pools i e) → (InUse pools j e ∨ InFree pools j e) → i = j
  nostat : ∀ i e, InUse pools i e ∨ InFree pools i e → c.static e = false
  poolND : ∀ (i : Nat) (P : APool), pools[i]? = some P → (P.free ++ P.used).Nodup
  hdrS : ∀ e, c.static e = true → hdr e = ⟨sig e, 0, 0⟩
  hdrU : ∀ i e, InUse pools i e → hdr e = ⟨sig e, H.count e, i + 1⟩

/-- `RKH_INC_REF` on headers. -/
def incHdr (hdr : Nat → Evt) (e : Nat) : Nat → Evt :=
  if (hdr e).pool ≠ 0 then fun x => if x = e then { hdr e with nref := ((hdr e).nref + 1) % 256 } else hdr x else hdr

variable {c : Cfg} {H H' : List Nat} {puts puts' : Nat → Nat → Prop} {pools : List APool} {fresh : List Nat}
  {sig : Nat → Nat} {hdr : Nat → Evt}

theorem EvInv.perm (h : EvInv c H puts pools fresh sig hdr) (hp : H'.Perm H) : EvInv c H' puts pools fresh sig hdr where
  hold e he := h.hold e (hp.subset he)
  freshND := h.freshND
  freshU e he := by rw [hp.count_eq]; exact h.freshU e he
  unref i e hu hc := h.unref i e hu (by rw [← hp.count_eq]; exact hc)
  putsOk i e hp' := by rw [hp.count_eq]; exact h.putsOk i e hp'
  bound i e hu := by rw [hp.count_eq]; exact h.bound i e hu
  nz := h.nz
  disj := h.disj
  nostat := h.nostat
  poolND := h.poolND
  hdrS := h.hdrS
  hdrU i e hu := by rw [hp.count_eq]; exact h.hdrU i e hu

theorem EvInv.mono (h : EvInv c H puts pools fresh sig hdr) (hp : ∀ i e, puts' i e → puts i e) :
    EvInv c H puts' pools fresh sig hdr :=
  { h with putsOk := fun i e hh => h.putsOk i e (hp i e hh) }

/-- A usable event in terms of the invariant. -/
def Usable' (c : Cfg) (H : List Nat) (puts : Nat → Nat → Prop) (fresh : List Nat) (e : Nat) : Prop :=
  e ≠ 0 ∧ (c.static e = true ∨ e ∈ fresh ∨ (0 < H.count e ∧ ∀ i, ¬ puts i e))

/-- A new reference to a usable event. -/
theorem EvInv.add (h : EvInv c H puts pools fresh sig hdr) {e : Nat} (hu : Usable' c H puts fresh e)
    (hr : c.static e = true ∨ H.count e + 1 ≤ 255) :
    EvInv c (e :: H) puts pools (fresh.erase e) sig (incHdr hdr e) := by
  obtain ⟨he0, hu⟩ := hu
  have huse : c.static e = true ∨ ∃ i, InUse pools i e := by
    rcases hu with h1 | h1 | h1
    · exact .inl h1
    · exact .inr (h.freshU e h1).1
    · exact (h.hold e (List.count_pos_iff.mp h1.1)).2
  have hnoput : c.static e = true ∨ ∀ i, ¬ puts i e := by
    rcases hu with h1 | h1 | h1
    · exact .inl h1
    · right; intro i hp
      have h2 := (h.putsOk i e hp).1
      have h3 := (h.freshU e h1).2
      omega
    · exact .inr h1.2
  have hst : ∀ i x, InUse pools i x → c.static e = true → x ≠ e := by
    rintro i x hx hs rfl
    rw [h.nostat i x (.inl hx)] at hs
    cases hs
  have hcne : ∀ x, x ≠ e → (e :: H).count x = H.count x := fun x hx => List.count_cons_of_ne (Ne.symm hx)
  have hce : (e :: H).count e = H.count e + 1 := List.count_cons_self
  constructor
  · intro x hx
    rw [List.mem_cons] at hx
    rcases hx with rfl | hx
    · exact ⟨he0, huse⟩
    · exact h.hold x hx
  · exact h.freshND.erase e
  · intro x hx
    rw [h.freshND.mem_erase_iff] at hx
    rw [hcne x hx.1]
    exact h.freshU x hx.2
  · intro i x hx hc
    by_cases hxe : x = e
    · subst hxe; omega
    · rw [hcne x hxe] at hc
      rw [h.freshND.mem_erase_iff]
      exact ⟨hxe, h.unref i x hx hc⟩
  · intro i x hx
    have hxe : x ≠ e := by
      rintro rfl
      rcases hnoput with h1 | h1
      · exact hst i x (h.putsOk i x hx).2 h1 rfl
      · exact h1 i hx
    rw [hcne x hxe]
    exact h.putsOk i x hx
  · intro i x hx
    by_cases hxe : x = e
    · subst hxe
      rcases hr with h1 | h1
      · exact absurd rfl (hst i x hx h1)
      · omega
    · rw [hcne x hxe]; exact h.bound i x hx
  · exact h.nz
  · exact h.disj
  · exact h.nostat
  · exact h.poolND
  · intro x hx
    unfold incHdr
    split
    · rename_i hp
      by_cases hxe : x = e
      · subst hxe; rw [h.hdrS x hx] at hp; simp at hp
      · simp only [hxe, if_false]; exact h.hdrS x hx
    · exact h.hdrS x hx
  · intro i x hx
    by_cases hxe : x = e
    · subst hxe
      have h1 := h.hdrU i x hx
      unfold incHdr
      rw [h1]
      simp only [ne_eq, Nat.add_eq_zero_iff, Nat.one_ne_zero, and_false, not_false_iff, if_true]
      rcases hr with h2 | h2
      · exact absurd rfl (hst i x hx h2)
      · rw [Nat.mod_eq_of_lt (by omega), hce]
    · rw [hcne x hxe]
      unfold incHdr
      split
      · simp only [hxe, if_false]; exact h.hdrU i x hx
      · exact h.hdrU i x hx

/-- Dropping a reference that is not the last one. -/
theorem EvInv.drop (h : EvInv c (e :: H) puts pools fresh sig hdr) (hc : 0 < H.count e) :
    EvInv c H puts pools fresh sig (fun x => if x = e then { hdr e with nref := (hdr e).nref - 1 } else hdr x) ∨
      c.static e = true := by
  rcases (h.hold e (by simp)).2 with hs | ⟨i0, hu0⟩
  · exact .inr hs
  left
  have hns : c.static e = false := h.nostat i0 e (.inl hu0)
  have hcne : ∀ x, x ≠ e → (e :: H).count x = H.count x := fun x hx => List.count_cons_of_ne (Ne.symm hx)
  have hce : (e :: H).count e = H.count e + 1 := List.count_cons_self
  constructor
  · intro x hx; exact h.hold x (by simp [hx])
  · exact h.freshND
  · intro x hx
    have h1 := h.freshU x hx
    by_cases hxe : x = e
    · subst hxe; omega
    · rw [← hcne x hxe]; exact h1
  · intro i x hx h0
    by_cases hxe : x = e
    · subst hxe; omega
    · exact h.unref i x hx (by rw [hcne x hxe]; exact h0)
  · intro i x hx
    have h1 := h.putsOk i x hx
    by_cases hxe : x = e
    · subst hxe; omega
    · rw [← hcne x hxe]; exact h1
  · intro i x hx
    have h1 := h.bound i x hx
    by_cases hxe : x = e
    · subst hxe; omega
    · rw [← hcne x hxe]; exact h1
  · exact h.nz
  · exact h.disj
  · exact h.nostat
  · exact h.poolND
  · intro x hx
    have hxe : x ≠ e := by rintro rfl; rw [hns] at hx; cases hx
    simp only [hxe, if_false]; exact h.hdrS x hx
  · intro i x hx
    have h1 := h.hdrU i x hx
    by_cases hxe : x = e
    · subst hxe
      simp only [if_true, h1, hce, Nat.add_sub_cancel]
    · simp only [hxe, if_false]; rw [← hcne x hxe]; exact h1

/-- Dropping a reference to a static event. -/
theorem EvInv.dropStatic (h : EvInv c (e :: H) puts pools fresh sig hdr) (hs : c.static e = true) :
    EvInv c H puts pools fresh sig hdr := by
  have hcne : ∀ i x, InUse pools i x → (e :: H).count x = H.count x := by
    intro i x hx
    apply List.count_cons_of_ne
    rintro rfl
    rw [h.nostat i e (.inl hx)] at hs; cases hs
  refine { h with hold := ?_, freshU := ?_, unref := ?_, putsOk := ?_, bound := ?_, hdrU := ?_ }
  · intro x hx; exact h.hold x (by simp [hx])
  · intro x hx
    obtain ⟨⟨i, hu⟩, h0⟩ := h.freshU x hx
    exact ⟨⟨i, hu⟩, by rw [← hcne i x hu]; exact h0⟩
  · intro i x hx h0; exact h.unref i x hx (by rw [hcne i x hx]; exact h0)
  · intro i x hx
    have h1 := h.putsOk i x hx
    rw [hcne i x h1.2] at h1; exact h1
  · intro i x hx; rw [← hcne i x hx]; exact h.bound i x hx
  · intro i x hx; rw [← hcne i x hx]; exact h.hdrU i x hx

/-- Deciding to recycle: the only reference left is the one being dropped. -/
theorem EvInv.recycle (h : EvInv c H puts pools fresh sig hdr) {i e : Nat} (hu : InUse pools i e) (hc : H.count e = 1)
    (hp : ∀ j x, puts' j x → puts j x ∨ (j = i ∧ x = e)) : EvInv c H puts' pools fresh sig hdr :=
  have hk : ∀ j x, puts' j x → H.count x = 1 ∧ InUse pools j x := by
    intro j x hx
    rcases hp j x hx with h1 | ⟨rfl, rfl⟩
    · exact h.putsOk j x h1
    · exact ⟨hc, hu⟩
  { h with putsOk := hk }

theorem mem_set_pool {i j e : Nat} {P Q : APool} (hP : pools[i]? = some P) :
    InUse (pools.set i Q) j e ↔ (j = i ∧ e ∈ Q.used) ∨ (j ≠ i ∧ InUse pools j e) := by
  have hlt : i < pools.length := (List.getElem?_eq_some_iff.mp hP).1
  unfold InUse
  by_cases hj : j = i
  · subst hj; rw [List.getElem?_set_self hlt]; simp
  · rw [List.getElem?_set_ne (Ne.symm hj)]; simp [hj]

theorem mem_set_pool_free {i j e : Nat} {P Q : APool} (hP : pools[i]? = some P) :
    InFree (pools.set i Q) j e ↔ (j = i ∧ e ∈ Q.free) ∨ (j ≠ i ∧ InFree pools j e) := by
  have hlt : i < pools.length := (List.getElem?_eq_some_iff.mp hP).1
  unfold InFree
  by_cases hj : j = i
  · subst hj; rw [List.getElem?_set_self hlt]; simp
  · rw [List.getElem?_set_ne (Ne.symm hj)]; simp [hj]

/-- Moving a block between the two lists of a pool does not change the set of its blocks. -/
theorem block_iff {i j e : Nat} {P Q : APool} (hP : pools[i]? = some P)
    (hQ : ∀ x, (x ∈ Q.used ∨ x ∈ Q.free) ↔ (x ∈ P.used ∨ x ∈ P.free)) :
    (InUse (pools.set i Q) j e ∨ InFree (pools.set i Q) j e) ↔ (InUse pools j e ∨ InFree pools j e) := by
  rw [mem_set_pool hP, mem_set_pool_free hP]
  by_cases hj : j = i
  · subst hj
    simp only [true_and, ne_eq, not_true_eq_false, false_and, or_false, hQ]
    unfold InUse InFree
    simp [hP]
  · simp [hj]

/-- Returning a block to its pool; its header is overwritten. -/
theorem EvInv.put (h : EvInv c (e :: H) puts pools fresh sig hdr) {i : Nat} {P : APool} (hput : puts i e)
    (hP : pools[i]? = some P) (hp : ∀ j x, puts' j x → puts j x ∧ x ∈ H) (junk : Evt) :
    EvInv c H puts' (pools.set i { P with free := e :: P.free, used := P.used.erase e }) fresh sig
      (fun x => if x = e then junk else hdr x) := by
  obtain ⟨hc1, P', hP', heu⟩ := h.putsOk i e hput
  rw [hP] at hP'; cases hP'
  have hce : (e :: H).count e = H.count e + 1 := List.count_cons_self
  have hc0 : H.count e = 0 := by omega
  have hcne : ∀ x, x ≠ e → (e :: H).count x = H.count x := fun x hx => List.count_cons_of_ne (Ne.symm hx)
  have hnd := h.poolND i P hP
  have hndu : P.used.Nodup := (List.nodup_append.mp hnd).2.1
  have hblk : ∀ j x, (InUse (pools.set i { P with free := e :: P.free, used := P.used.erase e }) j x ∨
      InFree (pools.set i { P with free := e :: P.free, used := P.used.erase e }) j x) ↔ (InUse pools j x ∨ InFree pools j x) := by
    intro j x
    apply block_iff hP
    intro y
    simp only [hndu.mem_erase_iff, List.mem_cons]
    by_cases hy : y = e
    · subst hy; simp [heu]
    · simp [hy]
  have huse : ∀ j x, InUse (pools.set i { P with free := e :: P.free, used := P.used.erase e }) j x ↔
      (InUse pools j x ∧ x ≠ e) := by
    intro j x
    rw [mem_set_pool hP]
    simp only [hndu.mem_erase_iff]
    constructor
    · rintro (⟨rfl, h1, h2⟩ | ⟨h1, h2⟩)
      · exact ⟨⟨P, hP, h2⟩, h1⟩
      · refine ⟨h2, ?_⟩
        rintro rfl
        exact h1 (h.disj j i x (.inl h2) (.inl ⟨P, hP, heu⟩))
    · rintro ⟨⟨P', h1, h2⟩, h3⟩
      by_cases hj : j = i
      · subst hj; rw [hP] at h1; cases h1; exact .inl ⟨rfl, h3, h2⟩
      · exact .inr ⟨hj, P', h1, h2⟩
  have hns : c.static e = false := h.nostat i e (.inl ⟨P, hP, heu⟩)
  constructor
  · intro x hx
    obtain ⟨h1, h2⟩ := h.hold x (by simp [hx])
    refine ⟨h1, h2.imp id ?_⟩
    rintro ⟨j, hj⟩
    refine ⟨j, (huse j x).mpr ⟨hj, ?_⟩⟩
    rintro rfl
    have := List.count_pos_iff.mpr hx
    omega
  · exact h.freshND
  · intro x hx
    obtain ⟨⟨j, hj⟩, h0⟩ := h.freshU x hx
    have hxe : x ≠ e := by rintro rfl; omega
    exact ⟨⟨j, (huse j x).mpr ⟨hj, hxe⟩⟩, by rw [← hcne x hxe]; exact h0⟩
  · intro j x hx h0
    obtain ⟨h1, h2⟩ := (huse j x).mp hx
    exact h.unref j x h1 (by rw [hcne x h2]; exact h0)
  · intro j x hx
    obtain ⟨h1, h2⟩ := hp j x hx
    have hxe : x ≠ e := by rintro rfl; have := List.count_pos_iff.mpr h2; omega
    obtain ⟨h3, h4⟩ := h.putsOk j x h1
    exact ⟨by rw [← hcne x hxe]; exact h3, (huse j x).mpr ⟨h4, hxe⟩⟩
  · intro j x hx
    obtain ⟨h1, h2⟩ := (huse j x).mp hx
    rw [← hcne x h2]; exact h.bound j x h1
  · intro j x hx; exact h.nz j x ((hblk j x).mp hx)
  · intro j k x hx hy; exact h.disj j k x ((hblk j x).mp hx) ((hblk k x).mp hy)
  · intro j x hx; exact h.nostat j x ((hblk j x).mp hx)
  · intro j Q hQ
    by_cases hj : j = i
    · subst hj
      rw [List.getElem?_set_self (List.getElem?_eq_some_iff.mp hP).1] at hQ
      cases hQ
      refine (List.Perm.nodup_iff ?_).mpr hnd
      simp only [List.cons_append]
      refine List.Perm.trans List.perm_middle.symm ?_
      exact (List.perm_cons_erase heu).symm.append_left _
    · rw [List.getElem?_set_ne (Ne.symm hj)] at hQ; exact h.poolND j Q hQ
  · intro x hx
    have hxe : x ≠ e := by rintro rfl; rw [hns] at hx; cases hx
    simp only [hxe, if_false]; exact h.hdrS x hx
  · intro j x hx
    obtain ⟨h1, h2⟩ := (huse j x).mp hx
    simp only [h2, if_false]; rw [← hcne x h2]; exact h.hdrU j x h1

/-- Allocating a block: it becomes a fresh event without references. -/
theorem EvInv.alloc (h : EvInv c H puts pools fresh sig hdr) {i b : Nat} {P : APool} {rest : List Nat}
    (hP : pools[i]? = some P) (hf : P.free = b :: rest) (s : Nat) :
    EvInv c H puts (pools.set i { P with free := rest, used := b :: P.used }) (b :: fresh)
      (fun x => if x = b then s else sig x) (fun x => if x = b then ⟨s, 0, i + 1⟩ else hdr x) := by
  have hnd := h.poolND i P hP
  have hbfree : InFree pools i b := ⟨P, hP, by rw [hf]; simp⟩
  have hnu : ∀ j, ¬ InUse pools j b := by
    rintro j hj
    have := h.disj j i b (.inl hj) (.inr hbfree)
    subst this
    obtain ⟨P', h1, h2⟩ := hj
    rw [hP] at h1; cases h1
    have := (List.nodup_append.mp hnd).2.2 b (by rw [hf]; simp) b h2
    exact this rfl
  have hns := h.nostat i b (.inr hbfree)
  have hblk : ∀ j x, (InUse (pools.set i { P with free := rest, used := b :: P.used }) j x ∨
      InFree (pools.set i { P with free := rest, used := b :: P.used }) j x) ↔ (InUse pools j x ∨ InFree pools j x) := by
    intro j x
    apply block_iff hP
    intro y
    simp only [hf, List.mem_cons]
    exact ⟨fun h => by rcases h with (h | h) | h <;> simp [h], fun h => by rcases h with h | h | h <;> simp [h]⟩
  have huse : ∀ j x, InUse (pools.set i { P with free := rest, used := b :: P.used }) j x ↔
      (InUse pools j x ∨ (j = i ∧ x = b)) := by
    intro j x
    rw [mem_set_pool hP]
    simp only [List.mem_cons]
    by_cases hj : j = i
    · subst hj
      simp only [true_and, ne_eq, not_true_eq_false, false_and, or_false]
      unfold InUse
      simp only [hP, Option.some.injEq, exists_eq_left']
      exact Or.comm
    · simp [hj]
  have hbH : b ∉ H := by
    intro hb
    rcases (h.hold b hb).2 with h1 | ⟨j, hj⟩
    · rw [hns] at h1; cases h1
    · exact hnu j hj
  have hcb : H.count b = 0 := List.count_eq_zero.mpr hbH
  constructor
  · intro x hx
    obtain ⟨h1, h2⟩ := h.hold x hx
    exact ⟨h1, h2.imp id (fun ⟨j, hj⟩ => ⟨j, (huse j x).mpr (.inl hj)⟩)⟩
  · rw [List.nodup_cons]
    refine ⟨fun hb => ?_, h.freshND⟩
    obtain ⟨⟨j, hj⟩, _⟩ := h.freshU b hb
    exact hnu j hj
  · intro x hx
    rw [List.mem_cons] at hx
    rcases hx with rfl | hx
    · exact ⟨⟨i, (huse i x).mpr (.inr ⟨rfl, rfl⟩)⟩, hcb⟩
    · obtain ⟨⟨j, hj⟩, h0⟩ := h.freshU x hx
      exact ⟨⟨j, (huse j x).mpr (.inl hj)⟩, h0⟩
  · intro j x hx h0
    rcases (huse j x).mp hx with h1 | ⟨_, rfl⟩
    · simp [h.unref j x h1 h0]
    · simp
  · intro j x hx
    obtain ⟨h1, h2⟩ := h.putsOk j x hx
    exact ⟨h1, (huse j x).mpr (.inl h2)⟩
  · intro j x hx
    rcases (huse j x).mp hx with h1 | ⟨_, rfl⟩
    · exact h.bound j x h1
    · omega
  · intro j x hx; exact h.nz j x ((hblk j x).mp hx)
  · intro j k x hx hy; exact h.disj j k x ((hblk j x).mp hx) ((hblk k x).mp hy)
  · intro j x hx; exact h.nostat j x ((hblk j x).mp hx)
  · intro j Q hQ
    by_cases hj : j = i
    · subst hj
      rw [List.getElem?_set_self (List.getElem?_eq_some_iff.mp hP).1] at hQ
      cases hQ
      refine (List.Perm.nodup_iff ?_).mpr hnd
      rw [hf]
      exact List.perm_middle
    · rw [List.getElem?_set_ne (Ne.symm hj)] at hQ; exact h.poolND j Q hQ
  · intro x hx
    have hxe : x ≠ b := by rintro rfl; rw [hns] at hx; cases hx
    simp only [hxe, if_false]; exact h.hdrS x hx
  · intro j x hx
    rcases (huse j x).mp hx with h1 | ⟨rfl, rfl⟩
    · have hxe : x ≠ b := by rintro rfl; exact hnu j h1
      simp only [hxe, if_false]; exact h.hdrU j x h1
    · simp only [if_true, hcb]

/-- Registering a pool whose blocks are new. -/
theorem EvInv.regPool (h : EvInv c H puts pools fresh sig hdr) (P : APool) (hu : P.used = []) (hnd : P.free.Nodup)
    (hz : ∀ e ∈ P.free, e ≠ 0) (hs : ∀ e ∈ P.free, c.static e = false)
    (hd : ∀ e ∈ P.free, ∀ j, ¬ (InUse pools j e ∨ InFree pools j e)) :
    EvInv c H puts (pools ++ [P]) fresh sig hdr := by
  have hget : ∀ (j : Nat) Q, (pools ++ [P])[j]? = some Q → pools[j]? = some Q ∨ (j = pools.length ∧ Q = P) := by
    intro j Q hQ
    rw [List.getElem?_append] at hQ
    split at hQ
    · exact .inl hQ
    · have hj : j - pools.length = 0 := by
        have := (List.getElem?_eq_some_iff.mp hQ).1
        simp only [List.length_cons, List.length_nil] at this
        omega
      rw [hj] at hQ
      simp at hQ
      exact .inr ⟨by omega, hQ.symm⟩
  have hmono : ∀ (j : Nat) Q, pools[j]? = some Q → (pools ++ [P])[j]? = some Q := by
    intro j Q hQ
    rw [List.getElem?_append_left (List.getElem?_eq_some_iff.mp hQ).1]; exact hQ
  have huse : ∀ j x, InUse (pools ++ [P]) j x ↔ InUse pools j x := by
    intro j x
    constructor
    · rintro ⟨Q, hQ, hx⟩
      rcases hget j Q hQ with h1 | ⟨_, rfl⟩
      · exact ⟨Q, h1, hx⟩
      · rw [hu] at hx; cases hx
    · rintro ⟨Q, hQ, hx⟩; exact ⟨Q, hmono j Q hQ, hx⟩
  have hfree : ∀ j x, InFree (pools ++ [P]) j x → InFree pools j x ∨ (j = pools.length ∧ x ∈ P.free) := by
    rintro j x ⟨Q, hQ, hx⟩
    rcases hget j Q hQ with h1 | ⟨h2, rfl⟩
    · exact .inl ⟨Q, h1, hx⟩
    · exact .inr ⟨h2, hx⟩
  have hblk : ∀ j x, (InUse (pools ++ [P]) j x ∨ InFree (pools ++ [P]) j x) →
      (InUse pools j x ∨ InFree pools j x) ∨ (j = pools.length ∧ x ∈ P.free) := by
    rintro j x (h1 | h1)
    · exact .inl (.inl ((huse j x).mp h1))
    · rcases hfree j x h1 with h2 | h2
      · exact .inl (.inr h2)
      · exact .inr h2
  constructor
  · intro x hx
    obtain ⟨h1, h2⟩ := h.hold x hx
    exact ⟨h1, h2.imp id (fun ⟨j, hj⟩ => ⟨j, (huse j x).mpr hj⟩)⟩
  · exact h.freshND
  · intro x hx
    obtain ⟨⟨j, hj⟩, h0⟩ := h.freshU x hx
    exact ⟨⟨j, (huse j x).mpr hj⟩, h0⟩
  · intro j x hx; exact h.unref j x ((huse j x).mp hx)
  · intro j x hx
    obtain ⟨h1, h2⟩ := h.putsOk j x hx
    exact ⟨h1, (huse j x).mpr h2⟩
  · intro j x hx; exact h.bound j x ((huse j x).mp hx)
  · intro j x hx
    rcases hblk j x hx with h1 | ⟨_, h1⟩
    · exact h.nz j x h1
    · exact hz x h1
  · intro j k x hx hy
    rcases hblk j x hx with h1 | ⟨h1, h1'⟩ <;> rcases hblk k x hy with h2 | ⟨h2, h2'⟩
    · exact h.disj j k x h1 h2
    · exact absurd h1 (hd x h2' j)
    · exact absurd h2 (hd x h1' k)
    · rw [h1, h2]
  · intro j x hx
    rcases hblk j x hx with h1 | ⟨_, h1⟩
    · exact h.nostat j x h1
    · exact hs x h1
  · intro j Q hQ
    rcases hget j Q hQ with h1 | ⟨_, rfl⟩
    · exact h.poolND j Q h1
    · rw [hu]; simpa using hnd
  · exact h.hdrS
  · intro j x hx; exact h.hdrU j x ((huse j x).mp hx)

end Verif.Fwk
