import Verif.MemPool.Model
namespace Verif.MemPool
open Verif

/-! ### Pointer loads and stores -/

theorem stp_frame (m : Mem) (a v k x : Nat) (h : x < a ∨ a + k ≤ x) : stp m a v k x = m x := by
  induction k generalizing m a v with
  | zero => rfl
  | succ k ih =>
    simp only [stp]
    rw [ih _ _ _ (by omega)]
    simp [upd, show x ≠ a by omega]

theorem ldp_congr (m m' : Mem) (a k : Nat) (h : ∀ x, a ≤ x → x < a + k → m x = m' x) : ldp m a k = ldp m' a k := by
  induction k generalizing a with
  | zero => rfl
  | succ k ih =>
    simp only [ldp]
    rw [h a (by omega) (by omega), ih (a + 1) (fun x h1 h2 => h x (by omega) (by omega))]

theorem ldp_stp (m : Mem) (a v k : Nat) : ldp (stp m a v k) a k = v % 256 ^ k := by
  induction k generalizing m a v with
  | zero => simp [ldp, Nat.mod_one]
  | succ k ih =>
    simp only [ldp, stp]
    rw [ih, stp_frame _ _ _ _ _ (by omega)]
    simp only [upd, if_true, BitVec.toNat_ofNat]
    rw [show 256 ^ (k + 1) = 256 * 256 ^ k by rw [Nat.pow_succ, Nat.mul_comm], Nat.mod_mul]

theorem ldp_stp_ne (m : Mem) (a b v k : Nat) (h : a + k ≤ b ∨ b + k ≤ a) : ldp (stp m a v k) b k = ldp m b k :=
  ldp_congr _ _ _ _ (fun x h1 h2 => stp_frame _ _ _ _ _ (by omega))

/-! ### Rounding -/

/-- Smallest multiple of `p` that is at least `b` and at least `p`. -/
def roundUp (p b : Nat) : Nat := if b = 0 then p else (b + p - 1) / p * p

theorem roundUp_spec (p b : Nat) (hp : 0 < p) :
    p ∣ roundUp p b ∧ b ≤ roundUp p b ∧ 0 < roundUp p b ∧ ∀ m, p ∣ m → b ≤ m → 0 < m → roundUp p b ≤ m := by
  unfold roundUp
  split
  · rename_i h
    subst h
    exact ⟨Nat.dvd_refl p, by omega, hp, fun m h1 _ h3 => Nat.le_of_dvd h3 h1⟩
  · rename_i h
    have hdm := Nat.div_add_mod (b + p - 1) p
    have hml := Nat.mod_lt (b + p - 1) hp
    rw [Nat.mul_comm] at hdm
    refine ⟨Nat.dvd_mul_left _ _, by omega, by omega, ?_⟩
    rintro m ⟨k, rfl⟩ h1 _
    have h4 : (b + p - 1) / p * p < (k + 1) * p := by
      have : (k + 1) * p = p * k + p := by rw [Nat.succ_mul, Nat.mul_comm]
      omega
    have := Nat.lt_of_mul_lt_mul_right h4
    rw [Nat.mul_comm p k]
    exact Nat.mul_le_mul_right p (by omega)

theorem roundLoop_ok (c : Cfg) (bsize : Nat) (hp : 0 < c.psz) (hw : bsize + c.psz < c.bsW)
    (fuel k : Nat) (hk : 0 < k) (hkr : k * c.psz ≤ roundUp c.psz bsize) (hf : bsize < fuel + k * c.psz)
    (hn : roundUp c.psz bsize / c.psz < c.nbW) (hf0 : 0 < fuel) :
    roundLoop c bsize fuel (k * c.psz) k = .ok (roundUp c.psz bsize, roundUp c.psz bsize / c.psz) := by
  obtain ⟨hd, hle, hpos, hmin⟩ := roundUp_spec c.psz bsize hp
  have hup : roundUp c.psz bsize ≤ bsize + c.psz := by
    unfold roundUp
    split
    · rename_i h
      omega
    · have := Nat.div_mul_le_self (bsize + c.psz - 1) c.psz
      omega
  induction fuel generalizing k with
  | zero => omega
  | succ fuel ih =>
    simp only [roundLoop]
    split
    · rename_i hlt
      have e1 : k * c.psz + c.psz = (k + 1) * c.psz := by rw [Nat.succ_mul]
      have hk1 : (k + 1) * c.psz ≤ roundUp c.psz bsize := by
        obtain ⟨j, hj⟩ := hd
        rw [hj, Nat.mul_comm c.psz j] at hle ⊢
        have : k < j := by
          have : k * c.psz < j * c.psz := by omega
          exact Nat.lt_of_mul_lt_mul_right this
        exact Nat.mul_le_mul_right _ (by omega)
      have hk2 : k + 1 ≤ roundUp c.psz bsize / c.psz := by
        rw [Nat.le_div_iff_mul_le hp]; exact hk1
      rw [e1, Nat.mod_eq_of_lt (show (k + 1) * c.psz < c.bsW by omega), Nat.mod_eq_of_lt (show k + 1 < c.nbW by omega)]
      exact ih (k + 1) (by omega) hk1 (by omega) (by omega)
    · rename_i hge
      have : roundUp c.psz bsize ≤ k * c.psz := hmin _ (Nat.dvd_mul_left _ _) (by omega) (Nat.mul_pos hk hp)
      have heq : roundUp c.psz bsize = k * c.psz := by omega
      rw [heq, Nat.mul_div_cancel _ hp]

/-! ### Free list -/

/-- Address of block `i`. -/
def blkAddr (start bs i : Nat) : Nat := start + i * bs

/-- All block addresses. -/
def blocks (start bs n : Nat) : List Nat := (List.range n).map (blkAddr start bs)

/-- The list `L` of blocks is chained through memory from `p`, ending with NULL. -/
def Chain (psz : Nat) (m : Mem) : Nat → List Nat → Prop
  | p, [] => p = 0
  | p, b :: L => p = b ∧ b ≠ 0 ∧ Chain psz m (ldp m b psz) L

theorem Chain.congr {psz : Nat} {m m' : Mem} {p : Nat} {L : List Nat} (h : Chain psz m p L)
    (hm : ∀ b ∈ L, ldp m b psz = ldp m' b psz) : Chain psz m' p L := by
  induction L generalizing p with
  | nil => exact h
  | cons b L ih =>
    obtain ⟨h1, h2, h3⟩ := h
    refine ⟨h1, h2, ?_⟩
    rw [← hm b (by simp)]
    exact ih h3 (fun b hb => hm b (by simp [hb]))

theorem blkAddr_disjoint {start bs i j : Nat} (h : i ≠ j) :
    blkAddr start bs i + bs ≤ blkAddr start bs j ∨ blkAddr start bs j + bs ≤ blkAddr start bs i := by
  unfold blkAddr
  rcases Nat.lt_or_gt_of_ne h with h | h
  · left
    have : (i + 1) * bs ≤ j * bs := Nat.mul_le_mul_right _ h
    rw [Nat.succ_mul] at this
    omega
  · right
    have : (j + 1) * bs ≤ i * bs := Nat.mul_le_mul_right _ h
    rw [Nat.succ_mul] at this
    omega

theorem blkAddr_inj {start bs i j : Nat} (hbs : 0 < bs) (h : blkAddr start bs i = blkAddr start bs j) : i = j := by
  apply Classical.byContradiction
  intro hne
  have := blkAddr_disjoint (start := start) (bs := bs) hne
  omega

theorem blocks_nodup {start bs n : Nat} (hbs : 0 < bs) : (blocks start bs n).Nodup := by
  unfold blocks
  rw [List.nodup_iff_pairwise_ne, List.pairwise_map]
  exact List.nodup_range.imp (fun hne h => hne (blkAddr_inj hbs h))

theorem mem_blocks {start bs n a : Nat} : a ∈ blocks start bs n ↔ ∃ i, i < n ∧ a = blkAddr start bs i := by
  simp only [blocks, List.mem_map, List.mem_range]
  constructor
  · rintro ⟨i, h, rfl⟩; exact ⟨i, h, rfl⟩
  · rintro ⟨i, h, rfl⟩; exact ⟨i, h, rfl⟩

theorem blocks_disjoint {start bs n a b : Nat} (ha : a ∈ blocks start bs n) (hb : b ∈ blocks start bs n) (hne : a ≠ b) :
    a + bs ≤ b ∨ b + bs ≤ a := by
  obtain ⟨i, _, rfl⟩ := mem_blocks.mp ha
  obtain ⟨j, _, rfl⟩ := mem_blocks.mp hb
  exact blkAddr_disjoint (by rintro rfl; exact hne rfl)

theorem blocks_bounds {start bs n a : Nat} (ha : a ∈ blocks start bs n) : start ≤ a ∧ a + bs ≤ start + n * bs := by
  obtain ⟨i, hi, rfl⟩ := mem_blocks.mp ha
  unfold blkAddr
  have : (i + 1) * bs ≤ n * bs := Nat.mul_le_mul_right _ hi
  rw [Nat.succ_mul] at this
  omega

/-- Geometry of an initialised pool. -/
structure Geo (c : Cfg) (start ssize bs n : Nat) : Prop where
  psz : 0 < c.psz
  pszle : c.psz ≤ bs
  npos : 0 < n
  fits : n * bs ≤ ssize
  spos : 0 < start
  addr : start + ssize < 256 ^ c.psz
  nW : n < c.nbW

/-- Pool invariant relative to the list `L` of free blocks (head first) and the list `H` of blocks held by clients. -/
structure Inv (c : Cfg) (start ssize bs n : Nat) (p : Pool) (L H : List Nat) : Prop where
  chain : Chain c.psz p.mem p.free L
  perm : (L ++ H).Perm (blocks start bs n)
  bsize : p.bsize = bs
  nblocks : p.nblocks = n
  nfree : p.nfree = L.length
  pstart : p.start = start
  endp : p.endp = blkAddr start bs (n - 1)
  lo : p.lo = start
  size : p.size = ssize

theorem mem_free {c : Cfg} {start ssize bs n : Nat} {p : Pool} {L H : List Nat} (h : Inv c start ssize bs n p L H)
    {b : Nat} (hb : b ∈ L) : b ∈ blocks start bs n := h.perm.subset (by simp [hb])

theorem mem_held {c : Cfg} {start ssize bs n : Nat} {p : Pool} {L H : List Nat} (h : Inv c start ssize bs n p L H)
    {b : Nat} (hb : b ∈ H) : b ∈ blocks start bs n := h.perm.subset (by simp [hb])

theorem nodupLH {c : Cfg} {start ssize bs n : Nat} {p : Pool} {L H : List Nat} (g : Geo c start ssize bs n)
    (h : Inv c start ssize bs n p L H) : (L ++ H).Nodup :=
  (h.perm.nodup_iff).mpr (blocks_nodup (by have := g.psz; have := g.pszle; omega))

theorem length_sum {c : Cfg} {start ssize bs n : Nat} {p : Pool} {L H : List Nat}
    (h : Inv c start ssize bs n p L H) : L.length + H.length = n := by
  have := h.perm.length_eq
  simpa [blocks] using this

theorem inStore_blk {c : Cfg} {start ssize bs n b : Nat} (g : Geo c start ssize bs n) (hb : b ∈ blocks start bs n) :
    inStore start ssize b c.psz = true := by
  have := blocks_bounds hb
  have := g.fits
  have := g.pszle
  simp only [inStore, decide_eq_true_eq]
  omega

/-- `get` with a free block. -/
theorem get_cons {c : Cfg} {start ssize bs n : Nat} {p : Pool} {b : Nat} {L H : List Nat} (g : Geo c start ssize bs n)
    (h : Inv c start ssize bs n p (b :: L) H) :
    ∃ p', get c p = .ok (p', b) ∧ Inv c start ssize bs n p' L (b :: H) ∧ p'.nmin = min p.nmin L.length ∧ p'.mem = p.mem := by
  have hb : b ∈ blocks start bs n := mem_free h (by simp)
  obtain ⟨hfree, hb0, hch⟩ := h.chain
  have hbs : p.bsize ≠ 0 := by rw [h.bsize]; have := g.psz; have := g.pszle; omega
  have hnf := h.nfree
  simp only [List.length_cons] at hnf
  have hlen := length_sum h
  simp only [List.length_cons] at hlen
  have hw := g.nW
  have hmod : (p.nfree + (c.nbW - 1)) % c.nbW = L.length := by
    rw [hnf, show L.length + 1 + (c.nbW - 1) = L.length + c.nbW by omega, Nat.add_mod_right, Nat.mod_eq_of_lt (by omega)]
  refine ⟨{ p with free := ldp p.mem b c.psz, nfree := L.length, nmin := if p.nmin > L.length then L.length else p.nmin }, ?_, ?_, ?_, rfl⟩
  · simp only [get, hbs, ne_eq, not_false_eq_true, decide_true, assertIf_true, Res.bind_ok, hfree, hb0, h.lo, h.size,
      inStore_blk g hb, if_true, hmod, show p.nfree > 0 by omega, Res.pure_eq]
  · refine { chain := hch, perm := ?_, bsize := h.bsize, nblocks := h.nblocks, nfree := rfl, pstart := h.pstart,
             endp := h.endp, lo := h.lo, size := h.size }
    exact (List.perm_middle).trans h.perm
  · simp only; split <;> omega

/-- `get` without free blocks. -/
theorem get_nil {c : Cfg} {start ssize bs n : Nat} {p : Pool} {H : List Nat} (g : Geo c start ssize bs n)
    (h : Inv c start ssize bs n p [] H) : get c p = .ok (p, 0) := by
  have hbs : p.bsize ≠ 0 := by rw [h.bsize]; have := g.psz; have := g.pszle; omega
  have hf : p.free = 0 := h.chain
  simp [get, hbs, hf]

/-- `put` of a held block. -/
theorem put_held {c : Cfg} {start ssize bs n : Nat} {p : Pool} {b : Nat} {L H : List Nat} (g : Geo c start ssize bs n)
    (h : Inv c start ssize bs n p L H) (hb : b ∈ H) :
    ∃ p', put c p b = .ok p' ∧ Inv c start ssize bs n p' (b :: L) (H.erase b) ∧ p'.nmin = p.nmin := by
  have hbb : b ∈ blocks start bs n := mem_held h hb
  have hbs : p.bsize ≠ 0 := by rw [h.bsize]; have := g.psz; have := g.pszle; omega
  have hlen := length_sum h
  have hpos : 0 < H.length := List.length_pos_of_mem hb
  have hw := g.nW
  have hnf := h.nfree
  have hmod : (p.nfree + 1) % c.nbW = L.length + 1 := by rw [hnf]; exact Nat.mod_eq_of_lt (by omega)
  have hbnd := blocks_bounds hbb
  have hend : b ≤ blkAddr start bs (n - 1) := by
    obtain ⟨i, hi, rfl⟩ := mem_blocks.mp hbb
    unfold blkAddr
    have : i * bs ≤ (n - 1) * bs := Nat.mul_le_mul_right _ (by omega)
    omega
  have hnd := nodupLH g h
  refine ⟨{ p with mem := stp p.mem b p.free c.psz, free := b, nfree := L.length + 1 }, ?_, ?_, rfl⟩
  · simp only [put, hbs, ne_eq, not_false_eq_true, decide_true, assertIf_true, Res.bind_ok, h.pstart, h.endp, h.nblocks,
      hbnd.1, hend, true_and, show p.nfree < n by omega, h.lo, h.size, inStore_blk g hbb, if_true, hmod, Res.pure_eq]
  · refine { chain := ?_, perm := ?_, bsize := h.bsize, nblocks := h.nblocks, nfree := by simp, pstart := h.pstart,
             endp := h.endp, lo := h.lo, size := h.size }
    · refine ⟨rfl, ?_, ?_⟩
      · have := g.spos; omega
      · show Chain c.psz (stp p.mem b p.free c.psz) (ldp (stp p.mem b p.free c.psz) b c.psz) L
        rw [ldp_stp]
        have hfl : p.free < 256 ^ c.psz := by
          have hch := h.chain
          have haddr := g.addr
          cases L with
          | nil =>
            have : p.free = 0 := hch
            rw [this]
            exact Nat.pow_pos (by omega)
          | cons x L =>
            have : p.free = x := hch.1
            have hx := blocks_bounds (mem_free h (b := x) (by simp))
            have := g.fits
            omega
        rw [Nat.mod_eq_of_lt hfl]
        refine h.chain.congr ?_
        intro x hx
        rw [ldp_stp_ne]
        have hne : b ≠ x := by
          rintro rfl
          have := (List.nodup_append.mp hnd).2.2 b hx b hb
          exact this rfl
        have := blocks_disjoint hbb (mem_free h hx) hne
        have := g.pszle
        omega
    · refine List.Perm.trans ?_ h.perm
      show (b :: (L ++ H.erase b)).Perm (L ++ H)
      exact (List.perm_middle.symm).trans (List.Perm.append_left L (List.perm_cons_erase hb).symm)

/-- A client write inside a held block. -/
theorem poke_held {c : Cfg} {start ssize bs n : Nat} {p : Pool} {b a : Nat} {v : BitVec 8} {L H : List Nat} (g : Geo c start ssize bs n)
    (h : Inv c start ssize bs n p L H) (hb : b ∈ H) (ha : b ≤ a ∧ a < b + bs) :
    Inv c start ssize bs n (poke p a v) L H := by
  have hnd := nodupLH g h
  refine { h with chain := ?_ }
  refine h.chain.congr ?_
  intro x hx
  apply ldp_congr
  intro y h1 h2
  have hne : b ≠ x := by
    rintro rfl
    have := (List.nodup_append.mp hnd).2.2 b hx b hb
    exact this rfl
  have := blocks_disjoint (mem_held h hb) (mem_free h hx) hne
  have := g.pszle
  simp [poke, upd, show y ≠ a by omega]

/-! ### Initialisation -/

theorem blocks_succ_front (start bs n : Nat) : blocks start bs (n + 1) = start :: blocks (start + bs) bs n := by
  simp only [blocks, List.range_succ_eq_map, List.map_cons, List.map_map]
  congr 1
  · simp [blkAddr]
  · apply List.map_congr_left
    intro i _
    simp only [Function.comp, blkAddr, Nat.succ_eq_add_one, Nat.succ_mul]
    omega

/-- What the chaining loop does: from block `fb` with `k` more blocks to come, it leaves a chain of links between
consecutive blocks and ends at the last block. -/
theorem chainLoop_ok (c : Cfg) (lo size bs nb : Nat) (hp : 0 < c.psz) (hbs : bs = nb * c.psz) (hple : c.psz ≤ bs)
    (hbs16 : bs < 65536) (haddr : lo + size < 256 ^ c.psz)
    (k : Nat) (fuel : Nat) (m : Mem) (fb ssize n : Nat) (hk : ssize / bs = k) (hf : k < fuel)
    (hlo : lo ≤ fb) (hfit : fb + bs + ssize ≤ lo + size) (hn : n + k < c.nbW) :
    ∃ m', chainLoop c lo size bs nb fuel m fb ssize n = .ok (m', fb + k * bs, n + k) ∧
      (∀ i, i < k → ldp m' (fb + i * bs) c.psz = fb + (i + 1) * bs) ∧
      (∀ x, x < fb → m' x = m x) := by
  induction k generalizing fuel m fb ssize n with
  | zero =>
    obtain ⟨fuel, rfl⟩ : ∃ f, fuel = f + 1 := ⟨fuel - 1, by omega⟩
    have : ssize < bs := by
      rw [Nat.div_eq_zero_iff] at hk
      omega
    refine ⟨m, ?_, by omega, fun _ _ => rfl⟩
    simp only [chainLoop, Nat.mod_eq_of_lt hbs16, show ¬ ssize ≥ bs by omega, if_false]
    simp
  | succ k ih =>
    obtain ⟨fuel, rfl⟩ : ∃ f, fuel = f + 1 := ⟨fuel - 1, by omega⟩
    have hbpos : 0 < bs := by omega
    have hge : bs ≤ ssize := by
      apply Classical.byContradiction
      intro h
      have : ssize / bs = 0 := Nat.div_eq_of_lt (by omega)
      omega
    have hin : inStore lo size fb c.psz = true := by
      simp only [inStore, decide_eq_true_eq]; omega
    have hld : ldp (stp m fb (fb + nb * c.psz) c.psz) fb c.psz = fb + bs := by
      rw [ldp_stp, ← hbs, Nat.mod_eq_of_lt (by omega)]
    have hk' : (ssize - bs) / bs = k := by
      have := Nat.div_eq_sub_div hbpos hge
      omega
    obtain ⟨m', h1, h2, h3⟩ := ih fuel (stp m fb (fb + nb * c.psz) c.psz) (fb + bs) (ssize - bs) (n + 1) hk' (by omega)
      (by omega) (by omega) (by omega)
    refine ⟨m', ?_, ?_, ?_⟩
    · simp only [chainLoop, Nat.mod_eq_of_lt hbs16, ge_iff_le, hge, if_true, hin, hld,
        Nat.mod_eq_of_lt (show n + 1 < c.nbW by omega)]
      rw [h1]
      have : fb + bs + k * bs = fb + (k + 1) * bs := by rw [Nat.succ_mul]; omega
      rw [this]
      congr 3
      omega
    · intro i hi
      cases i with
      | zero =>
        simp only [Nat.zero_mul, Nat.add_zero, Nat.zero_add, Nat.one_mul]
        rw [← hld]
        rw [ldp_congr m' (stp m fb (fb + nb * c.psz) c.psz) fb c.psz (fun x _ hx => h3 x (by omega))]
      | succ i =>
        have := h2 i (by omega)
        have e1 : fb + bs + i * bs = fb + (i + 1) * bs := by rw [Nat.succ_mul]; omega
        have e2 : fb + bs + (i + 1) * bs = fb + (i + 1 + 1) * bs := by rw [Nat.succ_mul (i + 1)]; omega
        rw [e1, e2] at this
        exact this
    · intro x hx
      rw [h3 x (by omega), stp_frame _ _ _ _ _ (by omega)]

/-- Links between consecutive blocks plus a final NULL make a chain. -/
theorem chain_of_links (psz : Nat) (m : Mem) (bs : Nat) (k : Nat) (fb : Nat) (hfb : 0 < fb)
    (hl : ∀ i, i < k → ldp m (fb + i * bs) psz = fb + (i + 1) * bs) (hend : ldp m (fb + k * bs) psz = 0) :
    Chain psz m fb (blocks fb bs (k + 1)) := by
  induction k generalizing fb with
  | zero =>
    rw [blocks_succ_front]
    refine ⟨rfl, by omega, ?_⟩
    simpa [blocks, Chain] using hend
  | succ k ih =>
    rw [blocks_succ_front]
    refine ⟨rfl, by omega, ?_⟩
    have h0 := hl 0 (by omega)
    simp only [Nat.zero_mul, Nat.add_zero, Nat.zero_add, Nat.one_mul] at h0
    rw [h0]
    apply ih (fb + bs) (by omega)
    · intro i hi
      have := hl (i + 1) (by omega)
      have e1 : fb + bs + i * bs = fb + (i + 1) * bs := by rw [Nat.succ_mul]; omega
      have e2 : fb + bs + (i + 1) * bs = fb + (i + 1 + 1) * bs := by rw [Nat.succ_mul (i + 1)]; omega
      rw [e1, e2]; exact this
    · have e1 : fb + bs + k * bs = fb + (k + 1) * bs := by rw [Nat.succ_mul]; omega
      rw [e1]; exact hend

end Verif.MemPool
