import Verif.MemPool.Lemmas
/-
Property theorems for memory pools (C06-C10).
-/
namespace Verif.MemPool
open Verif

/-- The caller's arguments satisfy the checks of `rkh_memPool_init` and describe real memory: non-NULL storage whose
addresses fit in a pointer, a size argument of type `rui16_t`, a block size argument of type `RKH_MPBS_T`. -/
structure Accepted (c : Cfg) (sstart ssize bsize : Nat) : Prop where
  psz : 0 < c.psz
  pszW : c.psz < c.bsW
  bsArg : bsize < c.bsW
  szArg : ssize < 65536
  nonNull : sstart ≠ 0
  addr : sstart + ssize < 256 ^ c.psz
  check1 : ssize ≥ c.psz
  check2 : (bsize + c.psz) % c.bsW > bsize
  check3 : ssize ≥ roundUp c.psz bsize

/-- The resulting counts are representable in `RKH_MPNB_T` (not checked by the code, see
`mempool_init_accepts_unrepresentable_count`). -/
structure Representable (c : Cfg) (ssize bsize : Nat) : Prop where
  count : ssize / roundUp c.psz bsize < c.nbW
  words : roundUp c.psz bsize / c.psz < c.nbW

theorem init_ok {c : Cfg} {sstart ssize bsize : Nat} (ha : Accepted c sstart ssize bsize)
    (hr : Representable c ssize bsize) (m : Mem) :
    ∃ p, init c m sstart ssize bsize = .ok p ∧
      Geo c sstart ssize (roundUp c.psz bsize) (ssize / roundUp c.psz bsize) ∧
      Inv c sstart ssize (roundUp c.psz bsize) (ssize / roundUp c.psz bsize) p
        (blocks sstart (roundUp c.psz bsize) (ssize / roundUp c.psz bsize)) [] ∧
      p.nmin = ssize / roundUp c.psz bsize := by
  obtain ⟨hd, hle, hpos, hmin⟩ := roundUp_spec c.psz bsize ha.psz
  have hpsz := ha.psz
  have hw : bsize + c.psz < c.bsW := by
    have h1 := ha.check2
    have h2 := ha.bsArg
    have h3 := ha.pszW
    apply Classical.byContradiction
    intro hn
    rw [Nat.mod_eq_sub_mod (by omega), Nat.mod_eq_of_lt (by omega)] at h1
    omega
  have hple : c.psz ≤ roundUp c.psz bsize := Nat.le_of_dvd hpos hd
  have hwords := hr.words
  have hcount := hr.count
  have hsz := ha.szArg
  have hc3 := ha.check3
  have hw1 : 1 ≤ roundUp c.psz bsize / c.psz := by rw [Nat.le_div_iff_mul_le hpsz]; omega
  have hround : roundLoop c bsize (bsize + 1) (c.psz % c.bsW) (1 % c.nbW) =
      .ok (roundUp c.psz bsize, roundUp c.psz bsize / c.psz) := by
    rw [Nat.mod_eq_of_lt ha.pszW, Nat.mod_eq_of_lt (by omega)]
    have := roundLoop_ok c bsize hpsz hw (bsize + 1) 1 (by omega) (by omega) (by omega) hwords (by omega)
    rw [Nat.one_mul] at this
    exact this
  generalize hbs : roundUp c.psz bsize = bs at *
  have hmodbs : bs % 65536 = bs := Nat.mod_eq_of_lt (by omega)
  have hn1 : 1 ≤ ssize / bs := by rw [Nat.le_div_iff_mul_le hpos]; omega
  have hk : (ssize - bs) / bs = ssize / bs - 1 := by
    have := Nat.div_eq_sub_div hpos hc3
    omega
  have hkle : ssize / bs - 1 ≤ ssize := by
    have := Nat.div_le_self ssize bs
    omega
  have haddr := ha.addr
  have hwd : bs = bs / c.psz * c.psz := (Nat.div_mul_cancel hd).symm
  obtain ⟨m', h1, h2, h3⟩ := chainLoop_ok c sstart ssize bs (bs / c.psz) hpsz hwd hple (by omega) haddr
    (ssize / bs - 1) 65537 m sstart (ssize - bs) 1 hk (by omega) (by omega) (by omega) (by omega)
  have hmulle : ssize / bs * bs ≤ ssize := Nat.div_mul_le_self _ _
  have hlast : sstart + (ssize / bs - 1) * bs + bs ≤ sstart + ssize := by
    have : (ssize / bs - 1 + 1) * bs = (ssize / bs - 1) * bs + bs := Nat.succ_mul _ _
    rw [show ssize / bs - 1 + 1 = ssize / bs by omega] at this
    omega
  have hin : inStore sstart ssize (sstart + (ssize / bs - 1) * bs) c.psz = true := by
    simp only [inStore, decide_eq_true_eq]; omega
  have geo : Geo c sstart ssize bs (ssize / bs) := {
    psz := hpsz, pszle := hple, npos := by omega, fits := hmulle, spos := by have := ha.nonNull; omega, addr := haddr,
    nW := hcount }
  refine ⟨{ free := sstart, bsize := bs, nblocks := ssize / bs, nfree := ssize / bs, nmin := ssize / bs, start := sstart,
            endp := sstart + (ssize / bs - 1) * bs, mem := stp m' (sstart + (ssize / bs - 1) * bs) 0 c.psz,
            lo := sstart, size := ssize }, ?_, geo, ?_, rfl⟩
  · have hA : decide (sstart ≠ 0 ∧ ssize ≥ c.psz ∧ (bsize + c.psz) % c.bsW > bsize) = true := by
      simp only [decide_eq_true_eq]
      exact ⟨ha.nonNull, ha.check1, ha.check2⟩
    have hB : decide (ssize ≥ bs) = true := by simp only [decide_eq_true_eq]; omega
    have hC : (ssize + 65536 - bs) % 65536 = ssize - bs := by omega
    simp only [init, hA, assertIf_true, Res.bind_ok, hround, hmodbs, hB, hC]
    rw [Nat.mod_eq_of_lt (show 1 < c.nbW by omega)]
    simp only [h1, Res.bind_ok, hin, if_true, Res.pure_eq]
    rw [show 1 + (ssize / bs - 1) = ssize / bs by omega]
  · refine { chain := ?_, perm := by simp, bsize := rfl, nblocks := rfl, nfree := by simp [blocks], pstart := rfl, endp := rfl,
             lo := rfl, size := rfl }
    have hpow : 0 < 256 ^ c.psz := Nat.pow_pos (by omega)
    have := chain_of_links c.psz (stp m' (sstart + (ssize / bs - 1) * bs) 0 c.psz) bs (ssize / bs - 1) sstart geo.spos ?_ ?_
    · rw [show ssize / bs - 1 + 1 = ssize / bs by omega] at this
      exact this
    · intro i hi
      rw [ldp_stp_ne, h2 i hi]
      have : (i + 1) * bs ≤ (ssize / bs - 1) * bs := Nat.mul_le_mul_right _ hi
      rw [Nat.succ_mul] at this
      right
      omega
    · rw [ldp_stp, Nat.zero_mod]

/-! ### Histories -/

/-- A pool in use, with what its clients know: the blocks they got and have not returned, and the number of
outstanding blocks at every moment so far. -/
structure World where
  pool : Pool
  held : List Nat
  outstanding : List Nat

/-- Histories of a pool: any sequence of gets, of puts of blocks currently held, and of arbitrary byte writes by clients into
blocks they hold. -/
inductive Reach (c : Cfg) (m : Mem) (sstart ssize bsize : Nat) : World → Prop
  | start (p : Pool) (h : init c m sstart ssize bsize = .ok p) : Reach c m sstart ssize bsize ⟨p, [], [0]⟩
  | get (w : World) (p' : Pool) (b : Nat) (hw : Reach c m sstart ssize bsize w) (h : get c w.pool = .ok (p', b)) :
      Reach c m sstart ssize bsize
        (if b = 0 then ⟨p', w.held, w.held.length :: w.outstanding⟩
         else ⟨p', b :: w.held, (w.held.length + 1) :: w.outstanding⟩)
  | put (w : World) (p' : Pool) (b : Nat) (hw : Reach c m sstart ssize bsize w) (hb : b ∈ w.held)
      (h : put c w.pool b = .ok p') :
      Reach c m sstart ssize bsize ⟨p', w.held.erase b, (w.held.length - 1) :: w.outstanding⟩
  | write (w : World) (b a : Nat) (v : BitVec 8) (hw : Reach c m sstart ssize bsize w) (hb : b ∈ w.held)
      (ha : b ≤ a ∧ a < b + getBsize w.pool) : Reach c m sstart ssize bsize { w with pool := poke w.pool a v }

theorem reach_inv {c : Cfg} {m : Mem} {sstart ssize bsize : Nat} (ha : Accepted c sstart ssize bsize)
    (hr : Representable c ssize bsize) {w : World} (h : Reach c m sstart ssize bsize w) :
    Geo c sstart ssize (roundUp c.psz bsize) (ssize / roundUp c.psz bsize) ∧
    ∃ L, Inv c sstart ssize (roundUp c.psz bsize) (ssize / roundUp c.psz bsize) w.pool L w.held ∧
      (∀ k ∈ w.outstanding, w.pool.nmin ≤ ssize / roundUp c.psz bsize - k) ∧
      (∃ k ∈ w.outstanding, w.pool.nmin = ssize / roundUp c.psz bsize - k) ∧
      w.held.length ∈ w.outstanding := by
  obtain ⟨p0, hp0, geo, hinv0, hmin0⟩ := init_ok ha hr m
  refine ⟨geo, ?_⟩
  generalize hn : ssize / roundUp c.psz bsize = n at *
  generalize hbs : roundUp c.psz bsize = bs at *
  induction h with
  | start p hp =>
    rw [hp0, Res.ok.injEq] at hp
    subst hp
    exact ⟨_, hinv0, by simp [hmin0], by simp [hmin0], by simp⟩
  | get w p' b hw hg ih =>
    obtain ⟨L, hI, h1, ⟨k, hk1, hk2⟩, hk3⟩ := ih
    cases L with
    | nil =>
      rw [get_nil geo hI, Res.ok.injEq, Prod.mk.injEq] at hg
      obtain ⟨rfl, rfl⟩ := hg
      simp only [if_true]
      refine ⟨[], hI, ?_, ⟨k, by simp [hk1], hk2⟩, by simp⟩
      intro j hj
      simp only [List.mem_cons] at hj
      rcases hj with rfl | hj
      · exact h1 _ hk3
      · exact h1 _ hj
    | cons x L =>
      obtain ⟨p2, hp2, hI2, hmin, _⟩ := get_cons geo hI
      rw [hp2, Res.ok.injEq, Prod.mk.injEq] at hg
      obtain ⟨rfl, rfl⟩ := hg
      have hx0 : x ≠ 0 := hI.chain.2.1
      have hlen := length_sum hI
      simp only [List.length_cons] at hlen
      simp only [hx0, if_false]
      refine ⟨L, hI2, ?_, ?_, by simp⟩
      · intro j hj
        simp only [List.mem_cons] at hj
        rcases hj with rfl | hj
        · omega
        · have := h1 _ hj; omega
      · by_cases hc : w.pool.nmin ≤ L.length
        · exact ⟨k, by simp [hk1], by omega⟩
        · exact ⟨w.held.length + 1, by simp, by omega⟩
  | put w p' b hw hb hp ih =>
    obtain ⟨L, hI, h1, ⟨k, hk1, hk2⟩, hk3⟩ := ih
    obtain ⟨p2, hp2, hI2, hmin⟩ := put_held geo hI hb
    rw [hp2, Res.ok.injEq] at hp
    subst hp
    refine ⟨_, hI2, ?_, ⟨k, by simp [hk1], by simp only; omega⟩, ?_⟩
    · intro j hj
      simp only [List.mem_cons] at hj
      have := h1 _ hk3
      rcases hj with rfl | hj
      · simp only; omega
      · have := h1 _ hj; simp only; omega
    · simp only [List.length_erase_of_mem hb]
      simp
  | write w b a v hw hb hx ih =>
    obtain ⟨L, hI, h1, h2, h3⟩ := ih
    have hgb : getBsize w.pool = bs := hI.bsize
    exact ⟨L, poke_held geo hI hb (by omega), h1, h2, h3⟩

/-! ### C06 -/

/-- **C06.** Whenever the arguments pass the checks and the counts are representable, initialisation succeeds whatever the
storage contained; the effective block size is the smallest positive multiple of the pointer size that is at least the requested one;
the number of blocks is the storage size divided by it; all are free; and the blocks (at
`sstart + i * bs`) are pairwise disjoint and inside the storage. -/
theorem mempool_init_partitions {c : Cfg} {sstart ssize bsize : Nat} (ha : Accepted c sstart ssize bsize)
    (hr : Representable c ssize bsize) (m : Mem) :
    ∃ p, init c m sstart ssize bsize = .ok p ∧
      (c.psz ∣ getBsize p ∧ bsize ≤ getBsize p ∧ 0 < getBsize p ∧
        ∀ s, c.psz ∣ s → bsize ≤ s → 0 < s → getBsize p ≤ s) ∧
      p.nblocks = ssize / getBsize p ∧ 0 < p.nblocks ∧ getNfree p = p.nblocks ∧
      (∀ i, i < p.nblocks → sstart ≤ sstart + i * getBsize p ∧ sstart + i * getBsize p + getBsize p ≤ sstart + ssize) ∧
      (∀ i j, i < j → sstart + i * getBsize p + getBsize p ≤ sstart + j * getBsize p) := by
  obtain ⟨p, hp, geo, hI, _⟩ := init_ok ha hr m
  have hgb : getBsize p = roundUp c.psz bsize := hI.bsize
  refine ⟨p, hp, by rw [hgb]; exact roundUp_spec c.psz bsize ha.psz, by rw [hgb]; exact hI.nblocks,
    by rw [hI.nblocks]; exact geo.npos, ?_, ?_, ?_⟩
  · show p.nfree = p.nblocks
    rw [hI.nfree, hI.nblocks]; simp [blocks]
  · intro i hi
    rw [hI.nblocks] at hi
    rw [hgb]
    have := blocks_bounds (mem_blocks.mpr ⟨i, hi, rfl⟩ : blkAddr sstart (roundUp c.psz bsize) i ∈ _)
    have hf := geo.fits
    unfold blkAddr at this
    omega
  · intro i j hij
    rw [hgb]
    have : (i + 1) * roundUp c.psz bsize ≤ j * roundUp c.psz bsize := Nat.mul_le_mul_right _ hij
    rw [Nat.succ_mul] at this
    omega

/-- **C06, limit.** The checks of `rkh_memPool_init` do not cover the width of `RKH_MPNB_T`: with 8-bit block counts (the default)
and 4-byte pointers, 1024 bytes of 4-byte blocks are accepted, but the pool then reports 0 blocks instead of 256, and the first
get halts with an assertion. -/
theorem mempool_init_accepts_unrepresentable_count :
    ∃ (c : Cfg) (sstart ssize bsize : Nat), Accepted c sstart ssize bsize ∧ c.nbW = 256 ∧
      ∀ m, ∃ p, init c m sstart ssize bsize = .ok p ∧ getBsize p = 4 ∧ ssize / getBsize p = 256 ∧ p.nblocks = 0 ∧
        get c p = .assert := by
  refine ⟨⟨4, 256, 256, true⟩, 4096, 1024, 4, ?_, rfl, ?_⟩
  · exact { psz := by decide, pszW := by decide, bsArg := by decide, szArg := by decide, nonNull := by decide,
            addr := by decide, check1 := by decide, check2 := by decide, check3 := by decide }
  · intro m
    -- the chaining loop with a wrapping counter
    have key : ∀ (k fuel : Nat) (m : Mem) (fb ssize n : Nat), ssize = 4 * k → k < fuel → 4096 ≤ fb →
        fb + 4 + ssize ≤ 4096 + 1024 →
        ∃ m', chainLoop ⟨4, 256, 256, true⟩ 4096 1024 4 1 fuel m fb ssize (n % 256) = .ok (m', fb + 4 * k, (n + k) % 256) := by
      intro k
      induction k with
      | zero =>
        intro fuel m fb ssize n hs hf _ _
        obtain ⟨fuel, rfl⟩ : ∃ f, fuel = f + 1 := ⟨fuel - 1, by omega⟩
        subst hs
        exact ⟨m, by simp [chainLoop]⟩
      | succ k ih =>
        intro fuel m fb ssize n hs hf h1 h2
        obtain ⟨fuel, rfl⟩ : ∃ f, fuel = f + 1 := ⟨fuel - 1, by omega⟩
        have hin : inStore 4096 1024 fb 4 = true := by simp only [inStore, decide_eq_true_eq]; omega
        have hld : ldp (stp m fb (fb + 1 * 4) 4) fb 4 = fb + 4 := by
          rw [ldp_stp, Nat.mod_eq_of_lt (by omega)]
        obtain ⟨m', hm'⟩ := ih fuel (stp m fb (fb + 1 * 4) 4) (fb + 4) (ssize - 4) (n + 1) (by omega) (by omega) (by omega) (by omega)
        refine ⟨m', ?_⟩
        simp only [chainLoop, show ssize ≥ 4 % 65536 by omega, if_true, hin, hld]
        rw [show (n % 256 + 1) % 256 = (n + 1) % 256 by omega, show ssize - 4 % 65536 = ssize - 4 by omega, hm']
        rw [show fb + 4 + 4 * k = fb + 4 * (k + 1) by omega, show n + 1 + k = n + (k + 1) by omega]
    obtain ⟨m', hm'⟩ := key 255 65537 m 4096 1020 1 rfl (by decide) (by decide) (by decide)
    have hin : inStore 4096 1024 (4096 + 4 * 255) 4 = true := by decide
    have hround : roundLoop ⟨4, 256, 256, true⟩ 4 5 4 1 = .ok (4, 1) := by decide
    refine ⟨{ free := 4096, bsize := 4, nblocks := 0, nfree := 0, nmin := 0, start := 4096, endp := 4096 + 4 * 255,
              mem := stp m' (4096 + 4 * 255) 0 4, lo := 4096, size := 1024 }, ?_, rfl, (by decide : 1024 / 4 = 256), rfl, ?_⟩
    · simp only [init]
      rw [show decide ((4096:Nat) ≠ 0 ∧ 1024 ≥ 4 ∧ (4 + 4) % 256 > 4) = true by decide]
      simp only [assertIf_true, Res.bind_ok]
      rw [show roundLoop ⟨4, 256, 256, true⟩ 4 (4 + 1) (4 % 256) (1 % 256) = .ok (4, 1) from hround]
      simp only [Res.bind_ok]
      rw [show decide ((1024:Nat) ≥ 4 % 65536) = true by decide]
      simp only [assertIf_true, Res.bind_ok]
      rw [show ((1024 : Nat) + 65536 - 4 % 65536) % 65536 = 1020 from rfl, hm']
      simp only [Res.bind_ok, hin, if_true, Res.pure_eq]
    · simp [get, inStore]

/-- A concrete pool meeting the hypotheses: 100 bytes at 0x2000, 4-byte pointers, requested block size 10. -/
theorem demoAccepted : Accepted ⟨4, 256, 256, true⟩ 0x2000 100 10 :=
  { psz := by decide, pszW := by decide, bsArg := by decide, szArg := by decide, nonNull := by decide,
    addr := by decide, check1 := by decide, check2 := by decide, check3 := by decide }
theorem demoRepresentable : Representable ⟨4, 256, 256, true⟩ 100 10 := ⟨by decide, by decide⟩
/-- It is initialised with 8 blocks of 12 bytes. -/
example : ∃ p, init ⟨4, 256, 256, true⟩ (fun _ => 0xAA#8) 0x2000 100 10 = .ok p ∧ p.nblocks = 8 ∧ p.bsize = 12 := by
  obtain ⟨p, h, hg, h2, _⟩ := mempool_init_partitions demoAccepted demoRepresentable (fun _ => 0xAA#8)
  have hb : getBsize p = 12 := by
    obtain ⟨⟨k, hk⟩, h3, _, h5⟩ := hg
    have := h5 12 ⟨3, rfl⟩ (by decide) (by decide)
    simp only at hk
    omega
  refine ⟨p, h, ?_, hb⟩
  rw [h2, hb]

/-! ### C07 -/

/-- **C07.** In every history (gets, puts of held blocks, arbitrary client writes into held blocks), a get never fails, and a
block it returns is one of the pool's blocks, inside the storage, and disjoint from every block currently held. -/
theorem mempool_get_is_fresh {c : Cfg} {m : Mem} {sstart ssize bsize : Nat} (ha : Accepted c sstart ssize bsize)
    (hr : Representable c ssize bsize) {w : World} (h : Reach c m sstart ssize bsize w) :
    ∃ p' b, get c w.pool = .ok (p', b) ∧
      (b ≠ 0 →
        (∃ i, i < w.pool.nblocks ∧ b = sstart + i * getBsize w.pool) ∧
        (sstart ≤ b ∧ b + getBsize w.pool ≤ sstart + ssize) ∧
        b ∉ w.held ∧ ∀ x ∈ w.held, b + getBsize w.pool ≤ x ∨ x + getBsize w.pool ≤ b) := by
  obtain ⟨geo, L, hI, _⟩ := reach_inv ha hr h
  have hgb : getBsize w.pool = roundUp c.psz bsize := hI.bsize
  rw [hgb, hI.nblocks]
  cases L with
  | nil => exact ⟨_, _, get_nil geo hI, fun h => absurd rfl h⟩
  | cons x L =>
    obtain ⟨p2, hp2, hI2, _, _⟩ := get_cons geo hI
    refine ⟨p2, x, hp2, fun _ => ?_⟩
    have hx := mem_free hI (b := x) (by simp)
    have hnd := nodupLH geo hI
    have hnm : x ∉ w.held := fun hm => (List.nodup_append.mp hnd).2.2 x (by simp) x hm rfl
    have hbd := blocks_bounds hx
    have hf := geo.fits
    refine ⟨?_, by omega, hnm, ?_⟩
    · exact mem_blocks.mp hx
    · intro y hy
      exact blocks_disjoint hx (mem_held hI hy) (by rintro rfl; exact hnm hy)

/-- **C07 (held blocks stay distinct).** Blocks held at the same time are pairwise disjoint. -/
theorem mempool_held_disjoint {c : Cfg} {m : Mem} {sstart ssize bsize : Nat} (ha : Accepted c sstart ssize bsize)
    (hr : Representable c ssize bsize) {w : World} (h : Reach c m sstart ssize bsize w) :
    w.held.Pairwise (fun a b => a + getBsize w.pool ≤ b ∨ b + getBsize w.pool ≤ a) := by
  obtain ⟨geo, L, hI, _⟩ := reach_inv ha hr h
  have hgb : getBsize w.pool = roundUp c.psz bsize := hI.bsize
  rw [hgb]
  have hnd := (List.nodup_append.mp (nodupLH geo hI)).2.1
  refine (List.Pairwise.imp_of_mem ?_ hnd)
  intro a b h1 h2 hne
  exact blocks_disjoint (mem_held hI h1) (mem_held hI h2) hne

/-- **C07 (client data is safe).** Neither a get nor a put of another block changes any byte of a held block. -/
theorem mempool_preserves_client_data {c : Cfg} {m : Mem} {sstart ssize bsize : Nat} (ha : Accepted c sstart ssize bsize)
    (hr : Representable c ssize bsize) {w : World} (h : Reach c m sstart ssize bsize w) (x a : Nat) (hx : x ∈ w.held)
    (hxa : x ≤ a ∧ a < x + getBsize w.pool) :
    (∀ p' b, get c w.pool = .ok (p', b) → p'.mem a = w.pool.mem a) ∧
    (∀ p' b, b ∈ w.held → b ≠ x → put c w.pool b = .ok p' → p'.mem a = w.pool.mem a) := by
  obtain ⟨geo, L, hI, _⟩ := reach_inv ha hr h
  have hgb : getBsize w.pool = roundUp c.psz bsize := hI.bsize
  constructor
  · intro p' b hg
    cases L with
    | nil =>
      rw [get_nil geo hI, Res.ok.injEq, Prod.mk.injEq] at hg
      rw [← hg.1]
    | cons y L =>
      obtain ⟨p2, hp2, _, _, hm⟩ := get_cons geo hI
      rw [hp2, Res.ok.injEq, Prod.mk.injEq] at hg
      rw [← hg.1, hm]
  · intro p' b hb hne hp
    simp only [put, Res.bind_eq_ok] at hp
    obtain ⟨_, _, _, _, hp⟩ := hp
    split at hp <;> simp only [Res.pure_eq, Res.ok.injEq, reduceCtorEq] at hp
    rw [← hp]
    have := blocks_disjoint (mem_held hI hb) (mem_held hI hx) hne
    have := geo.pszle
    exact stp_frame _ _ _ _ _ (by omega)

/-- Non-vacuity: a history in which a client holds two blocks, scribbles over one, returns it, and gets it again. -/
example : ∃ w, Reach ⟨4, 256, 256, true⟩ (fun _ => 0xAA#8) 0x2000 100 10 w ∧ w.held.length = 2 := by
  obtain ⟨p, h, _⟩ := init_ok demoAccepted demoRepresentable (fun _ => 0xAA#8)
  have r0 := Reach.start p h
  have step : ∀ w, Reach ⟨4, 256, 256, true⟩ (fun _ => 0xAA#8) 0x2000 100 10 w → w.held.length < 8 →
      ∃ w', Reach ⟨4, 256, 256, true⟩ (fun _ => 0xAA#8) 0x2000 100 10 w' ∧ w'.held.length = w.held.length + 1 := by
    intro w hw hl
    obtain ⟨geo, L, hI, _⟩ := reach_inv demoAccepted demoRepresentable hw
    have hlen := length_sum hI
    have h8 : 100 / roundUp 4 10 = 8 := by decide
    cases L with
    | nil => simp only [List.length_nil] at hlen; omega
    | cons x L =>
      obtain ⟨p2, hp2, hI2, _⟩ := get_cons geo hI
      have hx0 : x ≠ 0 := hI.chain.2.1
      have := Reach.get w p2 x hw hp2
      rw [if_neg hx0] at this
      exact ⟨_, this, rfl⟩
  obtain ⟨w1, r1, h1⟩ := step _ r0 (by simp)
  simp only [List.length_nil] at h1
  obtain ⟨w2, r2, h2⟩ := step w1 r1 (by omega)
  exact ⟨w2, r2, by omega⟩

/-! ### C08 -/

/-- **C08.** In every history the reported number of free blocks plus the number of held blocks is the number of blocks; get
returns NULL exactly when every block is held; returning a held block always succeeds. -/
theorem mempool_conservation {c : Cfg} {m : Mem} {sstart ssize bsize : Nat} (ha : Accepted c sstart ssize bsize)
    (hr : Representable c ssize bsize) {w : World} (h : Reach c m sstart ssize bsize w) :
    w.pool.nblocks = ssize / getBsize w.pool ∧
    getNfree w.pool + w.held.length = w.pool.nblocks ∧
    (∀ p' b, get c w.pool = .ok (p', b) → (b = 0 ↔ w.held.length = w.pool.nblocks)) ∧
    (∀ b ∈ w.held, ∃ p', put c w.pool b = .ok p' ∧ getNfree p' = getNfree w.pool + 1) := by
  obtain ⟨geo, L, hI, _⟩ := reach_inv ha hr h
  have hlen := length_sum hI
  have hgb : getBsize w.pool = roundUp c.psz bsize := hI.bsize
  refine ⟨by rw [hgb]; exact hI.nblocks, ?_, ?_, ?_⟩
  · show w.pool.nfree + _ = _
    rw [hI.nfree, hI.nblocks, hlen]
  · intro p' b hg
    rw [hI.nblocks]
    cases L with
    | nil =>
      rw [get_nil geo hI, Res.ok.injEq, Prod.mk.injEq] at hg
      simp only [List.length_nil] at hlen
      exact ⟨fun _ => by omega, fun _ => hg.2.symm⟩
    | cons y L =>
      obtain ⟨p2, hp2, _⟩ := get_cons geo hI
      rw [hp2, Res.ok.injEq, Prod.mk.injEq] at hg
      simp only [List.length_cons] at hlen
      have : y ≠ 0 := hI.chain.2.1
      exact ⟨fun h => by omega, fun h => by omega⟩
  · intro b hb
    obtain ⟨p2, hp2, hI2, _⟩ := put_held geo hI hb
    refine ⟨p2, hp2, ?_⟩
    show p2.nfree = w.pool.nfree + 1
    rw [hI2.nfree, hI.nfree]; rfl

/-- **C08 (no leak).** When every block has been returned, the full capacity is available again. -/
theorem mempool_all_returned {c : Cfg} {m : Mem} {sstart ssize bsize : Nat} (ha : Accepted c sstart ssize bsize)
    (hr : Representable c ssize bsize) {w : World} (h : Reach c m sstart ssize bsize w) (he : w.held = []) :
    getNfree w.pool = ssize / getBsize w.pool := by
  obtain ⟨h1, h2, _⟩ := mempool_conservation ha hr h
  rw [← h1, ← h2, he]
  simp

/-- **C08 (LIFO reuse).** The block returned last is the one handed out next. -/
theorem mempool_put_get {c : Cfg} {m : Mem} {sstart ssize bsize : Nat} (ha : Accepted c sstart ssize bsize)
    (hr : Representable c ssize bsize) {w : World} (h : Reach c m sstart ssize bsize w) (b : Nat) (hb : b ∈ w.held) :
    ∃ p' p'', put c w.pool b = .ok p' ∧ get c p' = .ok (p'', b) := by
  obtain ⟨geo, L, hI, _⟩ := reach_inv ha hr h
  obtain ⟨p2, hp2, hI2, _⟩ := put_held geo hI hb
  obtain ⟨p3, hp3, _⟩ := get_cons geo hI2
  exact ⟨p2, p3, hp2, hp3⟩

/-! ### C09 -/

/-- **C09.** The low watermark is the minimum, over the whole history, of the number of free blocks. -/
theorem mempool_low_watermark {c : Cfg} {m : Mem} {sstart ssize bsize : Nat} (ha : Accepted c sstart ssize bsize)
    (hr : Representable c ssize bsize) {w : World} (h : Reach c m sstart ssize bsize w) :
    (∀ k ∈ w.outstanding, getLowWmark w.pool ≤ w.pool.nblocks - k) ∧
    (∃ k ∈ w.outstanding, getLowWmark w.pool = w.pool.nblocks - k) := by
  obtain ⟨geo, L, hI, h1, h2, _⟩ := reach_inv ha hr h
  rw [hI.nblocks]
  exact ⟨h1, h2⟩

/-! ### C10 -/

/-- **C10.** With assertions compiled in, in every history: putting an address outside the pool's block range, or anything when
no block is held, halts with an assertion. -/
theorem mempool_rejects_foreign {c : Cfg} {m : Mem} {sstart ssize bsize : Nat} (ha : Accepted c sstart ssize bsize)
    (hr : Representable c ssize bsize) {w : World} (h : Reach c m sstart ssize bsize w) (hen : c.assertEn = true) (b : Nat)
    (hb : b < sstart ∨ sstart + (w.pool.nblocks - 1) * getBsize w.pool < b ∨ w.held = []) :
    put c w.pool b = .assert := by
  obtain ⟨geo, L, hI, _⟩ := reach_inv ha hr h
  have hlen := length_sum hI
  have hbs : w.pool.bsize ≠ 0 := by rw [hI.bsize]; have := geo.psz; have := geo.pszle; omega
  have hgb : getBsize w.pool = roundUp c.psz bsize := hI.bsize
  have : decide (w.pool.start ≤ b ∧ b ≤ w.pool.endp ∧ w.pool.nfree < w.pool.nblocks) = false := by
    rw [decide_eq_false_iff_not, hI.pstart, hI.endp, hI.nfree, hI.nblocks]
    rw [hgb, hI.nblocks] at hb
    unfold blkAddr
    rintro ⟨h1, h2, h3⟩
    rcases hb with hb | hb | hb
    · omega
    · omega
    · rw [hb] at hlen; simp at hlen; omega
  simp [put, hbs, this, hen]

/-- **C10, limit (mis-aligned put).** A pointer into the middle of a held block is accepted, although it is not a block. -/
theorem mempool_accepts_interior_pointer :
    ∃ (c : Cfg) (m : Mem) (w : World), c.assertEn = true ∧ Accepted c 4096 16 4 ∧ Representable c 16 4 ∧
      Reach c m 4096 16 4 w ∧ ∃ b p', b ∉ w.held ∧ (∀ i, b ≠ 4096 + i * getBsize w.pool) ∧ put c w.pool b = .ok p' := by
  have hA : Accepted ⟨4, 256, 256, true⟩ 4096 16 4 :=
    { psz := by decide, pszW := by decide, bsArg := by decide, szArg := by decide, nonNull := by decide,
      addr := by decide, check1 := by decide, check2 := by decide, check3 := by decide }
  have hR : Representable ⟨4, 256, 256, true⟩ 16 4 := ⟨by decide, by decide⟩
  obtain ⟨p, hp, geo, hI, _⟩ := init_ok hA hR (fun _ => 0)
  have hbl : blocks 4096 (roundUp (⟨4, 256, 256, true⟩ : Cfg).psz 4) (16 / roundUp (⟨4, 256, 256, true⟩ : Cfg).psz 4) = [4096, 4100, 4104, 4108] := by decide
  rw [hbl] at hI
  obtain ⟨p2, hp2, hI2, _⟩ := get_cons geo hI
  have hr := Reach.get ⟨p, [], [0]⟩ p2 4096 (Reach.start p hp) hp2
  rw [if_neg (by decide)] at hr
  refine ⟨⟨4, 256, 256, true⟩, (fun _ => 0), _, rfl, hA, hR, hr, 4102, ?_⟩
  have hgb : getBsize p2 = 4 := hI2.bsize
  have hbs : p2.bsize ≠ 0 := by rw [show p2.bsize = 4 from hgb]; decide
  have hrange : decide (p2.start ≤ 4102 ∧ 4102 ≤ p2.endp ∧ p2.nfree < p2.nblocks) = true := by
    rw [decide_eq_true_eq, hI2.pstart, hI2.endp, hI2.nfree, hI2.nblocks]
    decide
  have hin : inStore p2.lo p2.size 4102 4 = true := by rw [hI2.lo, hI2.size]; decide
  refine ⟨{ p2 with mem := stp p2.mem 4102 p2.free 4, free := 4102, nfree := (p2.nfree + 1) % 256 }, by simp, ?_, ?_⟩
  · intro i
    simp only [hgb]
    omega
  · simp only [put, hbs, ne_eq, not_false_eq_true, decide_true, assertIf_true, Res.bind_ok, hrange, hin, if_true, Res.pure_eq]

/-- **C10, limit (double free).** A block that is already free is accepted again while another block is held, and the pool
then hands the same block out twice. -/
theorem mempool_accepts_double_free :
    ∃ (c : Cfg) (m : Mem) (w : World), c.assertEn = true ∧ Accepted c 4096 16 4 ∧ Representable c 16 4 ∧
      Reach c m 4096 16 4 w ∧ ∃ b p1 p2 p3, b ∉ w.held ∧ put c w.pool b = .ok p1 ∧ get c p1 = .ok (p2, b) ∧ get c p2 = .ok (p3, b) := by
  have hA : Accepted ⟨4, 256, 256, true⟩ 4096 16 4 :=
    { psz := by decide, pszW := by decide, bsArg := by decide, szArg := by decide, nonNull := by decide,
      addr := by decide, check1 := by decide, check2 := by decide, check3 := by decide }
  have hR : Representable ⟨4, 256, 256, true⟩ 16 4 := ⟨by decide, by decide⟩
  obtain ⟨p, hp, geo, hI, _⟩ := init_ok hA hR (fun _ => 0)
  have hbl : blocks 4096 (roundUp (⟨4, 256, 256, true⟩ : Cfg).psz 4) (16 / roundUp (⟨4, 256, 256, true⟩ : Cfg).psz 4) = [4096, 4100, 4104, 4108] := by decide
  rw [hbl] at hI
  obtain ⟨p2, hp2, hI2, _⟩ := get_cons geo hI
  have hr := Reach.get ⟨p, [], [0]⟩ p2 4096 (Reach.start p hp) hp2
  rw [if_neg (by decide)] at hr
  refine ⟨⟨4, 256, 256, true⟩, (fun _ => 0), _, rfl, hA, hR, hr, 4100, ?_⟩
  have hgb : getBsize p2 = 4 := hI2.bsize
  have hbs : p2.bsize ≠ 0 := by rw [show p2.bsize = 4 from hgb]; decide
  have hrange : decide (p2.start ≤ 4100 ∧ 4100 ≤ p2.endp ∧ p2.nfree < p2.nblocks) = true := by
    rw [decide_eq_true_eq, hI2.pstart, hI2.endp, hI2.nfree, hI2.nblocks]
    decide
  have hin : inStore p2.lo p2.size 4100 4 = true := by rw [hI2.lo, hI2.size]; decide
  have hnf : p2.nfree = 3 := hI2.nfree
  have hfree : p2.free = 4100 := hI2.chain.1
  refine ⟨{ p2 with mem := stp p2.mem 4100 p2.free 4, free := 4100, nfree := 4 },
    { p2 with mem := stp p2.mem 4100 p2.free 4, free := 4100, nfree := 3, nmin := if p2.nmin > 3 then 3 else p2.nmin },
    { p2 with mem := stp p2.mem 4100 p2.free 4, free := 4100, nfree := 2,
              nmin := if (if p2.nmin > 3 then 3 else p2.nmin) > 2 then 2 else (if p2.nmin > 3 then 3 else p2.nmin) },
    by simp, ?_, ?_, ?_⟩
  · simp only [put, hbs, ne_eq, not_false_eq_true, decide_true, assertIf_true, Res.bind_ok, hrange, hin, if_true, Res.pure_eq]
    rw [hnf]
  · have : ldp (stp p2.mem 4100 p2.free 4) 4100 4 = 4100 := by rw [ldp_stp, hfree]
    simp [get, hbs, hin, this]
  · have : ldp (stp p2.mem 4100 p2.free 4) 4100 4 = 4100 := by rw [ldp_stp, hfree]
    simp [get, hbs, hin, this]

end Verif.MemPool
