import Verif.MemPool.Props
/-
Pools with more blocks than `RKH_MPNB_T` can count (C56 for representable counts, C99 for all counts).
-/
namespace Verif.MemPool
open Verif

/-- **C56** (partial: counts that `RKH_MPNB_T` represents). The pool reports the number of blocks that fit in the storage, and
get returns NULL exactly when so many blocks are held. -/
theorem mempool_count_partial {c : Cfg} {m : Mem} {sstart ssize bsize : Nat} (ha : Accepted c sstart ssize bsize)
    (hr : Representable c ssize bsize) {w : World} (h : Reach c m sstart ssize bsize w) :
    w.pool.nblocks = ssize / getBsize w.pool ∧
    ∀ p' b, get c w.pool = .ok (p', b) → (b = 0 ↔ w.held.length = ssize / getBsize w.pool) := by
  obtain ⟨h1, _, h3, _⟩ := mempool_conservation ha hr h
  exact ⟨h1, by rw [← h1]; exact h3⟩

/-- `chainLoop_ok` with a wrapping counter. -/
theorem chainLoop_wrap (c : Cfg) (lo size bs nb : Nat) (hp : 0 < c.psz) (hbs : bs = nb * c.psz) (hple : c.psz ≤ bs)
    (hbs16 : bs < 65536) (haddr : lo + size < 256 ^ c.psz)
    (k : Nat) (fuel : Nat) (m : Mem) (fb ssize n : Nat) (hk : ssize / bs = k) (hf : k < fuel)
    (hlo : lo ≤ fb) (hfit : fb + bs + ssize ≤ lo + size) :
    ∃ m', chainLoop c lo size bs nb fuel m fb ssize (n % c.nbW) = .ok (m', fb + k * bs, (n + k) % c.nbW) ∧
      (∀ i, i < k → ldp m' (fb + i * bs) c.psz = fb + (i + 1) * bs) ∧
      (∀ x, x < fb → m' x = m x) := by
  induction k generalizing fuel m fb ssize n with
  | zero =>
    obtain ⟨fuel, rfl⟩ : ∃ f, fuel = f + 1 := ⟨fuel - 1, by omega⟩
    have : ssize < bs := by
      rw [Nat.div_eq_zero_iff] at hk
      omega
    refine ⟨m, ?_, by omega, fun _ _ => rfl⟩
    simp only [chainLoop, Nat.mod_eq_of_lt hbs16, show ¬ ssize ≥ bs by omega, if_false]
    simp
  | succ k ih =>
    obtain ⟨fuel, rfl⟩ : ∃ f, fuel = f + 1 := ⟨fuel - 1, by omega⟩
    have hbpos : 0 < bs := by omega
    have hge : bs ≤ ssize := by
      apply Classical.byContradiction
      intro h
      have : ssize / bs = 0 := Nat.div_eq_of_lt (by omega)
      omega
    have hin : inStore lo size fb c.psz = true := by
      simp only [inStore, decide_eq_true_eq]; omega
    have hld : ldp (stp m fb (fb + nb * c.psz) c.psz) fb c.psz = fb + bs := by
      rw [ldp_stp, ← hbs, Nat.mod_eq_of_lt (by omega)]
    have hk' : (ssize - bs) / bs = k := by
      have := Nat.div_eq_sub_div hbpos hge
      omega
    obtain ⟨m', h1, h2, h3⟩ := ih fuel (stp m fb (fb + nb * c.psz) c.psz) (fb + bs) (ssize - bs) (n + 1) hk' (by omega)
      (by omega) (by omega)
    refine ⟨m', ?_, ?_, ?_⟩
    · simp only [chainLoop, Nat.mod_eq_of_lt hbs16, ge_iff_le, hge, if_true, hin, hld]
      rw [Nat.mod_add_mod, h1]
      have : fb + bs + k * bs = fb + (k + 1) * bs := by rw [Nat.succ_mul]; omega
      rw [this, show n + 1 + k = n + (k + 1) by omega]
    · intro i hi
      cases i with
      | zero =>
        simp only [Nat.zero_mul, Nat.add_zero, Nat.zero_add, Nat.one_mul]
        rw [← hld]
        rw [ldp_congr m' (stp m fb (fb + nb * c.psz) c.psz) fb c.psz (fun x _ hx => h3 x (by omega))]
      | succ i =>
        have := h2 i (by omega)
        have e1 : fb + bs + i * bs = fb + (i + 1) * bs := by rw [Nat.succ_mul]; omega
        have e2 : fb + bs + (i + 1) * bs = fb + (i + 1 + 1) * bs := by rw [Nat.succ_mul (i + 1)]; omega
        rw [e1, e2] at this
        exact this
    · intro x hx
      rw [h3 x (by omega), stp_frame _ _ _ _ _ (by omega)]

/-- `k` gets in a row: the blocks handed out. -/
def getMany (c : Cfg) : Nat → Pool → Res (Pool × List Nat)
  | 0, p => .ok (p, [])
  | k + 1, p => (get c p).bind fun r => (getMany c k r.1).map' fun q => (q.1, r.2 :: q.2)

/-- With a chain of free blocks and a counter that is smaller, as many blocks as the counter says are handed out; the next
get halts. -/
theorem getMany_chain {c : Cfg} {start ssize : Nat} (hen : c.assertEn = true) (hw : 1 < c.nbW) : ∀ (k : Nat) (L : List Nat) (p : Pool),
    p.bsize ≠ 0 → p.nfree = k → k < c.nbW → k ≤ L.length → p.lo = start → p.size = ssize → Chain c.psz p.mem p.free L →
    (∀ b ∈ L, inStore start ssize b c.psz = true) →
    ∃ p', getMany c k p = .ok (p', L.take k) ∧ (k < L.length → get c p' = .assert) ∧ (k = L.length → get c p' = .ok (p', 0))
  | 0, L, p, hbs, hn, _, _, hlo, hsz, hc, hin => by
    refine ⟨p, by simp [getMany], ?_, ?_⟩
    · intro hl
      cases L with
      | nil => simp at hl
      | cons b L =>
        obtain ⟨hf, hb0, _⟩ := hc
        simp [get, hbs, hf, hb0, hlo, hsz, hin b (by simp), hn, hen, assertIf, bind, Res.bind]
    · intro hl
      have : L = [] := List.eq_nil_of_length_eq_zero hl.symm
      subst this
      have hf : p.free = 0 := hc
      simp [get, hbs, hf]
  | k + 1, L, p, hbs, hn, hk, hle, hlo, hsz, hc, hin => by
    cases L with
    | nil => simp at hle
    | cons b L =>
      obtain ⟨hf, hb0, hch⟩ := hc
      have hmod : (p.nfree + (c.nbW - 1)) % c.nbW = k := by
        rw [hn, show k + 1 + (c.nbW - 1) = k + c.nbW by omega, Nat.add_mod_right, Nat.mod_eq_of_lt (by omega)]
      have hg : get c p = .ok ({ p with free := ldp p.mem b c.psz, nfree := k, nmin := if p.nmin > k then k else p.nmin }, b) := by
        simp only [get, hbs, ne_eq, not_false_eq_true, decide_true, assertIf_true, Res.bind_ok, hf, hb0, hlo, hsz,
          hin b (by simp), if_true, hmod, show p.nfree > 0 by omega, Res.pure_eq]
      obtain ⟨p', h1, h2, h3⟩ := getMany_chain hen hw k L
        { p with free := ldp p.mem b c.psz, nfree := k, nmin := if p.nmin > k then k else p.nmin } hbs rfl (by omega)
        (by simpa using hle) hlo hsz hch (fun x hx => hin x (by simp [hx]))
      refine ⟨p', ?_, fun h => h2 (by simpa using h), fun h => h3 (by simpa using h)⟩
      simp [getMany, hg, Res.bind, h1, Res.map']

/-- **C99.** Initialisation accepts storage for any number of blocks. The pool reports this number modulo the range of
`RKH_MPNB_T`; right after initialisation so many gets succeed, handing out the blocks in address order; the next get returns
NULL if the number is in range, and halts with an assertion otherwise. -/
theorem mempool_count_wraps {c : Cfg} {sstart ssize bsize : Nat} (ha : Accepted c sstart ssize bsize) (hen : c.assertEn = true)
    (hwords : roundUp c.psz bsize / c.psz < c.nbW) (m : Mem) :
    ∃ p, init c m sstart ssize bsize = .ok p ∧ getBsize p = roundUp c.psz bsize ∧ 0 < getBsize p ∧ p.nblocks = ssize / getBsize p % c.nbW ∧ getNfree p = p.nblocks ∧
      ∃ p', getMany c p.nblocks p = .ok (p', (List.range p.nblocks).map fun i => sstart + i * getBsize p) ∧
        (ssize / getBsize p < c.nbW → get c p' = .ok (p', 0)) ∧ (c.nbW ≤ ssize / getBsize p → get c p' = .assert) := by
  obtain ⟨hd, hle, hpos, hmin⟩ := roundUp_spec c.psz bsize ha.psz
  have hpsz := ha.psz
  have hw : bsize + c.psz < c.bsW := by
    have h1 := ha.check2
    have h2 := ha.bsArg
    have h3 := ha.pszW
    apply Classical.byContradiction
    intro hn
    rw [Nat.mod_eq_sub_mod (by omega), Nat.mod_eq_of_lt (by omega)] at h1
    omega
  have hple : c.psz ≤ roundUp c.psz bsize := Nat.le_of_dvd hpos hd
  have hsz := ha.szArg
  have hc3 := ha.check3
  have hw1 : 1 ≤ roundUp c.psz bsize / c.psz := by rw [Nat.le_div_iff_mul_le hpsz]; omega
  have hround : roundLoop c bsize (bsize + 1) (c.psz % c.bsW) (1 % c.nbW) =
      .ok (roundUp c.psz bsize, roundUp c.psz bsize / c.psz) := by
    rw [Nat.mod_eq_of_lt ha.pszW, Nat.mod_eq_of_lt (by omega)]
    have := roundLoop_ok c bsize hpsz hw (bsize + 1) 1 (by omega) (by omega) (by omega) hwords (by omega)
    rw [Nat.one_mul] at this
    exact this
  generalize hbs : roundUp c.psz bsize = bs at *
  have hmodbs : bs % 65536 = bs := Nat.mod_eq_of_lt (by omega)
  have hn1 : 1 ≤ ssize / bs := by rw [Nat.le_div_iff_mul_le hpos]; omega
  have hk : (ssize - bs) / bs = ssize / bs - 1 := by
    have := Nat.div_eq_sub_div hpos hc3
    omega
  have hkle : ssize / bs - 1 ≤ ssize := by
    have := Nat.div_le_self ssize bs
    omega
  have haddr := ha.addr
  have hwd : bs = bs / c.psz * c.psz := (Nat.div_mul_cancel hd).symm
  obtain ⟨m', h1, h2, h3⟩ := chainLoop_wrap c sstart ssize bs (bs / c.psz) hpsz hwd hple (by omega) haddr
    (ssize / bs - 1) 65537 m sstart (ssize - bs) 1 hk (by omega) (by omega) (by omega)
  have hmulle : ssize / bs * bs ≤ ssize := Nat.div_mul_le_self _ _
  have hlast : sstart + (ssize / bs - 1) * bs + bs ≤ sstart + ssize := by
    have : (ssize / bs - 1 + 1) * bs = (ssize / bs - 1) * bs + bs := Nat.succ_mul _ _
    rw [show ssize / bs - 1 + 1 = ssize / bs by omega] at this
    omega
  have hin : inStore sstart ssize (sstart + (ssize / bs - 1) * bs) c.psz = true := by
    simp only [inStore, decide_eq_true_eq]; omega
  have hchain : Chain c.psz (stp m' (sstart + (ssize / bs - 1) * bs) 0 c.psz) sstart (blocks sstart bs (ssize / bs)) := by
    have := chain_of_links c.psz (stp m' (sstart + (ssize / bs - 1) * bs) 0 c.psz) bs (ssize / bs - 1) sstart
      (by have := ha.nonNull; omega) ?_ ?_
    · rw [show ssize / bs - 1 + 1 = ssize / bs by omega] at this
      exact this
    · intro i hi
      rw [ldp_stp_ne, h2 i hi]
      have : (i + 1) * bs ≤ (ssize / bs - 1) * bs := Nat.mul_le_mul_right _ hi
      rw [Nat.succ_mul] at this
      right
      omega
    · rw [ldp_stp, Nat.zero_mod]
  have hmle : ssize / bs % c.nbW ≤ ssize / bs := Nat.mod_le _ _
  have hmlt : ssize / bs % c.nbW < c.nbW := Nat.mod_lt _ (by omega)
  have hblen : (blocks sstart bs (ssize / bs)).length = ssize / bs := by simp [blocks]
  let p : Pool := {
    free := sstart
    bsize := bs
    nblocks := ssize / bs % c.nbW
    nfree := ssize / bs % c.nbW
    nmin := ssize / bs % c.nbW
    start := sstart
    endp := sstart + (ssize / bs - 1) * bs
    mem := stp m' (sstart + (ssize / bs - 1) * bs) 0 c.psz
    lo := sstart
    size := ssize }
  have hinit : init c m sstart ssize bsize = .ok p := by
    have hA : decide (sstart ≠ 0 ∧ ssize ≥ c.psz ∧ (bsize + c.psz) % c.bsW > bsize) = true := by
      simp only [decide_eq_true_eq]
      exact ⟨ha.nonNull, ha.check1, ha.check2⟩
    have hB : decide (ssize ≥ bs) = true := by simp only [decide_eq_true_eq]; omega
    have hC : (ssize + 65536 - bs) % 65536 = ssize - bs := by omega
    simp only [init, hA, assertIf_true, Res.bind_ok, hround, hmodbs, hB, hC]
    simp only [h1, Res.bind_ok, hin, if_true, Res.pure_eq, p]
    rw [show 1 + (ssize / bs - 1) = ssize / bs by omega]
  obtain ⟨p', g1, g2, g3⟩ := getMany_chain (start := sstart) (ssize := ssize) hen (by omega) (ssize / bs % c.nbW) (blocks sstart bs (ssize / bs)) p
    (by show bs ≠ 0; omega) rfl hmlt (by omega) rfl rfl hchain (fun b hb => by
      obtain ⟨i, hi, rfl⟩ := mem_blocks.mp hb
      have := blocks_bounds hb
      simp only [inStore, decide_eq_true_eq]
      omega)
  refine ⟨p, hinit, rfl, hpos, rfl, rfl, p', ?_, fun h => g3 ?_, fun h => g2 ?_⟩
  · rw [show p.nblocks = ssize / bs % c.nbW from rfl, g1]
    congr 2
    show List.take _ ((List.range _).map _) = _
    rw [← List.map_take, List.take_range, Nat.min_eq_left hmle]
    rfl
  · rw [hblen]
    exact Nat.mod_eq_of_lt h
  · rw [hblen]
    show ssize / bs % c.nbW < ssize / bs
    have : c.nbW ≤ ssize / bs := h
    omega

/-- 1200 bytes of 4-byte blocks with 8-bit counts: 44 of 300 blocks can be had. -/
example : Accepted ⟨4, 256, 256, true⟩ 4096 1200 4 ∧ roundUp 4 4 / 4 < 256 ∧ 1200 / roundUp 4 4 = 300 ∧ 300 % 256 = 44 :=
  ⟨{ psz := by decide, pszW := by decide, bsArg := by decide, szArg := by decide, nonNull := by decide,
     addr := by decide, check1 := by decide, check2 := by decide, check3 := by decide }, by decide, by decide, by decide⟩

end Verif.MemPool
