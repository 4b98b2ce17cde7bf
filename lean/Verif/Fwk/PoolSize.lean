import Verif.Fwk.Model
import Verif.MemPool.Wrap
/-
How many events a registered event pool provides: `rkh_fwk_registerEvtPool` (rkhfwk_dynevt.c:156-169) takes the size of the storage as
`rui32_t` and hands it on as `rui16_t`.
-/
namespace Verif.Fwk.PoolSize
open Verif Verif.Fwk

/-- `k` allocations in a row: the events. -/
def allocMany (c : Cfg) (esize sig : Nat) : Nat → World → Res (World × List Nat)
  | 0, w => .ok (w, [])
  | k + 1, w => (ae c w esize sig).bind fun r => (allocMany c esize sig k r.1).map' fun q => (q.1, r.2 :: q.2)

end Verif.Fwk.PoolSize

namespace Verif.Fwk.PoolSize.Spec
open Verif.Fwk Verif.Fwk.PoolSize

/-- Exactly `n` allocations succeed, with the given events; the next one stops with an assertion. -/
def Delivers (c : Cfg) (w : World) (esize sig n : Nat) (evts : List Nat) : Prop :=
  evts.length = n ∧ ∃ w', allocMany c esize sig n w = .ok (w', evts) ∧ ae c w' esize sig = .assert

/-- The pools registered so far are in use and have smaller blocks than the events asked for. -/
def OthersSmaller (w : World) (esize : Nat) : Prop :=
  ∀ s ∈ w.regs, ∃ p, w.slots[s]? = some p ∧ p.nblocks ≠ 0 ∧ blockSize p < esize

/-- A call of `rkh_fwk_registerEvtPool` that passes the checks for storage of `ssize` bytes: there is room for another pool, the
arguments are in range, and blocks are smaller than 256 bytes. -/
structure Registrable (c : Cfg) (w : World) (sstart ssize bsize : Nat) : Prop where
  room : w.regs.length < c.maxPool
  slot : ∃ p ∈ w.slots, p.nblocks = 0
  acc : MemPool.Accepted c.mp sstart ssize bsize
  words : MemPool.roundUp c.mp.psz bsize / c.mp.psz < c.mp.nbW
  small : MemPool.roundUp c.mp.psz bsize < 256

end Verif.Fwk.PoolSize.Spec

namespace Verif.Fwk.PoolSize
open Verif Spec

theorem getPool_first {c : Cfg} {m : MemPool.Mem} {a sz b : Nat} {p : MemPool.Pool}
    (hp : MemPool.init c.mp m a sz (b % c.mpc.bsW) = .ok p) : ∀ (slots : List MemPool.Pool) (i : Nat), (∃ q ∈ slots, q.nblocks = 0) →
    ∃ j q, getPool c m a sz b i slots = .ok (some (i + j, p)) ∧ slots[j]? = some q ∧ q.nblocks = 0 := by
  intro slots
  induction slots with
  | nil => intro i h; obtain ⟨q, h, _⟩ := h; cases h
  | cons x slots ih =>
    intro i h
    unfold getPool
    by_cases hx : x.nblocks = 0
    · exact ⟨0, x, by simp [hx, hp, Res.bind], rfl, hx⟩
    · rw [if_neg hx]
      obtain ⟨q, hq, h0⟩ := h
      have hq : q ∈ slots := by
        rcases List.mem_cons.1 hq with h | h
        · subst h; exact absurd h0 hx
        · exact h
      obtain ⟨j, q, h1, h2, h3⟩ := ih (i + 1) ⟨q, hq, h0⟩
      exact ⟨j + 1, q, by rw [h1]; congr 3; omega, h2, h3⟩

theorem findPool_last {slots : List MemPool.Pool} {esize j : Nat} {p : MemPool.Pool} (hj : slots[j]? = some p)
    (hp : esize ≤ blockSize p) : ∀ (R : List Nat) (i : Nat), (∀ s ∈ R, ∃ q, slots[s]? = some q ∧ blockSize q < esize) →
    findPool slots esize i (R ++ [j]) = .ok (i + R.length) := by
  intro R
  induction R with
  | nil => intro i _; simp [findPool, hj, Nat.not_lt.2 hp]
  | cons s R ih =>
    intro i h
    obtain ⟨q, hq, hs⟩ := h s (by simp)
    simp only [List.cons_append, findPool, hq, if_pos hs]
    rw [ih (i + 1) fun s hs => h s (by simp [hs])]
    simp only [List.length_cons]
    congr 1; omega

/-- The situation after the registration: pool `j` is the last one registered and the only one large enough. -/
structure Sit (c : Cfg) (w : World) (R : List Nat) (j esize : Nat) (p : MemPool.Pool) : Prop where
  regs : w.regs = R ++ [j]
  pool : w.slots[j]? = some p
  fits : esize ≤ blockSize p
  others : ∀ s ∈ R, s ≠ j ∧ ∃ q, w.slots[s]? = some q ∧ blockSize q < esize

theorem ae_sit {c : Cfg} {w : World} {R : List Nat} {j esize sig : Nat} {p : MemPool.Pool} (h : Sit c w R j esize p) :
    ae c w esize sig = (MemPool.get c.mp p).bind fun r => (assertIf c.assertEn (r.2 != 0)).bind fun _ =>
      if r.2 = 0 then .ub else .ok (setHdr { w with slots := w.slots.set j r.1 } r.2 ⟨sig, 0, (R.length + 1) % 256⟩, r.2) := by
  unfold ae
  rw [h.regs, findPool_last h.pool h.fits R 0 fun s hs => (h.others s hs).2]
  simp [Res.bind, assertIf, h.pool]

theorem get_bsize {c : MemPool.Cfg} {p p' : MemPool.Pool} {b : Nat} (h : MemPool.get c p = .ok (p', b)) : p'.bsize = p.bsize := by
  unfold MemPool.get at h
  simp only [bind, Res.bind, Res.pure_eq] at h
  grind

theorem sit_next {c : Cfg} {w : World} {R : List Nat} {j esize sig b : Nat} {p p' : MemPool.Pool} (h : Sit c w R j esize p)
    (hg : MemPool.get c.mp p = .ok (p', b)) :
    Sit c (setHdr { w with slots := w.slots.set j p' } b ⟨sig, 0, (R.length + 1) % 256⟩) R j esize p' := by
  have hl : j < w.slots.length := (List.getElem?_eq_some_iff.mp h.pool).1
  refine ⟨h.regs, ?_, ?_, ?_⟩
  · simp [setHdr, hl]
  · have := get_bsize hg
    have hf := h.fits
    unfold blockSize at *
    rw [this]; exact hf
  · intro s hs
    obtain ⟨h1, h2⟩ := h.others s hs
    refine ⟨h1, ?_⟩
    simpa [setHdr, List.getElem?_set_ne (Ne.symm h1)] using h2

theorem allocMany_of_getMany {c : Cfg} {R : List Nat} {j esize sig : Nat} : ∀ (k : Nat) (w : World) (p p' : MemPool.Pool) (L : List Nat),
    Sit c w R j esize p → MemPool.getMany c.mp k p = .ok (p', L) → (∀ b ∈ L, b ≠ 0) →
    ∃ w', allocMany c esize sig k w = .ok (w', L) ∧ Sit c w' R j esize p' := by
  intro k
  induction k with
  | zero =>
    intro w p p' L h hg _
    simp only [MemPool.getMany, Res.ok.injEq, Prod.mk.injEq] at hg
    obtain ⟨rfl, rfl⟩ := hg
    exact ⟨w, rfl, h⟩
  | succ k ih =>
    intro w p p' L h hg h0
    simp only [MemPool.getMany] at hg
    rcases hr : MemPool.get c.mp p with ⟨p1, b⟩ | _ | _ <;> rw [hr] at hg <;> simp only [Res.bind] at hg
    · simp only [Res.map'_eq_ok] at hg
      obtain ⟨⟨p2, L2⟩, hg, he⟩ := hg
      simp only [Prod.mk.injEq] at he
      obtain ⟨rfl, rfl⟩ := he
      have hb : b ≠ 0 := h0 b (by simp)
      obtain ⟨w', h1, h2⟩ := ih _ p1 p2 L2 (sit_next (sig := sig) h hr) hg fun x hx => h0 x (by simp [hx])
      refine ⟨w', ?_, h2⟩
      unfold allocMany
      rw [ae_sit h, hr]
      simp [Res.bind, hb, assertIf, h1, Res.map']
    · cases hg
    · cases hg

theorem mp_psz (c : Cfg) : c.mp.bsW = c.mpc.bsW := rfl

/-- **C116.** What a registered pool provides: of the storage only its size modulo 64 KiB counts, and of the number of blocks in it
only what the counter type of pools can count. The events are the blocks in the order of their addresses. -/
theorem registered_pool_delivers {c : Cfg} {w : World} {m : MemPool.Mem} {a ssize b esize sig : Nat} (ha : c.assertEn = true)
    (hr : Registrable c w a (ssize % 65536) (b % c.mp.bsW)) (ho : OthersSmaller w esize)
    (he : esize ≤ MemPool.roundUp c.mp.psz (b % c.mp.bsW)) :
    ∃ w', registerPool c w m a ssize b = .ok w' ∧
      Delivers c w' esize sig (ssize % 65536 / MemPool.roundUp c.mp.psz (b % c.mp.bsW) % c.mp.nbW)
        ((List.range (ssize % 65536 / MemPool.roundUp c.mp.psz (b % c.mp.bsW) % c.mp.nbW)).map fun i =>
          a + i * MemPool.roundUp c.mp.psz (b % c.mp.bsW)) := by
  have hen : c.mp.assertEn = true := ha
  obtain ⟨p, hinit, hbs, h0, h1, h2, p', hg, hnext1, hnext2⟩ := MemPool.mempool_count_wraps hr.acc hen hr.words m
  obtain ⟨j, q, hget, hq, hq0⟩ := getPool_first (c := c) (m := m) (a := a) (sz := ssize % 65536) (b := b) hinit w.slots 0 hr.slot
  rw [Nat.zero_add] at hget
  have hjl : j < w.slots.length := (List.getElem?_eq_some_iff.mp hq).1
  have hroom := hr.room
  refine ⟨{ w with slots := w.slots.set j p, regs := w.regs ++ [j] }, ?_, ?_⟩
  · unfold registerPool
    simp [hget, Res.bind, assertIf, hroom, Nat.succ_le_of_lt hroom]
  · have hs : Sit c { w with slots := w.slots.set j p, regs := w.regs ++ [j] } w.regs j esize p := by
      refine ⟨rfl, by simp [hjl], ?_, ?_⟩
      · unfold blockSize
        unfold MemPool.getBsize at hbs
        rw [hbs, Nat.mod_eq_of_lt hr.small]; exact he
      · intro s hs
        obtain ⟨x, hx, hx0, hxs⟩ := ho s hs
        have hne : s ≠ j := by
          intro e; subst e
          rw [hq] at hx; cases hx; exact hx0 hq0
        exact ⟨hne, x, by simpa [List.getElem?_set_ne (Ne.symm hne)] using hx, hxs⟩
    rw [hbs] at h1
    rw [h1, hbs] at hg
    obtain ⟨w', hw, hs'⟩ := allocMany_of_getMany (sig := sig) _ _ p p' _ hs hg (by
      intro x hx
      obtain ⟨i, _, rfl⟩ := List.mem_map.1 hx
      have := hr.acc.nonNull
      omega)
    refine ⟨by simp, w', hw, ?_⟩
    rw [ae_sit hs']
    rw [hbs] at hnext1 hnext2
    rcases Nat.lt_or_ge (ssize % 65536 / MemPool.roundUp c.mp.psz (b % c.mp.bsW)) c.mp.nbW with hlt | hge
    · rw [hnext1 hlt]
      simp [Res.bind, assertIf, ha]
    · rw [hnext2 hge]; rfl

/-! ### C115: storage is used -/

/-- **C115, partial.** Below 64 KiB, and if the number of blocks can be counted, a registered pool provides as many events as blocks
fit its storage. Missing: larger storage, for which the claim is false. -/
theorem storage_is_used_partial {c : Cfg} {w : World} {m : MemPool.Mem} {a ssize b esize sig : Nat} (ha : c.assertEn = true)
    (hb : b < c.mp.bsW) (hr : Registrable c w a ssize b) (ho : OthersSmaller w esize) (he : esize ≤ MemPool.roundUp c.mp.psz b)
    (hs : ssize < 65536) (hn : ssize / MemPool.roundUp c.mp.psz b < c.mp.nbW) :
    ∃ w' evts, registerPool c w m a ssize b = .ok w' ∧ Delivers c w' esize sig (ssize / MemPool.roundUp c.mp.psz b) evts := by
  have e1 : ssize % 65536 = ssize := Nat.mod_eq_of_lt hs
  have e2 : b % c.mp.bsW = b := Nat.mod_eq_of_lt hb
  obtain ⟨w', h1, h2⟩ := registered_pool_delivers (m := m) (a := a) (ssize := ssize) (b := b) (esize := esize) (sig := sig) ha
    (by rw [e1, e2]; exact hr) ho (by rw [e2]; exact he)
  rw [e1, e2, Nat.mod_eq_of_lt hn] at h2
  exact ⟨w', _, h1, h2⟩

/-- **C115.** Storage of 64 KiB or more is accepted without assertion, and some of it is never used: fewer events can be allocated
than blocks fit. -/
theorem large_storage_is_lost {c : Cfg} {w : World} {m : MemPool.Mem} {a ssize b esize sig : Nat} (ha : c.assertEn = true)
    (hb : b < c.mp.bsW) (hr : Registrable c w a (ssize % 65536) b) (ho : OthersSmaller w esize)
    (he : esize ≤ MemPool.roundUp c.mp.psz b) (hs : 65536 ≤ ssize) :
    ∃ w' n evts, registerPool c w m a ssize b = .ok w' ∧ n < ssize / MemPool.roundUp c.mp.psz b ∧ Delivers c w' esize sig n evts := by
  have e2 : b % c.mp.bsW = b := Nat.mod_eq_of_lt hb
  obtain ⟨w', h1, h2⟩ := registered_pool_delivers (m := m) (a := a) (ssize := ssize) (b := b) (esize := esize) (sig := sig) ha
    (by rw [e2]; exact hr) ho (by rw [e2]; exact he)
  rw [e2] at h2
  refine ⟨w', _, _, h1, ?_, h2⟩
  have hsm := hr.small
  have hpos := (MemPool.roundUp_spec c.mp.psz b hr.acc.psz).2.2.1
  generalize MemPool.roundUp c.mp.psz b = bs at *
  have h3 : ssize % 65536 / bs % c.mp.nbW ≤ ssize % 65536 / bs := Nat.mod_le _ _
  have h4 : ssize % 65536 / bs + 1 ≤ ssize / bs := by
    rw [Nat.le_div_iff_mul_le hpos, Nat.add_mul, Nat.one_mul]
    have := Nat.div_mul_le_self (ssize % 65536) bs
    omega
  omega

/-! ### Concrete cases -/

/-- Pointers of 4 bytes, 16-bit block counts and block sizes. -/
def demo : Cfg :=
  { assertEn := true, maxSma := 4, maxPool := 2, maxChan := 1, qW := 256, mpc := ⟨4, 65536, 65536, true⟩, static := fun _ => false,
    junk := fun _ => ⟨0, 0, 0⟩ }

/-- Two unused pools. -/
def fresh : World := initW demo (List.replicate 2 ⟨0, 0, 0, 0, 0, 0, 0, fun _ => 0, 0, 0⟩) fun _ => ⟨0, 0, 0⟩

-- 320 bytes for events of 30 bytes: blocks of 32 bytes, 10 of them
example : Registrable demo fresh 4096 320 30 ∧ OthersSmaller fresh 30 ∧ 30 ≤ MemPool.roundUp 4 30 ∧ 320 / MemPool.roundUp 4 30 = 10 := by
  refine ⟨⟨by decide, ⟨_, List.mem_cons_self, rfl⟩, ?_, by decide, by decide⟩, ?_, by decide, by decide⟩
  · exact { psz := by decide, pszW := by decide, bsArg := by decide, szArg := by decide, nonNull := by decide,
            addr := by decide, check1 := by decide, check2 := by decide, check3 := by decide }
  · intro s hs; cases hs

-- 65600 bytes: two of 2050 blocks can be allocated
example : Registrable demo fresh 4096 (65600 % 65536) 30 ∧ 65600 % 65536 / MemPool.roundUp 4 30 = 2 ∧ 65600 / MemPool.roundUp 4 30 = 2050 := by
  refine ⟨⟨by decide, ⟨_, List.mem_cons_self, rfl⟩, ?_, by decide, by decide⟩, by decide, by decide⟩
  exact { psz := by decide, pszW := by decide, bsArg := by decide, szArg := by decide, nonNull := by decide,
          addr := by decide, check1 := by decide, check2 := by decide, check3 := by decide }

end Verif.Fwk.PoolSize
