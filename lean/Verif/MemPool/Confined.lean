import Verif.MemPool.Props
/-
C121: a memory pool reads and writes nothing outside the storage it was given.
-/
namespace Verif.MemPool
open Verif

/-- Two memories agree outside the storage. -/
def AgreeOutside (lo size : Nat) (m m' : Mem) : Prop := ∀ x, x < lo ∨ lo + size ≤ x → m' x = m x

/-- The bytes of an object that passes the check all lie in the storage. -/
theorem inStore_iff {lo size a k : Nat} (hk : 0 < k) : inStore lo size a k = true ↔ ∀ i, i < k → lo ≤ a + i ∧ a + i < lo + size := by
  simp only [inStore, decide_eq_true_eq]
  constructor
  · intro h i hi; omega
  · intro h
    have h0 := h 0 hk
    have h1 := h (k - 1) (by omega)
    omega

theorem stp_outside {lo size a v k : Nat} {m : Mem} (hk : 0 < k) (h : inStore lo size a k = true) : AgreeOutside lo size m (stp m a v k) := by
  have h' := (inStore_iff hk).1 h
  have h0 := h' 0 hk
  have h1 := h' (k - 1) (by omega)
  intro x hx
  exact stp_frame _ _ _ _ _ (by omega)

theorem chain_outside {c : Cfg} (hp : 0 < c.psz) {lo size bs nb : Nat} : ∀ (fuel : Nat) (m : Mem) (fb ssize n : Nat) (r : Mem × Nat × Nat),
    chainLoop c lo size bs nb fuel m fb ssize n = .ok r → AgreeOutside lo size m r.1 := by
  intro fuel
  induction fuel with
  | zero => intro m fb ssize n r h; simp [chainLoop] at h
  | succ f ih =>
    intro m fb ssize n r h
    simp only [chainLoop] at h
    split at h
    · split at h
      · rename_i hin
        intro x hx
        rw [ih _ _ _ _ _ h x hx]
        exact stp_outside hp hin x hx
      · cases h
    · simp only [Res.ok.injEq] at h
      subst h
      intro x _; rfl

/-- Whatever its arguments (also ones the checks do not catch), a call that the model does not report as an access outside the storage
changes no byte outside of it, and every block it hands out begins inside. -/
theorem mempool_calls_confined (c : Cfg) (hp : 0 < c.psz) :
    (∀ m sstart ssize bsize p, init c m sstart ssize bsize = .ok p → AgreeOutside sstart ssize m p.mem ∧ p.lo = sstart ∧ p.size = ssize) ∧
    (∀ p p' b, get c p = .ok (p', b) → p'.mem = p.mem ∧ p'.lo = p.lo ∧ p'.size = p.size ∧
      (b ≠ 0 → ∀ i, i < c.psz → p.lo ≤ b + i ∧ b + i < p.lo + p.size)) ∧
    (∀ p p' b, put c p b = .ok p' → AgreeOutside p.lo p.size p.mem p'.mem ∧ p'.lo = p.lo ∧ p'.size = p.size ∧
      ∀ i, i < c.psz → p.lo ≤ b + i ∧ b + i < p.lo + p.size) := by
  refine ⟨?_, ?_, ?_⟩
  · intro m sstart ssize bsize p h
    simp only [init, Res.bind_eq_ok] at h
    obtain ⟨_, _, ⟨bs, nb⟩, _, _, _, ⟨m1, fb, n⟩, h3, h4⟩ := h
    split at h4 <;> simp only [Res.pure_eq, Res.ok.injEq, reduceCtorEq] at h4
    rename_i hin
    subst h4
    refine ⟨fun x hx => ?_, rfl, rfl⟩
    rw [← chain_outside hp _ _ _ _ _ _ h3 x hx]
    exact stp_outside hp hin x hx
  · intro p p' b h
    simp only [get, Res.bind_eq_ok] at h
    obtain ⟨_, _, h⟩ := h
    split at h
    · split at h
      · rename_i hin
        simp only [Res.bind_eq_ok] at h
        obtain ⟨_, _, h⟩ := h
        simp only [Res.pure_eq, Res.ok.injEq, Prod.mk.injEq] at h
        obtain ⟨rfl, rfl⟩ := h
        exact ⟨rfl, rfl, rfl, fun _ => (inStore_iff hp).1 hin⟩
      · cases h
    · simp only [Res.pure_eq, Res.ok.injEq, Prod.mk.injEq] at h
      obtain ⟨rfl, rfl⟩ := h
      exact ⟨rfl, rfl, rfl, fun hb => absurd rfl hb⟩
  · intro p p' b h
    simp only [put, Res.bind_eq_ok] at h
    obtain ⟨_, _, _, _, h⟩ := h
    split at h <;> simp only [Res.pure_eq, Res.ok.injEq, reduceCtorEq] at h
    rename_i hin
    subst h
    exact ⟨stp_outside hp hin, rfl, rfl, (inStore_iff hp).1 hin⟩

/-- **C121.** In every history of a correctly initialised pool (clients get blocks, return them and write to the ones they hold), no
call makes an access outside the storage, and every byte outside the storage keeps the value it had. -/
theorem mempool_confined {c : Cfg} {m : Mem} {sstart ssize bsize : Nat} (ha : Accepted c sstart ssize bsize)
    (hr : Representable c ssize bsize) {w : World} (h : Reach c m sstart ssize bsize w) :
    AgreeOutside sstart ssize m w.pool.mem ∧ get c w.pool ≠ .ub ∧ ∀ b ∈ w.held, put c w.pool b ≠ .ub := by
  have hp : 0 < c.psz := (reach_inv ha hr h).1.psz
  have hsafe : get c w.pool ≠ .ub ∧ ∀ b ∈ w.held, put c w.pool b ≠ .ub := by
    obtain ⟨geo, L, hI, _⟩ := reach_inv ha hr h
    constructor
    · cases L with
      | nil => rw [get_nil geo hI]; simp
      | cons y L => obtain ⟨p2, hp2, _⟩ := get_cons geo hI; rw [hp2]; simp
    · intro b hb
      obtain ⟨p2, hp2, _⟩ := put_held geo hI hb
      rw [hp2]; simp
  refine ⟨?_, hsafe⟩
  clear hsafe
  have keep : AgreeOutside sstart ssize m w.pool.mem ∧ w.pool.lo = sstart ∧ w.pool.size = ssize := by
    induction h with
    | start p h => exact (mempool_calls_confined c hp).1 _ _ _ _ _ h
    | get w p' b hw hg ih =>
      obtain ⟨h1, h2, h3, _⟩ := (mempool_calls_confined c hp).2.1 _ _ _ hg
      have : AgreeOutside sstart ssize m p'.mem ∧ p'.lo = sstart ∧ p'.size = ssize := ⟨by rw [h1]; exact ih.1, by rw [h2]; exact ih.2.1, by rw [h3]; exact ih.2.2⟩
      split <;> exact this
    | put w p' b hw hb hq ih =>
      obtain ⟨h1, h2, h3, _⟩ := (mempool_calls_confined c hp).2.2 _ _ _ hq
      rw [ih.2.1, ih.2.2] at h1
      exact ⟨fun x hx => (h1 x hx).trans (ih.1 x hx), by rw [h2]; exact ih.2.1, by rw [h3]; exact ih.2.2⟩
    | write w b a v hw hb hx ih =>
      obtain ⟨geo, L, hI, _⟩ := reach_inv ha hr hw
      refine ⟨fun y hy => ?_, ih.2⟩
      have hgb : getBsize w.pool = roundUp c.psz bsize := hI.bsize
      have hbb := mem_held hI hb
      have hin := blocks_bounds hbb
      have hfit := geo.fits
      rw [hgb] at hx
      have : y ≠ a := by omega
      simp only [poke, upd, this, if_false]
      exact ih.1 y hy
  exact keep.1

/-- Non-vacuity: a history with a held block (the hypotheses are `demoAccepted`, `demoRepresentable`). -/
example : ∃ w, Reach ⟨4, 256, 256, true⟩ (fun _ => 0xAA#8) 0x2000 100 10 w ∧ w.held ≠ [] := by
  obtain ⟨p, h, hg, hI, _⟩ := init_ok demoAccepted demoRepresentable (fun _ => 0xAA#8)
  have r0 := Reach.start (c := ⟨4, 256, 256, true⟩) (m := fun _ => 0xAA#8) p h
  obtain ⟨geo, L, hI, _⟩ := reach_inv demoAccepted demoRepresentable r0
  have hlen := length_sum hI
  have h8 : 100 / roundUp 4 10 = 8 := by decide
  cases L with
  | nil => simp only [List.length_nil] at hlen; omega
  | cons x L =>
    obtain ⟨p2, hp2, hI2, _⟩ := get_cons geo hI
    have hx0 : x ≠ 0 := hI.chain.2.1
    have := Reach.get _ p2 x r0 hp2
    rw [if_neg hx0] at this
    exact ⟨_, this, by simp⟩

end Verif.MemPool
