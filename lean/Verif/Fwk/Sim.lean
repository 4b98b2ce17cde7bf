import Verif.Fwk.AoLemmas
/-
Every operation of the model refines the specification (helper lemmas; the property theorems are in `Props`).
-/
namespace Verif.Fwk
open Verif Verif.Fwk.Spec

/-- Configuration constraints of the code: assertions compiled in, at most 64 priorities (8 rows of 8 bits), pool numbers
that fit in `rui8_t`. -/
structure Wf (c : Cfg) : Prop where
  en : c.assertEn = true
  sma : c.maxSma ≤ 64
  pool : c.maxPool ≤ 255

/-! ### Ready group facts in terms of the invariant -/

theorem members_of_inv {maxSma : Nat} {g : RdyGrp.Grp} (h : RdyGrp.Inv maxSma g) :
    RdyGrp.rowBits 0 g.tbl = (List.range maxSma).filter (RdyGrp.bit g) := by
  have hs1 := RdyGrp.sorted_rowBits 0 g.tbl
  have hs2 : ((List.range maxSma).filter (RdyGrp.bit g)).Pairwise (· < ·) := List.pairwise_lt_range.filter _
  have hmem : ∀ p, p ∈ RdyGrp.rowBits 0 g.tbl ↔ p ∈ (List.range maxSma).filter (RdyGrp.bit g) := by
    intro p
    rw [RdyGrp.bit_iff_mem]
    simp only [List.mem_filter, List.mem_range]
    exact ⟨fun hp => ⟨h.range p hp, hp⟩, fun hp => hp.2⟩
  have hnd1 : (RdyGrp.rowBits 0 g.tbl).Nodup := hs1.imp (fun h => Nat.ne_of_lt h)
  have hnd2 : ((List.range maxSma).filter (RdyGrp.bit g)).Nodup := hs2.imp (fun h => Nat.ne_of_lt h)
  exact ((List.perm_ext_iff_of_nodup hnd1 hnd2).mpr (fun p => hmem p)).eq_of_pairwise
    (fun a b _ _ h1 h2 => by omega) hs1 hs2

theorem findHighest_of_inv {maxSma : Nat} {g : RdyGrp.Grp} (hinv : RdyGrp.Inv maxSma g)
    (hready : RdyGrp.isReady g = true) :
    ∃ p, RdyGrp.findHighest g = .ok p ∧ RdyGrp.bit g p = true ∧ ∀ q, q < p → RdyGrp.bit g q = false := by
  have hrl := RdyGrp.rows_le maxSma
  have hlen := hinv.len
  have hgz : g.grp ≠ 0#8 := by simpa [RdyGrp.isReady] using hready
  obtain ⟨r, hr8, h1, h2, h3⟩ := RdyGrp.leastBit_table g.grp hgz
  obtain ⟨c, hc, hcz⟩ := (hinv.grp r hr8).mp h2
  obtain ⟨n, hn8, k1, k2, k3⟩ := RdyGrp.leastBit_table c hcz
  refine ⟨8 * r + n, ?_, ?_, ?_⟩
  · simp only [RdyGrp.findHighest, h1, Res.bind_ok, RdyGrp.ix, hc, k1, Res.pure_eq, Nat.shiftLeft_eq]
    congr 1
    omega
  · simp only [RdyGrp.bit]
    rw [show (8 * r + n) / 8 = r by omega, show (8 * r + n) % 8 = n by omega, hc]
    exact k2
  · intro q hq
    simp only [RdyGrp.bit]
    split
    · rename_i c' hc'
      by_cases hqr : q / 8 = r
      · rw [hqr, hc, Option.some.injEq] at hc'
        subst hc'
        exact k3 _ (by omega)
      · have hz := h3 (q / 8) (by omega)
        by_cases hc0 : c' = 0#8
        · simp [hc0]
        · have := (hinv.grp (q / 8) (by omega)).mpr ⟨c', hc', hc0⟩
          rw [hz] at this
          simp at this
    · rfl

/-! ### Pools -/

/-- The registered pools are the first slots, each a valid memory pool with the given free and used blocks. -/
structure PoolRel (c : Cfg) (slots : List MemPool.Pool) (regs : List Nat) (pools : List APool) : Prop where
  slen : slots.length = c.maxPool
  regs : regs = List.range pools.length
  le : pools.length ≤ c.maxPool
  pool : ∀ (i : Nat) P, pools[i]? = some P → ∃ p n, slots[i]? = some p ∧ MemPool.Geo c.mp P.start P.size P.bsize n ∧
    MemPool.Inv c.mp P.start P.size P.bsize n p P.free P.used
  rest : ∀ (i : Nat) p, pools.length ≤ i → slots[i]? = some p → p.nblocks = 0

theorem PoolRel.reg {c : Cfg} {slots : List MemPool.Pool} {regs : List Nat} {pools : List APool}
    (h : PoolRel c slots regs pools) {i : Nat} (hi : i < pools.length) : regs[i]? = some i := by
  rw [h.regs]; simp [hi]

theorem PoolRel.upd {c : Cfg} {slots : List MemPool.Pool} {regs : List Nat} {pools : List APool}
    (h : PoolRel c slots regs pools) {i n : Nat} {P Q : APool} {q : MemPool.Pool} (hP : pools[i]? = some P)
    (hg : MemPool.Geo c.mp Q.start Q.size Q.bsize n) (hq : MemPool.Inv c.mp Q.start Q.size Q.bsize n q Q.free Q.used) :
    PoolRel c (slots.set i q) regs (pools.set i Q) := by
  have hlt : i < pools.length := (List.getElem?_eq_some_iff.mp hP).1
  have hle := h.le
  have hsl := h.slen
  constructor
  · rw [List.length_set]; exact h.slen
  · rw [List.length_set]; exact h.regs
  · rw [List.length_set]; exact h.le
  · intro j R hR
    by_cases hj : j = i
    · subst hj
      rw [List.getElem?_set_self hlt] at hR
      cases hR
      exact ⟨q, n, List.getElem?_set_self (by omega), hg, hq⟩
    · rw [List.getElem?_set_ne (Ne.symm hj)] at hR ⊢
      exact h.pool j R hR
  · intro j p hj hp
    rw [List.length_set] at hj
    rw [List.getElem?_set_ne (by omega)] at hp
    exact h.rest j p hj hp

theorem getPool_skip (c : Cfg) (m : MemPool.Mem) (s n es : Nat) (slots : List MemPool.Pool) (k i : Nat) (p0 : MemPool.Pool)
    (h1 : ∀ (j : Nat) p, j < k → slots[j]? = some p → p.nblocks ≠ 0) (h2 : slots[k]? = some p0) (h3 : p0.nblocks = 0) :
    getPool c m s n es i slots = (MemPool.init c.mp m s n (es % c.mpc.bsW)).bind fun p' => .ok (some (i + k, p')) := by
  induction slots generalizing k i with
  | nil => simp at h2
  | cons p slots ih =>
    cases k with
    | zero =>
      simp only [List.getElem?_cons_zero, Option.some.injEq] at h2
      subst h2
      simp [getPool, h3]
    | succ k =>
      have hp : p.nblocks ≠ 0 := h1 0 p (by omega) (by simp)
      simp only [getPool, hp, if_false]
      rw [ih k (i + 1) (fun j q hj hq => h1 (j + 1) q (by omega) (by simpa using hq)) (by simpa using h2)]
      simp [Nat.add_assoc, Nat.add_comm 1]

theorem findPool_eq {c : Cfg} {slots : List MemPool.Pool} {regs : List Nat} {pools : List APool}
    (h : PoolRel c slots regs pools) (es : Nat) :
    findPool slots es 0 regs = .ok (pools.findIdx fun P => decide (es ≤ P.bsize % 256)) := by
  have H : ∀ (suf pre : List APool), pools = pre ++ suf →
      findPool slots es pre.length (List.range' pre.length suf.length) =
        .ok (pre.length + suf.findIdx fun P => decide (es ≤ P.bsize % 256)) := by
    intro suf
    induction suf with
    | nil => intro pre _; simp [findPool]
    | cons P suf ih =>
      intro pre hp
      have hP : pools[pre.length]? = some P := by rw [hp]; simp
      obtain ⟨p, n, hs, _, hinv⟩ := h.pool _ P hP
      simp only [List.length_cons, List.range'_succ, findPool, hs, blockSize, hinv.bsize, List.findIdx_cons]
      by_cases hle : es ≤ P.bsize % 256
      · rw [if_neg (by omega)]; simp [hle]
      · rw [if_pos (by omega)]
        have := ih (pre ++ [P]) (by rw [hp]; simp)
        simp only [List.length_append, List.length_cons, List.length_nil, Nat.zero_add] at this
        rw [this]
        simp [hle]; omega
  have := H pools [] rfl
  rw [h.regs, List.range_eq_range']
  simpa using this

/-! ### The simulation relation -/

/-- Blocks about to be returned. -/
def putsOf (conts : List Cont) (i e : Nat) : Prop := Cont.put i e ∈ conts

/-- The concrete world `w` represents the abstract state `a`, and `a` is consistent. -/
structure R (c : Cfg) (w : World) (a : Abs) : Prop where
  ao : AoRel c w.sptbl w.aos w.rdy a.reg a.aos
  dq : Rel2 (QRep c false) w.dqs a.dqs
  chLen : w.chans.length = c.maxChan
  ch : ∀ (k : Nat) g, w.chans[k]? = some g → RdyGrp.Inv c.maxSma g ∧ ∀ p, RdyGrp.bit g p = a.sub k p
  pl : PoolRel c w.slots w.regs a.pools
  ev : EvInv c (holders a) (putsOf a.conts) a.pools a.fresh a.sig w.hdr
  ph : w.ph = a.ph
  conts : w.conts = a.conts
  fetchOk : ∀ ao, a.ph = .fetch ao → ∃ x, a.aos[ao]? = some x ∧ a.reg x.prio = some ao ∧ x.q.items ≠ []
  rc3Ok : ∀ ao e, Cont.rc3 ao e ∈ a.conts → ∃ x, a.aos[ao]? = some x ∧ e ∈ x.q.items
  gc2Ok : ∀ e, Cont.gc2 e ∈ a.conts → c.static e = false

theorem usable' {c : Cfg} {a : Abs} {e : Nat} (h : Usable c a e) : Usable' c (holders a) (putsOf a.conts) a.fresh e := h

theorem incRef_eq (w : World) (e : Nat) : incRef w e = { w with hdr := incHdr w.hdr e } := by
  unfold incRef incHdr setHdr
  split <;> rfl

/-- Both posting functions. -/
def postC (front : Bool) (c : Cfg) (w : World) (ao e : Nat) : Res World :=
  match w.aos[ao]? with
  | none => .ub
  | some a =>
    (qputC front c.qc a.q e).bind fun r =>
    (applySync c w.rdy a.prio r.2).bind fun g =>
    .ok { w with hdr := incHdr w.hdr e, aos := w.aos.set ao { a with q := r.1 }, rdy := g }

theorem postFifo_eq (c : Cfg) (w : World) (ao e : Nat) : postFifo c w ao e = postC false c w ao e := by
  simp only [postFifo, incRef_eq, postC, qputC, Bool.false_eq_true, if_false]
  cases w.aos[ao]? <;> rfl

theorem postLifo_eq (c : Cfg) (w : World) (ao e : Nat) : postLifo c w ao e = postC true c w ao e := by
  simp only [postLifo, incRef_eq, postC, qputC, if_true]
  cases w.aos[ao]? <;> rfl

/-- The abstract state after a successful post. -/
def posted (front : Bool) (a : Abs) (ao : Nat) (y : AAo) (e : Nat) : Abs :=
  { a with aos := a.aos.set ao { y with q := { y.q with items := if front then e :: y.q.items else y.q.items ++ [e] } },
           fresh := a.fresh.erase e }

theorem holders_posted {front : Bool} {a : Abs} {ao e : Nat} {y : AAo} (hy : a.aos[ao]? = some y) :
    (holders (posted front a ao y e)).Perm (e :: holders a) := by
  unfold holders posted
  simp only [List.append_assoc]
  have h1 := flatMap_set_add (fun x : AAo => x.q.items) (e := e)
    (y := { y with q := { y.q with items := if front then e :: y.q.items else y.q.items ++ [e] } }) hy (by
      cases front
      · simpa using List.perm_append_singleton e y.q.items
      · simp)
  rw [← List.cons_append]
  exact h1.append_right _

/-- Posting to a registered active object. -/
theorem R.post {c : Cfg} {w : World} {a : Abs} (h : R c w a) (wf : Wf c) {ao e : Nat} {y : AAo}
    (hy : a.aos[ao]? = some y) (hreg : a.reg y.prio = some ao) (hu : Usable c a e) (hr : Room c a e 1) (front : Bool) :
    (y.q.items.length = y.q.cap → postC front c w ao e = .assert ∧ Spec.post front a ao e = .assert) ∧
    (y.q.items.length ≠ y.q.cap → Spec.post front a ao e = .ok (posted front a ao y e) ∧
      ∃ w', postC front c w ao e = .ok w' ∧ R c w' (posted front a ao y e)) := by
  obtain ⟨x, hx, hpr, h1, h2⟩ := h.ao.put wf.sma wf.en hy hreg hu.1 front
  constructor
  · intro hf
    refine ⟨?_, ?_⟩
    · simp only [postC, hx, h1 hf, Res.bind'_assert]
    · simp [Spec.post, hy, qput, hf]
  · intro hf
    obtain ⟨q', s, g, hq, hs, hao⟩ := h2 hf
    refine ⟨by simp [Spec.post, hy, qput, hf, posted],
      { w with hdr := incHdr w.hdr e, aos := w.aos.set ao { x with q := q' }, rdy := g }, ?_, ?_⟩
    · simp only [postC, hx, hq, hs, Res.bind'_ok]
    have hlt : ao < a.aos.length := (List.getElem?_eq_some_iff.mp hy).1
    refine { ao := hao, dq := h.dq, chLen := h.chLen, ch := h.ch, pl := h.pl, ph := h.ph, conts := h.conts, ev := ?_,
             fetchOk := ?_, rc3Ok := ?_, gc2Ok := h.gc2Ok }
    · exact (h.ev.add (usable' hu) hr).perm (holders_posted hy)
    · intro ao' hph
      obtain ⟨z, hz, hzr, hzi⟩ := h.fetchOk ao' hph
      by_cases hi : ao' = ao
      · subst hi
        rw [hy] at hz; cases hz
        exact ⟨_, List.getElem?_set_self hlt, hzr, by simp only; split <;> simp⟩
      · exact ⟨z, by simp only [posted]; rw [List.getElem?_set_ne (Ne.symm hi)]; exact hz, hzr, hzi⟩
    · intro ao' e' he'
      obtain ⟨z, hz, hzi⟩ := h.rc3Ok ao' e' he'
      by_cases hi : ao' = ao
      · subst hi
        rw [hy] at hz; cases hz
        exact ⟨_, List.getElem?_set_self hlt, by simp only; split <;> simp [hzi]⟩
      · exact ⟨z, by simp only [posted]; rw [List.getElem?_set_ne (Ne.symm hi)]; exact hz, hzi⟩

theorem refs_posted {front : Bool} {a : Abs} {ao e : Nat} {y : AAo} (hy : a.aos[ao]? = some y) :
    refs (posted front a ao y e) e = refs a e + 1 := by
  unfold refs
  rw [(holders_posted hy).count_eq, List.count_cons_self]

/-- An event that is referenced and not being given back stays usable. -/
def Live (a : Abs) (e : Nat) : Prop := 0 < refs a e ∧ ∀ i, Cont.put i e ∉ a.conts

/-- The callback of publish, for the whole list of subscribers. -/
theorem R.deliver {c : Cfg} (wf : Wf c) {e : Nat} (he : e ≠ 0) (sender : Option Nat) (l : List Nat)
    (hl : ∀ p ∈ l, p < c.maxSma) : ∀ (w : World) (a : Abs), R c w a → Live a e → Room c a e l.length →
    FinRel (R c) (RdyGrp.foldRes (publishCb c e sender) w l) (RdyGrp.foldRes (Spec.deliver e sender) a l) ∧
      RdyGrp.foldRes (Spec.deliver e sender) a l ≠ .ub := by
  induction l with
  | nil => intro w a h _ _; exact ⟨h, by simp [RdyGrp.foldRes]⟩
  | cons p l ih =>
    intro w a h hlive hroom
    have hp := hl p (by simp)
    have htbl := h.ao.tbl p hp
    simp only [RdyGrp.foldRes, publishCb, htbl, Spec.deliver]
    cases hreg : a.reg p with
    | none => simp [wf.en, FinRel]
    | some ao =>
      simp only [Option.isSome_some, assertIf_true, Res.bind'_ok]
      have hroom' : ∀ b : Abs, refs b e = refs a e + 1 → Room c b e l.length := by
        intro b hb
        rcases hroom with h1 | h1
        · exact .inl h1
        · right; rw [hb]; simp only [List.length_cons] at h1; omega
      by_cases hs : some ao = sender
      · simp only [hs, ne_eq, not_true_eq_false, if_false, if_true, Res.bind'_ok]
        refine ih (fun q hq => hl q (by simp [hq])) w a h hlive ?_
        rcases hroom with h1 | h1
        · exact .inl h1
        · right; simp only [List.length_cons] at h1; omega
      · simp only [hs, ne_eq, not_false_iff, if_true, if_false, postFifo_eq]
        obtain ⟨_, y, hy, hyp⟩ := h.ao.regOk p ao hreg
        have hroom1 : Room c a e 1 := by
          rcases hroom with h1 | h1
          · exact .inl h1
          · right; simp only [List.length_cons] at h1; omega
        obtain ⟨hA, hB⟩ := h.post wf hy (by rw [hyp]; exact hreg) ⟨he, .inr (.inr hlive)⟩ hroom1 false
        by_cases hf : y.q.items.length = y.q.cap
        · obtain ⟨h1, h2⟩ := hA hf
          simp [h1, h2, FinRel]
        · obtain ⟨h2, w', h1, hR⟩ := hB hf
          simp only [h1, h2, Res.bind'_ok]
          refine ih (fun q hq => hl q (by simp [hq])) w' _ hR ⟨?_, hlive.2⟩ (hroom' _ (refs_posted hy))
          rw [refs_posted hy]; omega

end Verif.Fwk
