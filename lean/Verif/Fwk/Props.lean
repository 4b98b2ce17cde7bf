import Verif.Fwk.PubLemmas
/-
Properties C15-C27 and C55: readiness, scheduling, registry, reference counting, allocation, defer/recall and
publish/subscribe, for all histories and interleavings of critical sections that respect the contract
(`Spec.Legal`), stated with the observer's notions of `Obs`.
-/
namespace Verif.Fwk
open Verif

variable {c : Cfg} {slots : List MemPool.Pool} {hdr : Nat → Evt} {ops : List Op} {outs : List Out} {w : World}

/-! ### C15, C16, C17: readiness, scheduler, registry -/

/-- **C15.** An active object is marked ready iff an object is registered at that priority and its queue holds an event. -/
theorem ready_iff_pending (h : Run c slots hdr ops outs w) (p : Nat) :
    RdyGrp.bit w.rdy p = true ↔ ∃ x, Obs.registered w p = some x ∧ Obs.contents x.q ≠ [] := by
  obtain ⟨a, hR, _⟩ := h.full
  obtain ⟨h1, h2⟩ := registered_eq hR p
  rw [hR.ao.rdyBit]
  constructor
  · rintro ⟨i, y, hr, hy, hi⟩
    obtain ⟨x, y', hx, hy', _, hc⟩ := h2 i hr
    rw [hy] at hy'; cases hy'
    exact ⟨x, hx, by rw [hc]; exact hi⟩
  · rintro ⟨x, hx, hc⟩
    obtain ⟨i, y, hr, hy, _, hc'⟩ := h1 x hx
    exact ⟨i, y, hr, hy, by rw [← hc']; exact hc⟩

/-- **C16 (selection).** Between two dispatches the scheduler's selection never fails. It reports idle exactly when
no registered object has an event; otherwise it picks the object at the lowest-numbered priority that has one. -/
theorem select_highest (h : Run c slots hdr ops outs w) (hph : w.ph = .none) :
    ∃ w' o, step c w .select = .ok (w', o) ∧
      ((o = .idle ∧ ∀ p x, Obs.registered w p = some x → Obs.contents x.q = []) ∨
       (∃ ao p x, o = .chose ao ∧ w'.ph = .fetch ao ∧ w.sptbl[p]? = some (some ao) ∧ w.aos[ao]? = some x ∧ Obs.contents x.q ≠ [] ∧
          ∀ q y, q < p → Obs.registered w q = some y → Obs.contents y.q = [])) := by
  obtain ⟨a, hR, _⟩ := h.full
  have hbit := ready_iff_pending h
  simp only [step, hph, select]
  by_cases hr : RdyGrp.isReady w.rdy = true
  · obtain ⟨p, h1, h2, h3⟩ := findHighest_of_inv hR.ao.rdyInv hr
    obtain ⟨ao, y, hreg, hy, hi⟩ := (hR.ao.rdyBit p).mp h2
    have hpm := (hR.ao.regOk p ao hreg).1
    have htbl := hR.ao.tbl p hpm
    rw [hreg] at htbl
    obtain ⟨x, hx, _, hq⟩ := hR.ao.aos.get hy
    refine ⟨{ w with ph := .fetch ao }, .chose ao, ?_, .inr ⟨ao, p, x, rfl, rfl, htbl, hx, by rw [contents_eq hq]; exact hi, ?_⟩⟩
    · simp [hr, h1, htbl, Res.map']
    · intro q y hq hy
      by_cases hc : Obs.contents y.q = []
      · exact hc
      · have := (hbit q).mpr ⟨y, hy, hc⟩
        rw [h3 q hq] at this; cases this
  · refine ⟨w, .idle, by rw [if_neg hr]; rfl, .inl ⟨rfl, ?_⟩⟩
    intro p x hx
    by_cases hc : Obs.contents x.q = []
    · exact hc
    · exact absurd ((RdyGrp.isReady_iff hR.ao.rdyInv).mpr ⟨p, (hbit p).mpr ⟨x, hx, hc⟩⟩) hr

/-- **C16 (fetch).** Whatever happened since the selection (`h` covers every interleaving), the fetch that follows it
succeeds: it takes the oldest event of the selected object and leaves the rest of its queue and all other queues as they
were. -/
theorem fetch_never_fails (h : Run c slots hdr ops outs w) {ao : Nat} (hph : w.ph = .fetch ao) :
    ∃ x e rest w' x', w.aos[ao]? = some x ∧ Obs.contents x.q = e :: rest ∧
      step c w .fetch = .ok (w', .dispatch ao e) ∧ w'.ph = .run ao e ∧
      w'.aos = w.aos.set ao x' ∧ x'.prio = x.prio ∧ Obs.contents x'.q = rest := by
  obtain ⟨a, hR, _⟩ := h.full
  have hph' : a.ph = .fetch ao := by rw [← hR.ph]; exact hph
  obtain ⟨y, hy, hreg, hi⟩ := hR.fetchOk ao hph'
  obtain ⟨e, rest, hi⟩ : ∃ e rest, y.q.items = e :: rest := by
    cases hq : y.q.items with
    | nil => exact absurd hq hi
    | cons e rest => exact ⟨e, rest, rfl⟩
  obtain ⟨x, q', s, g, hx, hget, hsync, hrel⟩ := hR.ao.get h.env.sma h.env.en hy hreg hi
  have hlt : ao < a.aos.length := (List.getElem?_eq_some_iff.mp hy).1
  have hltw : ao < w.aos.length := (List.getElem?_eq_some_iff.mp hx).1
  have he0 : e ≠ 0 := (hR.ev.hold e (by
    unfold Spec.holders
    simp only [List.mem_append, List.mem_flatMap]
    exact .inl (.inl (.inl (.inl ⟨y, List.mem_of_getElem? hy, by rw [hi]; simp⟩))))).1
  have hxy := hR.ao.aos.2 ao x y hx hy
  have hnew := hrel.aos.2 ao _ _ (List.getElem?_set_self hltw) (List.getElem?_set_self hlt)
  refine ⟨x, e, rest, { w with aos := w.aos.set ao { x with q := q' }, rdy := g, ph := .run ao e }, { x with q := q' }, hx,
    by rw [contents_eq hxy.2]; exact hi, ?_, rfl, rfl, rfl, by rw [contents_eq hnew.2]⟩
  have he0' : (e != 0) = true := by simpa using he0
  simp only [step, hph, smaGet, hx, hget, hsync, Res.bind'_ok, he0', assertIf_true, Res.map']

/-- **C17 (table).** After any history the registry maps each priority to the object activated there last and not
terminated since, and that object has that priority. Missing from C17: rejection of the priority `RKH_CFG_FWK_MAX_SMA` on
unregistering, which is false of the code (`unregister_off_by_one_ub`). -/
theorem registry_is_history_partial (h : Run c slots hdr ops outs w) (p : Nat) (hp : p < c.maxSma) :
    w.sptbl[p]? = some (Obs.registry ops [] (fun _ => none) p) ∧
    w.aos.map (·.prio) = Obs.activations ops ∧
    ∀ ao, Obs.registry ops [] (fun _ => none) p = some ao → (Obs.activations ops)[ao]? = some p := by
  obtain ⟨a, hR, _, hb⟩ := h.full
  have hreg : a.reg = Obs.registry ops [] (fun _ => none) := hb.reg
  have hprio : a.aos.map (·.prio) = Obs.activations ops := by simpa [Spec.init] using hb.prio
  refine ⟨by rw [hR.ao.tbl p hp, hreg], ?_, ?_⟩
  · rw [← hprio]
    apply List.ext_getElem?
    intro i
    simp only [List.getElem?_map]
    cases hx : w.aos[i]? with
    | none =>
      have : a.aos[i]? = none := by
        rw [List.getElem?_eq_none_iff] at hx ⊢
        rw [← hR.ao.aos.1]; exact hx
      rw [this]; rfl
    | some x =>
      have hlt : i < a.aos.length := by rw [← hR.ao.aos.1]; exact (List.getElem?_eq_some_iff.mp hx).1
      rw [List.getElem?_eq_getElem hlt]
      have := (hR.ao.aos.2 i x _ hx (List.getElem?_eq_getElem hlt)).1
      simp [this]
  · intro ao hao
    rw [← hreg] at hao
    obtain ⟨_, y, hy, hyp⟩ := hR.ao.regOk p ao hao
    rw [← hprio, List.getElem?_map, hy]
    simp [hyp]

/-- **C17 (register).** Activation succeeds exactly for a free priority in range (and a queue of non-zero length) and stops
with an assertion otherwise; on success the new object is registered there, with an empty queue, and nothing else
changes in the table. -/
theorem activate_ok_iff (h : Run c slots hdr ops outs w) (p n : Nat) (mem : List Nat) :
    (n ≠ 0 ∧ p < c.maxSma ∧ Obs.registry ops [] (fun _ => none) p = none →
      ∃ w' x, step c w (.activate p mem n) = .ok (w', .num w.aos.length) ∧ w'.aos = w.aos ++ [x] ∧ x.prio = p ∧
        Obs.contents x.q = [] ∧ w'.sptbl = w.sptbl.set p (some w.aos.length)) ∧
    (¬ (n ≠ 0 ∧ p < c.maxSma ∧ Obs.registry ops [] (fun _ => none) p = none) →
      step c w (.activate p mem n) = .assert) := by
  obtain ⟨a, hR, _, hb⟩ := h.full
  have hreg : a.reg = Obs.registry ops [] (fun _ => none) := hb.reg
  have hen := h.env.en
  simp only [step, activate, register]
  constructor
  · rintro ⟨hn, hp, hr⟩
    have htbl := hR.ao.tbl p hp
    rw [hreg, hr] at htbl
    refine ⟨{ w with aos := w.aos ++ [⟨p, Queue.init mem n true⟩], sptbl := w.sptbl.set p (some w.aos.length) },
      ⟨p, Queue.init mem n true⟩, ?_, rfl, rfl, rfl, rfl⟩
    have hn' : (n != 0) = true := by simpa using hn
    simp only [hn', hp, htbl, hR.ao.len, Res.map', assertIf_true, Res.bind'_ok, true_and, decide_true, if_true,
      List.length_append, List.length_cons, List.length_nil, Nat.zero_add, Nat.add_sub_cancel]
  · intro hc
    by_cases hn : n = 0
    · simp [hn, hen, Res.map']
    · have hn' : (n != 0) = true := by simpa using hn
      by_cases hp : p < c.maxSma
      · have htbl := hR.ao.tbl p hp
        rw [hreg] at htbl
        have : ¬ Obs.registry ops [] (fun _ => none) p = none := by simpa [hn, hp] using hc
        simp [hn', hp, htbl, this, hen, Res.map']
      · simp [hn', hp, hen, Res.map']

/-- **C17 (unregister).** Terminating an object that is not the registered one is an assertion failure, in any state. -/
theorem terminate_unregistered_asserts (hen : c.assertEn = true) {ao : Nat} {x : Ao} (hx : w.aos[ao]? = some x)
    (hlen : w.sptbl.length = c.maxSma) (hp : x.prio < c.maxSma) (hr : w.sptbl[x.prio]? ≠ some (some ao)) : step c w (.terminate ao) = .assert := by
  simp only [step, terminate, hx, unregister]
  rw [if_neg (by omega)]
  simp [hr, hen, Res.map']

/-- **C17 (defect).** The range check of `rkh_sma_unregister` admits the priority one past the end of the table: whatever
the state, the table is then accessed out of bounds. -/
theorem unregister_off_by_one_ub (w : World) (hlen : w.sptbl.length = c.maxSma) (ao : Nat) :
    unregister c w ao c.maxSma = .ub := by
  cases hen : c.assertEn <;> simp [unregister, hlen, hen]

/-! ### C18-C21: reference counting -/

/-- All references an observer can see after a history. -/
def refsAfter (ops : List Op) (w : World) : List Nat := Obs.references w (Obs.reservations ops [])

theorem refsAfter_eq (h : Run c slots hdr ops outs w) :
    ∃ a, R c w a ∧ refsAfter ops w = Spec.holders a ∧ a.fresh = Obs.fresh (ops.zip outs) [] ∧
      a.sig = Obs.signal (ops.zip outs) (fun e => (hdr e).sig) := by
  obtain ⟨a, hR, _, hb⟩ := h.full
  refine ⟨a, hR, ?_, hb.fresh, hb.sig⟩
  have : a.resv = Obs.reservations ops [] := hb.resv
  rw [refsAfter, ← this, references_eq hR]

/-- **C18.** For every allocated event the stored reference counter equals the number of places that hold it, and the
stored pool number and signal are those of its allocation. -/
theorem refcount_exact (h : Run c slots hdr ops outs w) {i e : Nat} (ha : Obs.Allocated c w i e) :
    (w.hdr e).nref = (refsAfter ops w).count e ∧ (w.hdr e).pool = i + 1 ∧
      (w.hdr e).sig = Obs.signal (ops.zip outs) (fun e => (hdr e).sig) e := by
  obtain ⟨a, hR, h1, _, h3⟩ := refsAfter_eq h
  have := hR.ev.hdrU i e ((allocated_iff hR i e).mp ha)
  rw [this, h1, h3]
  exact ⟨rfl, rfl, rfl⟩

/-- **C19.** Whatever is referenced is a static event or a block that is allocated, in exactly one pool: no referenced event
is ever in a free list, so it can neither be handed out again nor be overwritten. -/
theorem no_use_after_recycle (h : Run c slots hdr ops outs w) {e : Nat} (he : e ∈ refsAfter ops w) :
    e ≠ 0 ∧ (c.static e = true ∨ ∃ i, Obs.Allocated c w i e ∧ ∀ j, Obs.Allocated c w j e → j = i) ∧
    ∀ p ∈ Obs.pools w, e ∉ Obs.freeBlocks c p := by
  obtain ⟨a, hR, h1, _, _⟩ := refsAfter_eq h
  rw [h1] at he
  obtain ⟨h0, hu⟩ := hR.ev.hold e he
  refine ⟨h0, ?_, ?_⟩
  · rcases hu with hs | ⟨i, hi⟩
    · exact .inl hs
    · exact .inr ⟨i, (allocated_iff hR i e).mpr hi, fun j hj => hR.ev.disj j i e (.inl ((allocated_iff hR j e).mp hj)) (.inl hi)⟩
  · intro p hp hf
    obtain ⟨j, hj⟩ := List.mem_iff_getElem?.mp hp
    have hjl : j < a.pools.length := by rw [← pools_length hR]; exact (List.getElem?_eq_some_iff.mp hj).1
    obtain ⟨p', n, hp', _, _, hinv⟩ := pool_get hR (List.getElem?_eq_getElem hjl)
    rw [hj] at hp'; cases hp'
    rw [free_eq hinv] at hf
    have hfree : InFree a.pools j e := ⟨_, List.getElem?_eq_getElem hjl, hf⟩
    rcases hu with hs | ⟨i, hi⟩
    · rw [hR.ev.nostat j e (.inr hfree)] at hs; cases hs
    · have := hR.ev.disj i j e (.inl hi) (.inr hfree)
      subst this
      obtain ⟨P, hP, hm⟩ := hi
      have hnd := hR.ev.poolND i P hP
      rw [List.getElem?_eq_getElem hjl] at hP; cases hP
      rw [List.nodup_append] at hnd
      exact hnd.2.2 e hf e hm rfl

/-- **C19 (no double return).** No block occurs twice in a free list, and free lists of different pools are disjoint. -/
theorem free_lists_disjoint (h : Run c slots hdr ops outs w) {i j : Nat} {p q : MemPool.Pool}
    (hp : (Obs.pools w)[i]? = some p) (hq : (Obs.pools w)[j]? = some q) :
    (Obs.freeBlocks c p).Nodup ∧ (i ≠ j → ∀ e ∈ Obs.freeBlocks c p, e ∉ Obs.freeBlocks c q) := by
  obtain ⟨a, hR, _⟩ := refsAfter_eq h
  have get : ∀ {j : Nat} {q : MemPool.Pool}, (Obs.pools w)[j]? = some q → ∃ P, a.pools[j]? = some P ∧ Obs.freeBlocks c q = P.free := by
    intro j q hj
    have hjl : j < a.pools.length := by rw [← pools_length hR]; exact (List.getElem?_eq_some_iff.mp hj).1
    obtain ⟨p', n, hp', _, _, hinv⟩ := pool_get hR (List.getElem?_eq_getElem hjl)
    rw [hj] at hp'; cases hp'
    exact ⟨_, List.getElem?_eq_getElem hjl, free_eq hinv⟩
  obtain ⟨P, hP, h1⟩ := get hp
  obtain ⟨Q, hQ, h2⟩ := get hq
  rw [h1, h2]
  refine ⟨(List.nodup_append.mp (hR.ev.poolND i P hP)).1, ?_⟩
  intro hij e he hf
  exact hij (hR.ev.disj i j e (.inr ⟨P, hP, he⟩) (.inr ⟨Q, hQ, hf⟩))

/-- **C20 (no leak).** A block that is allocated but not referenced is one the application allocated and has not yet
handed to the framework. -/
theorem unreferenced_is_fresh (h : Run c slots hdr ops outs w) {i e : Nat} (ha : Obs.Allocated c w i e) :
    e ∉ refsAfter ops w ↔ e ∈ Obs.fresh (ops.zip outs) [] := by
  obtain ⟨a, hR, h1, h2, _⟩ := refsAfter_eq h
  rw [h1, ← h2, ← List.count_eq_zero]
  exact ⟨fun hc => hR.ev.unref i e ((allocated_iff hR i e).mp ha) hc, fun hf => (hR.ev.freshU e hf).2⟩

/-- **C20 (full capacity).** When no references and no un-posted allocations remain, every pool is full again. -/
theorem pools_full_when_idle (h : Run c slots hdr ops outs w) (h1 : refsAfter ops w = [])
    (h2 : Obs.fresh (ops.zip outs) [] = []) {i : Nat} {p : MemPool.Pool} (hp : (Obs.pools w)[i]? = some p) :
    p.nfree = p.nblocks ∧ (Obs.freeBlocks c p).Perm (Obs.allBlocks p) ∧ step c w (.numUsed i) = .ok (w, .num 0) := by
  obtain ⟨a, hR, k1, k2, _⟩ := refsAfter_eq h
  have hil : i < a.pools.length := by rw [← pools_length hR]; exact (List.getElem?_eq_some_iff.mp hp).1
  have hP : a.pools[i]? = some a.pools[i] := List.getElem?_eq_getElem hil
  generalize a.pools[i] = P at hP
  obtain ⟨p', n, hp', hs, hg, hinv⟩ := pool_get hR hP
  rw [hp] at hp'; cases hp'
  have hu : P.used = [] := by
    apply List.eq_nil_iff_forall_not_mem.mpr
    intro e he
    have := hR.ev.unref i e ⟨P, hP, he⟩ (by rw [← k1, h1]; rfl)
    rw [k2, h2] at this; cases this
  have hlen := MemPool.length_sum hinv
  rw [hu] at hlen
  have hnf : p.nfree = p.nblocks := by rw [hinv.nfree, hinv.nblocks]; simpa using hlen
  refine ⟨hnf, ?_, ?_⟩
  · rw [free_eq hinv, all_eq hinv]
    have := hinv.perm
    rw [hu, List.append_nil] at this
    exact this
  · simp only [step, hR.pl.reg hil, hs, numUsed, hnf]
    rw [show p.nblocks + 256 * p.nblocks - p.nblocks = 256 * p.nblocks by omega, Nat.mul_mod_right]

/-- **C20 (last reference).** Collecting the last reference returns the block to its own pool; collecting one of several
references leaves every pool as it is. `gc2` is the critical section of the collector, `put` the return of the block,
which an interrupt may delay. -/
theorem last_reference_recycles (h : Run c slots hdr ops outs w) {k e : Nat} (hk : w.conts[k]? = some (.gc2 e)) :
    ∃ i, Obs.Allocated c w i e ∧
      (((refsAfter ops w).count e = 1 ∧ ∃ w', step c w (.resume k) = .ok (w', .unit) ∧ w'.slots = w.slots ∧
          w'.conts = .put i e :: w.conts.eraseIdx k) ∨
       (1 < (refsAfter ops w).count e ∧ ∃ w', step c w (.resume k) = .ok (w', .unit) ∧ w'.slots = w.slots ∧
          w'.conts = w.conts.eraseIdx k ∧ (w'.hdr e).nref = (refsAfter ops w).count e - 1)) := by
  obtain ⟨a, hR, h1, _, _⟩ := refsAfter_eq h
  have hk' : a.conts[k]? = some (.gc2 e) := by rw [← hR.conts]; exact hk
  have hin : e ∈ Spec.holders a := (holders_erase hk').symm.subset (by simp [Cont.evt])
  have hs := hR.gc2Ok e (List.mem_of_getElem? hk')
  obtain ⟨i, hi⟩ := (hR.ev.hold e hin).2.resolve_left (by simp [hs])
  have hhdr := hR.ev.hdrU i e hi
  have hpos : 0 < (Spec.holders a).count e := List.count_pos_iff.mpr hin
  refine ⟨i, (allocated_iff hR i e).mpr hi, ?_⟩
  rw [h1]
  have hil : i < a.pools.length := by
    obtain ⟨P, hP, _⟩ := hi; exact (List.getElem?_eq_some_iff.mp hP).1
  have hrl : w.regs.length = a.pools.length := by rw [hR.pl.regs]; simp
  have hidx : ((w.hdr e).pool + 255) % 256 = i := by
    rw [hhdr]; simp only
    have := h.env.pool; have := hR.pl.le
    omega
  by_cases hc : (Spec.holders a).count e = 1
  · left
    refine ⟨hc, { w with conts := .put i e :: w.conts.eraseIdx k }, ?_, rfl, rfl⟩
    have hn : ¬ (w.hdr e).nref > 1 := by rw [hhdr]; simp only; omega
    simp only [step, hk, resumeCont, gcSection, hn, if_false, hidx, hrl, hil, decide_true, assertIf_true, Res.bind'_ok, if_true,
      Res.map']
  · right
    have hn : (w.hdr e).nref > 1 := by rw [hhdr]; simp only; omega
    refine ⟨by omega, setHdr { w with conts := w.conts.eraseIdx k } e { w.hdr e with nref := (w.hdr e).nref - 1 }, ?_, rfl, rfl, ?_⟩
    · simp only [step, hk, resumeCont, gcSection, hn, if_true, Res.bind'_ok, Res.map']
    · simp [setHdr, hhdr]

/-- **C20 (return).** A pending return of a block puts it into the free list of the pool it was allocated from, and into
no other. -/
theorem pending_return (h : Run c slots hdr ops outs w) {k i e : Nat} (hk : w.conts[k]? = some (.put i e)) :
    Obs.Allocated c w i e ∧ (refsAfter ops w).count e = 1 ∧
    ∃ w' p p', step c w (.resume k) = .ok (w', .unit) ∧ (Obs.pools w)[i]? = some p ∧ (Obs.pools w')[i]? = some p' ∧
      Obs.freeBlocks c p' = e :: Obs.freeBlocks c p ∧ ∀ j, j ≠ i → (Obs.pools w')[j]? = (Obs.pools w)[j]? := by
  obtain ⟨a, hR, h1, _, _⟩ := refsAfter_eq h
  have hk' : a.conts[k]? = some (.put i e) := by rw [← hR.conts]; exact hk
  have hp : putsOf a.conts i e := List.mem_of_getElem? hk'
  obtain ⟨hc1, P, hP, hm⟩ := hR.ev.putsOk i e hp
  refine ⟨(allocated_iff hR i e).mpr ⟨P, hP, hm⟩, by rw [h1]; exact hc1, ?_⟩
  obtain ⟨p, n, hpool, hsl, hg, hinv⟩ := pool_get hR hP
  have hil : i < a.pools.length := (List.getElem?_eq_some_iff.mp hP).1
  obtain ⟨p', hput, hinv', _⟩ := MemPool.put_held hg hinv hm
  have hslt : i < w.slots.length := (List.getElem?_eq_some_iff.mp hsl).1
  have hpe := pools_eq hR
  have hpe' : Obs.pools { w with slots := w.slots.set i p' } = (w.slots.set i p').take a.pools.length := by
    have hR' : PoolRel c (w.slots.set i p') w.regs (a.pools.set i { P with free := e :: P.free, used := P.used.erase e }) :=
      hR.pl.upd (n := n) hP hg hinv'
    have hle := hR.pl.le
    have hsln := hR.pl.slen
    unfold Obs.pools
    simp only [hR.pl.regs]
    generalize hw : w.slots.set i p' = sl
    have hsl' : sl.length = w.slots.length := by rw [← hw, List.length_set]
    have hk : ∀ k, k ≤ a.pools.length → (List.range k).filterMap (fun s => sl[s]?) = sl.take k := by
      intro k hk
      induction k with
      | zero => rfl
      | succ k ih =>
        have hlt : k < sl.length := by omega
        rw [List.range_succ, List.filterMap_append, ih (by omega), List.take_succ]
        simp [List.getElem?_eq_getElem hlt]
    exact hk _ (Nat.le_refl _)
  refine ⟨setHdr { w with slots := w.slots.set i p', conts := w.conts.eraseIdx k } e (c.junk e), p, p', ?_, hpool, ?_, ?_, ?_⟩
  · simp only [step, hk, resumeCont, evtPut, hR.pl.reg hil, hsl, hput, Res.bind'_ok, Res.map']
  · show (Obs.pools { w with slots := w.slots.set i p' })[i]? = _
    rw [hpe', List.getElem?_take_of_lt hil, List.getElem?_set_self hslt]
  · have h2 : Obs.freeBlocks c p' = e :: P.free := free_eq (P := { P with free := e :: P.free, used := P.used.erase e }) hinv'
    rw [h2, free_eq hinv]
  · intro j hj
    show (Obs.pools { w with slots := w.slots.set i p' })[j]? = _
    rw [hpe', hpe]
    by_cases hjl : j < a.pools.length
    · rw [List.getElem?_take_of_lt hjl, List.getElem?_take_of_lt hjl, List.getElem?_set_ne (Ne.symm hj)]
    · rw [List.getElem?_eq_none, List.getElem?_eq_none] <;> rw [List.length_take] <;> omega

/-- **C21.** A static event is never modified and never enters a pool, whatever is done with it. -/
theorem static_never_modified (h : Run c slots hdr ops outs w) {e : Nat} (hs : c.static e = true) :
    (w.hdr e).nref = 0 ∧ (w.hdr e).pool = 0 ∧ (w.hdr e).sig = (hdr e).sig ∧
      (∀ i, ¬ Obs.Allocated c w i e) ∧ ∀ p ∈ Obs.pools w, e ∉ Obs.freeBlocks c p := by
  obtain ⟨a, hR, hrun, hb⟩ := h.full
  have hh := hR.ev.hdrS e hs
  have hsig : a.sig e = (hdr e).sig := sig_static h.env.wf hs ops _ _ _ _ (R_init h.env) h.legal hrun
  have hU : ∀ i, ¬ InUse a.pools i e := fun i hi => by
    rw [hR.ev.nostat i e (.inl hi)] at hs; cases hs
  refine ⟨by rw [hh], by rw [hh], ?_, fun i hi => hU i ((allocated_iff hR i e).mp hi), ?_⟩
  · rw [hh, ← hsig]
  · intro p hp hf
    obtain ⟨j, hj⟩ := List.mem_iff_getElem?.mp hp
    have hjl : j < a.pools.length := by rw [← pools_length hR]; exact (List.getElem?_eq_some_iff.mp hj).1
    obtain ⟨p', n, hp', _, _, hinv⟩ := pool_get hR (List.getElem?_eq_getElem hjl)
    rw [hj] at hp'; cases hp'
    rw [free_eq hinv] at hf
    rw [hR.ev.nostat j e (.inr ⟨_, List.getElem?_eq_getElem hjl, hf⟩)] at hs; cases hs

/-! ### C22: the counter wraps -/

theorem reservations_append (xs ys : List Op) (r : List Nat) :
    Obs.reservations (xs ++ ys) r = Obs.reservations ys (Obs.reservations xs r) := by
  induction xs generalizing r with
  | nil => rfl
  | cons op xs ih => rw [List.cons_append, reservations_cons op (xs ++ ys), reservations_cons op xs, ih]

theorem reservations_replicate (e n : Nat) (r : List Nat) :
    Obs.reservations (List.replicate n (.reserve e)) r = List.replicate n e ++ r := by
  induction n generalizing r with
  | zero => rfl
  | succ n ih =>
    rw [List.replicate_succ, reservations_cons, ih, List.replicate_succ']
    simp [Obs.reservations]

/-- `n` more reservations of a dynamic event advance its counter modulo 256. -/
theorem reserve_many (w : World) {e : Nat} (hp : (w.hdr e).pool ≠ 0) (hb : (w.hdr e).nref < 256) (n : Nat) :
    (runOps (step c) w (List.replicate n (.reserve e))).2 =
      .ok (setHdr w e { w.hdr e with nref := ((w.hdr e).nref + n) % 256 }) := by
  induction n generalizing w with
  | zero =>
    simp only [List.replicate_zero, runOps, Nat.add_zero, Nat.mod_eq_of_lt hb, Res.ok.injEq, setHdr]
    cases w
    simp only [World.mk.injEq, true_and, and_true]
    funext x
    split
    · subst_vars; rfl
    · rfl
  | succ n ih =>
    rw [List.replicate_succ]
    simp only [runOps, step, incRef, hp, ne_eq, not_false_iff, if_true]
    rw [ih]
    · simp only [setHdr, if_true, Res.ok.injEq, World.mk.injEq, true_and, and_true]
      funext x
      split
      · simp only [Evt.mk.injEq, true_and, and_true]; omega
      · rfl
    · simpa [setHdr] using hp
    · simp only [setHdr, if_true]; exact Nat.mod_lt _ (by decide)

/-- **C22 (negation: use after recycle).** Take any reachable state and any allocated event. Reserve it until 257
references exist; the counter now reads 1, so giving up a single one returns the block to its pool although 256 references
remain. -/
theorem refcount_wraps_recycles_live_event (h : Run c slots hdr ops outs w) {i e : Nat} (ha : Obs.Allocated c w i e) :
    ∃ w' p, (runOps (step c) w (List.replicate (257 - (refsAfter ops w).count e) (.reserve e) ++
        [.gc e, .resume 0, .resume 0, .resume 0])).2 = .ok w' ∧
      (refsAfter (ops ++ List.replicate (257 - (refsAfter ops w).count e) (.reserve e) ++
        [.gc e, .resume 0, .resume 0, .resume 0]) w').count e = 256 ∧
      (Obs.pools w')[i]? = some p ∧ e ∈ Obs.freeBlocks c p := by
  obtain ⟨a, hR, h1, _, _⟩ := refsAfter_eq h
  have hu := (allocated_iff hR i e).mp ha
  have hhdr := hR.ev.hdrU i e hu
  have hbnd := hR.ev.bound i e hu
  obtain ⟨P, hP, hm⟩ := hu
  obtain ⟨p, n, hpool, hsl, hg, hinv⟩ := pool_get hR hP
  have hil : i < a.pools.length := (List.getElem?_eq_some_iff.mp hP).1
  obtain ⟨p', hput, hinv', _⟩ := MemPool.put_held hg hinv hm
  have hslt : i < w.slots.length := (List.getElem?_eq_some_iff.mp hsl).1
  have hres := refsAfter_eq h
  generalize hr : (refsAfter ops w).count e = r
  rw [h1] at hr
  have hm := reserve_many (c := c) w (e := e) (by rw [hhdr]; simp) (by rw [hhdr]; simp only; omega) (257 - r)
  have hnref : ((w.hdr e).nref + (257 - r)) % 256 = 1 := by rw [hhdr]; simp only; omega
  rw [hnref] at hm
  have hrl : w.regs.length = a.pools.length := by rw [hR.pl.regs]; simp
  have hidx : ((w.hdr e).pool + 255) % 256 = i := by
    rw [hhdr]; simp only
    have := h.env.pool; have := hR.pl.le
    omega
  refine ⟨setHdr (setHdr { w with slots := w.slots.set i p' } e { w.hdr e with nref := 1 }) e (c.junk e), p', ?_, ?_, ?_, ?_⟩
  · rw [(runOps_append_ok _ _ _ _ hm).2]
    simp only [runOps, step, resumeCont, gcSection, setHdr, List.getElem?_cons_zero, List.eraseIdx_cons_zero, if_true, ne_eq,
      Nat.one_ne_zero, not_false_iff, Res.map', gt_iff_lt, Nat.lt_irrefl, if_false, hidx, hrl, hil, decide_true, assertIf_true,
      Res.bind'_ok, evtPut, hR.pl.reg hil, hsl, hput]
  · unfold refsAfter
    rw [List.append_assoc, reservations_append, reservations_append, reservations_replicate]
    have hce : Obs.reservations [.gc e, .resume 0, .resume 0, .resume 0] (List.replicate (257 - r) e ++ Obs.reservations ops []) =
        (List.replicate (257 - r) e ++ Obs.reservations ops []).erase e := rfl
    rw [hce]
    have hcnt : r = (Obs.references w (Obs.reservations ops [])).count e := by
      rw [← hr, ← h1]; rfl
    unfold Obs.references at hcnt ⊢
    simp only [List.count_append] at hcnt ⊢
    rw [List.count_erase_self, List.count_append, List.count_replicate_self]
    simp only [setHdr]
    omega
  · show (Obs.pools { w with slots := w.slots.set i p' })[i]? = _
    unfold Obs.pools
    have hk : ∀ k, k ≤ a.pools.length → (List.range k).filterMap (fun s => (w.slots.set i p')[s]?) = (w.slots.set i p').take k := by
      intro k hk
      induction k with
      | zero => rfl
      | succ k ih =>
        have hlt : k < (w.slots.set i p').length := by
          rw [List.length_set]; have := hR.pl.le; have := hR.pl.slen; omega
        rw [List.range_succ, List.filterMap_append, ih (by omega), List.take_succ]
        simp [List.getElem?_eq_getElem hlt]
    simp only [hR.pl.regs]
    rw [hk _ (Nat.le_refl _), List.getElem?_take_of_lt hil, List.getElem?_set_self hslt]
  · have h2 : Obs.freeBlocks c p' = e :: P.free :=
      free_eq (P := { P with free := e :: P.free, used := P.used.erase e }) hinv'
    rw [h2]; simp

/-- **C22 (negation: leak).** With exactly 256 references the counter reads 0 and giving a reference up does nothing at
all: the event is never recycled. -/
theorem refcount_wraps_ignores_gc (h : Run c slots hdr ops outs w) {i e : Nat} (ha : Obs.Allocated c w i e) :
    ∃ w', (runOps (step c) w (List.replicate (256 - (refsAfter ops w).count e) (.reserve e))).2 = .ok w' ∧
      (w'.hdr e).nref = 0 ∧ (runOps (step c) w' [.gc e, .resume 0]).2 = .ok w' := by
  obtain ⟨a, hR, h1, _, _⟩ := refsAfter_eq h
  have hu := (allocated_iff hR i e).mp ha
  have hhdr := hR.ev.hdrU i e hu
  have hbnd := hR.ev.bound i e hu
  rw [h1]
  generalize hr : (Spec.holders a).count e = r at hhdr hbnd
  have hm := reserve_many (c := c) w (e := e) (by rw [hhdr]; simp) (by rw [hhdr]; simp only; omega) (256 - r)
  have hnref : ((w.hdr e).nref + (256 - r)) % 256 = 0 := by rw [hhdr]; simp only; omega
  rw [hnref] at hm
  refine ⟨_, hm, by simp [setHdr], ?_⟩
  simp [runOps, step, resumeCont, setHdr, Res.map']

/-! ### C23: allocation -/

/-- **C23.** Let `p` be the first registered pool (position `i`) whose reported block size is at least `n`. If it has no block
left the allocation stops with an assertion. Otherwise it returns a block `b` of that pool: at least `n` bytes
long, inside the pool's storage, previously free (so not referenced and not static), with the requested signal, no references, and
the pool number of `p`. -/
theorem alloc_first_fit (h : Run c slots hdr ops outs w) {n i sg : Nat} {p : MemPool.Pool} (hp : (Obs.pools w)[i]? = some p)
    (hfit : n ≤ p.bsize % 256) (hfirst : ∀ (j : Nat) q, j < i → (Obs.pools w)[j]? = some q → q.bsize % 256 < n) :
    (Obs.freeBlocks c p = [] → step c w (.alloc n sg) = .assert) ∧
    (∀ b rest, Obs.freeBlocks c p = b :: rest → ∃ w' p', step c w (.alloc n sg) = .ok (w', .evt b) ∧
      n ≤ p.bsize ∧ p.start ≤ b ∧ b + p.bsize ≤ p.start + p.size ∧ b ≠ 0 ∧ b ∉ refsAfter ops w ∧ c.static b = false ∧
      w'.hdr b = ⟨sg, 0, i + 1⟩ ∧ (∀ x, x ≠ b → w'.hdr x = w.hdr x) ∧
      (Obs.pools w')[i]? = some p' ∧ Obs.freeBlocks c p' = rest ∧ Obs.Allocated c w' i b) := by
  obtain ⟨a, hR, h1, _, _⟩ := refsAfter_eq h
  have hil : i < a.pools.length := by rw [← pools_length hR]; exact (List.getElem?_eq_some_iff.mp hp).1
  have hP : a.pools[i]? = some a.pools[i] := List.getElem?_eq_getElem hil
  generalize a.pools[i] = P at hP
  obtain ⟨p', k, hp', hs, hg, hinv⟩ := pool_get hR hP
  rw [hp] at hp'; cases hp'
  have hidx : a.pools.findIdx (fun P => decide (n ≤ P.bsize % 256)) = i := by
    rw [List.findIdx_eq hil]
    have e1 := (List.getElem?_eq_some_iff.mp hP).2
    refine ⟨by rw [e1, ← hinv.bsize]; simpa using hfit, fun j hj => ?_⟩
    obtain ⟨q, k', hq, _, _, hinvq⟩ := pool_get hR (List.getElem?_eq_getElem (show j < a.pools.length by omega))
    have := hfirst j q hj hq
    rw [hinvq.bsize] at this
    simp only [decide_eq_false_iff_not]; omega
  have hff : Spec.firstFit a n = some i := by
    rw [Spec.firstFit, List.findIdx?_eq_guard_findIdx_lt, hidx]
    simp [Option.guard, hil]
  have hsim := sim_alloc h.env.wf hR n sg
  rw [free_eq hinv]
  have hspec : Spec.step c a (.alloc n sg) = match P.free with
      | [] => .assert
      | b :: rest => Res.ok (({ a with pools := (a.pools.set i { P with free := rest, used := b :: P.used }), sig := (fun x => if x = b then sg else a.sig x), fresh := b :: a.fresh } : Spec.Abs), Out.evt b) := by
    simp only [Spec.step, hff, hP]
    cases P.free <;> rfl
  constructor
  · intro hf
    rw [hf] at hspec
    have := hsim.1
    rw [hspec] at this
    revert this
    rcases step c w (.alloc n sg) with _ | _ | _ <;> simp [StepRel]
  · intro b rest hf
    rw [hf] at hspec
    have hst := hsim.1
    rw [hspec] at hst
    rcases hx : step c w (.alloc n sg) with ⟨w', o⟩ | _ | _ <;> rw [hx] at hst <;> simp only [StepRel] at hst
    obtain ⟨hR', rfl⟩ := hst
    have hbfree : InFree a.pools i b := ⟨P, hP, by rw [hf]; simp⟩
    have hbb : b ∈ MemPool.blocks P.start P.bsize k := MemPool.mem_free hinv (by rw [hf]; simp)
    have hbnds := MemPool.blocks_bounds hbb
    have hfits := hg.fits
    have hb' : (({ a with pools := a.pools.set i { P with free := rest, used := b :: P.used }, sig := fun x => if x = b then sg else a.sig x, fresh := b :: a.fresh } : Spec.Abs).pools)[i]? =
        some { P with free := rest, used := b :: P.used } := List.getElem?_set_self hil
    obtain ⟨p', k', hp', _, _, hinv'⟩ := pool_get hR' hb'
    have hnr : b ∉ Spec.holders a := by
      intro hh
      rcases (hR.ev.hold b hh).2 with h3 | ⟨j, hj⟩
      · rw [hR.ev.nostat i b (.inr hbfree)] at h3; cases h3
      · have := hR.ev.disj i j b (.inr hbfree) (.inl hj)
        subst this
        obtain ⟨Q, hQ, hm⟩ := hj
        rw [hP] at hQ; cases hQ
        have hnd := hR.ev.poolND i P hP
        rw [List.nodup_append] at hnd
        exact hnd.2.2 b (by rw [hf]; simp) b hm rfl
    refine ⟨w', p', rfl, ?_, ?_, ?_, hR.ev.nz i b (.inr hbfree), by rw [h1]; exact hnr, hR.ev.nostat i b (.inr hbfree), ?_, ?_,
      hp', by rw [free_eq hinv'], (allocated_iff hR' i b).mpr ⟨_, hb', by simp⟩⟩
    · have := Nat.mod_le p.bsize 256; omega
    · rw [hinv.pstart]; omega
    · rw [hinv.pstart, hinv.bsize, hinv.size]; omega
    · have hu : InUse (a.pools.set i { P with free := rest, used := b :: P.used }) i b := ⟨_, hb', by simp⟩
      have := hR'.ev.hdrU i b hu
      rw [this]
      simp only [if_true, Evt.mk.injEq, true_and, and_true]
      have : (Spec.holders { a with pools := a.pools.set i { P with free := rest, used := b :: P.used }, sig := fun x => if x = b then sg else a.sig x, fresh := b :: a.fresh }) = Spec.holders a := rfl
      rw [this, List.count_eq_zero]; exact hnr
    · intro x hxb
      have hrl : w.regs.length = a.pools.length := by rw [hR.pl.regs]; simp
      rw [hf] at hinv
      obtain ⟨p1, hget, _⟩ := MemPool.get_cons hg hinv
      have hb0 : b ≠ 0 := hR.ev.nz i b (.inr hbfree)
      simp only [step, ae, findPool_eq hR.pl, Res.bind'_ok, hidx, hrl, hil, decide_true, assertIf_true, hR.pl.reg hil, hs, hget,
        show (b != 0) = true by simpa using hb0, hb0, if_false, Res.map', Res.ok.injEq, Prod.mk.injEq, setHdr] at hx
      rw [← hx.1]
      simp [hxb]

/-- **C23 (no pool is large enough).** Then the allocation stops with an assertion. -/
theorem alloc_too_large (h : Run c slots hdr ops outs w) {n sg : Nat} (hno : ∀ p ∈ Obs.pools w, p.bsize % 256 < n) :
    step c w (.alloc n sg) = .assert := by
  obtain ⟨a, hR, _⟩ := h.full
  have hff : Spec.firstFit a n = none := by
    rw [Spec.firstFit, List.findIdx?_eq_none_iff]
    intro P hP
    obtain ⟨i, hi⟩ := List.mem_iff_getElem?.mp hP
    obtain ⟨q, k', hq, _, _, hinvq⟩ := pool_get hR hi
    have := hno q (List.mem_of_getElem? hq)
    rw [hinvq.bsize] at this
    simp only [decide_eq_false_iff_not]; omega
  have hst := (sim_alloc h.env.wf hR n sg).1
  simp only [Spec.step, hff] at hst
  revert hst
  rcases step c w (.alloc n sg) with _ | _ | _ <;> simp [StepRel]

/-- **C23 (defect).** The reported block size is the real one truncated to 8 bits: a pool of 256-byte blocks (or any
multiple) reports 0 and never serves a request, however small and however many blocks it has. -/
theorem large_blocks_never_served (h : Run c slots hdr ops outs w) {n sg : Nat} (hn : 0 < n)
    (hall : ∀ p ∈ Obs.pools w, 256 ∣ p.bsize) : step c w (.alloc n sg) = .assert :=
  alloc_too_large h fun p hp => by
    have := hall p hp
    rw [Nat.dvd_iff_mod_eq_zero] at this
    omega

end Verif.Fwk
