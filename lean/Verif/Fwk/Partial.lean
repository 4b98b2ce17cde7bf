import Verif.Fwk.Findings
/-
What remains true of the properties the framework violates (C22, C23, C63-C67). The violations are in `Props` and `Findings`.
-/
namespace Verif.Fwk
open Verif

variable {c : Cfg} {slots : List MemPool.Pool} {hdr : Nat → Evt} {ops : List Op} {outs : List Out} {w : World}

/-- **C22** (partial: histories that never hold more than 255 references to one event at the same time, as the contract
demands). Then the counter is the number of references and never wraps. -/
theorem refcount_does_not_wrap_partial (h : Run c slots hdr ops outs w) {i e : Nat} (ha : Obs.Allocated c w i e) :
    (w.hdr e).nref = (refsAfter ops w).count e ∧ (refsAfter ops w).count e ≤ 255 := by
  obtain ⟨a, hR, h1, _, _⟩ := refsAfter_eq h
  refine ⟨(refcount_exact h ha).1, ?_⟩
  rw [h1]
  have := hR.ev.bound i e ((allocated_iff hR i e).mp ha)
  omega

/-- **C23** (partial: block sizes below 256). An allocation takes a block from the first registered pool whose blocks are
large enough, and stops with an assertion exactly if there is none or its blocks are used up. -/
theorem alloc_first_fit_partial (h : Run c slots hdr ops outs w) (hsz : ∀ p ∈ Obs.pools w, p.bsize < 256) {n sg : Nat} :
    match (Obs.pools w).find? (fun p => decide (n ≤ p.bsize)) with
    | none => step c w (.alloc n sg) = .assert
    | some p =>
      (Obs.freeBlocks c p = [] → step c w (.alloc n sg) = .assert) ∧
      ∀ b rest, Obs.freeBlocks c p = b :: rest → ∃ w', step c w (.alloc n sg) = .ok (w', .evt b) ∧
        p.start ≤ b ∧ b + p.bsize ≤ p.start + p.size ∧ b ∉ refsAfter ops w ∧ (w'.hdr b).sig = sg ∧ (w'.hdr b).nref = 0 := by
  split
  · next hn =>
    refine alloc_too_large h fun p hp => ?_
    have := List.find?_eq_none.mp hn p hp
    rw [Nat.mod_eq_of_lt (hsz p hp)]
    simpa using this
  · next p hp =>
    obtain ⟨h1, xs, ys, h2, h3⟩ := List.find?_eq_some_iff_append.mp hp
    have hg : (Obs.pools w)[xs.length]? = some p := by rw [h2]; simp
    have hm : ∀ q ∈ Obs.pools w, q.bsize % 256 = q.bsize := fun q hq => Nat.mod_eq_of_lt (hsz q hq)
    have hpm : p ∈ Obs.pools w := List.mem_of_getElem? hg
    obtain ⟨k1, k2⟩ := alloc_first_fit h (n := n) (sg := sg) hg (by rw [hm p hpm]; simpa using h1) (fun j q hj hq => by
      have hqx : q ∈ xs := by
        rw [h2, List.getElem?_append_left hj] at hq
        exact List.mem_of_getElem? hq
      have := h3 q hqx
      rw [hm q (List.mem_of_getElem? hq)]
      simpa using this)
    refine ⟨k1, fun b rest hb => ?_⟩
    obtain ⟨w', p', g1, _, g3, g4, _, g6, _, g8, _⟩ := k2 b rest hb
    exact ⟨w', g1, g3, g4, g6, by rw [g8], by rw [g8]⟩

/-- **C63** (partial: the event must be reserved first). An event that was allocated and not sent can be given back by
reserving it and collecting it: its block is then in the free list of a pool. -/
theorem reserve_then_collect_partial (h : Run c slots hdr ops outs w) {e : Nat} (he : e ∈ Obs.fresh (ops.zip outs) []) :
    (∃ i, Obs.Allocated c w i e) ∧ ∃ (w' : World) (i : Nat) (p : MemPool.Pool), (runOps (step c) w [.reserve e, .gc e, .resume 0, .resume 0, .resume 0]).2 = .ok w' ∧
      (Obs.pools w')[i]? = some p ∧ e ∈ Obs.freeBlocks c p := by
  obtain ⟨a, hR, hr, hb⟩ := h.full
  have hf : e ∈ a.fresh := by rw [hb.fresh]; exact he
  obtain ⟨⟨i, hi⟩, hc0⟩ := hR.ev.freshU e hf
  refine ⟨⟨i, (allocated_iff hR i e).mpr hi⟩, ?_⟩
  have hst : c.static e = false := hR.ev.nostat i e (.inl hi)
  have hhdr := hR.ev.hdrU i e hi
  have hne : e ≠ 0 := by
    obtain ⟨P, hP, hm⟩ := hi
    obtain ⟨p, n, _, _, hg, hinv⟩ := pool_get hR hP
    obtain ⟨j, _, rfl⟩ := MemPool.mem_blocks.mp (MemPool.mem_held hinv hm)
    have := hg.spos
    unfold MemPool.blkAddr
    omega
  -- reserve
  have s1 : step c w (.reserve e) = .ok (incRef w e, .unit) := rfl
  have h1 := h.next (op := .reserve e) ((allowed_iff h hr).mpr ⟨⟨hne, .inr (.inl hf)⟩, .inr (by unfold Spec.refs; omega)⟩) s1
  have hn1 : ((incRef w e).hdr e).nref = 1 := by
    simp [incRef, hhdr, setHdr, hc0]
  -- gc
  obtain ⟨a1, hR1, hr1, hb1⟩ := h1.full
  have hres : e ∈ a1.resv := by
    rw [hb1.resv, reservations_append]
    simp [Obs.reservations]
  have s2 : step c (incRef w e) (.gc e) = .ok ({ incRef w e with conts := .gc1 e :: (incRef w e).conts }, .unit) := rfl
  have h2 := h1.next (op := .gc e) ((allowed_iff h1 hr1).mpr ⟨hne, .inr hres⟩) s2
  -- resume: gc1
  obtain ⟨a2, hR2, hr2, hb2⟩ := h2.full
  have hk2 : a2.conts[0]? = some (.gc1 e) := by rw [← hR2.conts]; rfl
  have s3 : step c { incRef w e with conts := .gc1 e :: (incRef w e).conts } (.resume 0) =
      .ok ({ incRef w e with conts := .gc2 e :: (incRef w e).conts }, .unit) := by
    simp [step, resumeCont, hn1, Res.map']
  have h3 := h2.next (op := .resume 0) ((allowed_iff h2 hr2).mpr ⟨_, hk2, by intro _ _ hh; cases hh⟩) s3
  -- resume: gc2
  obtain ⟨a3, hR3, hr3, hb3⟩ := h3.full
  have hk3 : a3.conts[0]? = some (.gc2 e) := by rw [← hR3.conts]; rfl
  obtain ⟨j, hj, hcase⟩ := last_reference_recycles h3 (k := 0) (e := e) rfl
  have hcnt := (refcount_exact h3 hj).1
  have hn3 : (({ incRef w e with conts := .gc2 e :: (incRef w e).conts } : World).hdr e).nref = 1 := hn1
  rw [hn3] at hcnt
  rcases hcase with ⟨_, w4, s4, _, hc4⟩ | ⟨hgt, _⟩
  · have h4 := h3.next (op := .resume 0) ((allowed_iff h3 hr3).mpr ⟨_, hk3, by intro _ _ hh; cases hh⟩) s4
    have hk4 : w4.conts[0]? = some (.put j e) := by rw [hc4]; rfl
    obtain ⟨_, _, w5, p, p', s5, _, hp', hfr, _⟩ := pending_return h4 hk4
    refine ⟨w5, j, p', ?_, hp', by rw [hfr]; simp⟩
    simp [runOps, s1, s2, s3, s4, s5]
  · omega

example : ∃ w, Run Demo.cfg Demo.slots Demo.hdr (Demo.setup ++ [.alloc 3 4]) (Demo.outs (Demo.setup ++ [.alloc 3 4])) w ∧
    1000 ∈ Obs.fresh ((Demo.setup ++ [Op.alloc 3 4]).zip (Demo.outs (Demo.setup ++ [Op.alloc 3 4]))) [] ∧
    ∀ p ∈ Obs.pools w, p.bsize < 256 := by
  obtain ⟨w, h, hR⟩ := Demo.mk (ops := Demo.setup ++ [.alloc 3 4]) (by decide +kernel)
  refine ⟨w, h, by decide +kernel, fun p hp => ?_⟩
  obtain ⟨i, hi⟩ := List.mem_iff_getElem?.mp hp
  have hl := pools_length hR
  have hlen : (Obs.pools w).length = 1 := hl.trans (by decide +kernel)
  have h0 : i = 0 := by
    have := (List.getElem?_eq_some_iff.mp hi).1
    omega
  subst h0
  obtain ⟨q, n, hq, _, _, hinv⟩ := pool_get hR (i := 0) rfl
  rw [hi] at hq
  cases hq
  rw [hinv.bsize]
  decide +kernel

/-- **C64** (partial: static events; or assertions compiled in, where the rejected post does not return). A rejected post
of a static event changes no event header and no queue contents. -/
theorem rejected_post_of_static_partial (w : World) {ao e : Nat} {x : Ao} (hx : w.aos[ao]? = some x)
    (hfull : x.q.nelems ≤ x.q.qty) (front : Bool) :
    (c.assertEn = true → step c w (if front then .postLifo ao e else .postFifo ao e) = .assert) ∧
    (c.assertEn = false → (w.hdr e).pool = 0 →
      ∃ w' x', step c w (if front then .postLifo ao e else .postFifo ao e) = .ok (w', .unit) ∧
        w'.aos = w.aos.set ao x' ∧ Obs.contents x'.q = Obs.contents x.q ∧ w'.hdr = w.hdr ∧ w'.rdy = w.rdy ∧ w'.slots = w.slots ∧
        w'.conts = w.conts) := by
  constructor
  · intro hen
    cases front
    · by_cases he : e = 0 <;>
        simp [step, postFifo, incRef_eq, hx, Queue.putFifo, Cfg.qc, hen, Res.map', assertIf, he, bind, Res.bind, Nat.not_lt.mpr hfull]
    · by_cases he : e = 0 <;>
        simp [step, postLifo, incRef_eq, hx, Queue.putLifo, Cfg.qc, hen, Res.map', assertIf, he, bind, Res.bind, Nat.not_lt.mpr hfull]
  · intro hen hst
    have hinc : incRef w e = w := by simp [incRef, hst]
    refine ⟨{ w with aos := w.aos.set ao { x with q := { x.q with info := { x.q.info with nfull := x.q.info.nfull + 1 } } } },
      { x with q := { x.q with info := { x.q.info with nfull := x.q.info.nfull + 1 } } }, ?_, rfl, rfl, rfl, rfl, rfl, rfl⟩
    cases front
    · simp [step, postFifo, hinc, hx, Queue.putFifo, Cfg.qc, hen, hfull, applySync, Res.map', assertIf]
    · simp [step, postLifo, hinc, hx, Queue.putLifo, Cfg.qc, hen, hfull, applySync, Res.map', assertIf]

theorem registry_append : ∀ (xs ys : List Op) (prio : List Nat) (reg : Nat → Option Nat),
    Obs.registry (xs ++ ys) prio reg = Obs.registry ys (prio ++ Obs.activations xs) (Obs.registry xs prio reg)
  | [], ys, prio, reg => by simp [Obs.activations, Obs.registry]
  | op :: xs, ys, prio, reg => by
    rw [List.cons_append, registry_cons, registry_append xs ys, activations_cons op xs, registry_cons op xs, List.append_assoc]

/-- Objects are registered at their own priority. -/
theorem registry_prio : ∀ (ops : List Op) (prio : List Nat) (reg : Nat → Option Nat),
    (∀ p i, reg p = some i → prio[i]? = some p) →
    ∀ p i, Obs.registry ops prio reg p = some i → (prio ++ Obs.activations ops)[i]? = some p
  | [], prio, reg, h, p, i, hi => by simpa [Obs.activations] using h p i hi
  | op :: ops, prio, reg, h, p, i, hi => by
    rw [registry_cons] at hi
    rw [activations_cons, ← List.append_assoc]
    refine registry_prio ops _ _ (fun q j hj => ?_) p i hi
    have hmono : ∀ q j l, reg q = some j → (prio ++ l)[j]? = some q := by
      intro q j l hq
      have := h q j hq
      rw [List.getElem?_append_left (List.getElem?_eq_some_iff.mp this).1]
      exact this
    cases op with
    | activate p' _ _ =>
      simp only [Obs.registry] at hj
      split at hj
      · next hq =>
        cases hj
        simp [Obs.activations, hq]
      · exact hmono _ _ _ hj
    | terminate ao =>
      simp only [Obs.registry] at hj
      split at hj
      · cases hj
      · exact hmono _ _ _ hj
    | _ => exact hmono _ _ _ hj

/-- An object that is not registered does not become so again. -/
theorem registry_never_again {ao : Nat} : ∀ (ops : List Op) (prio : List Nat) (reg : Nat → Option Nat), ao < prio.length →
    (∀ p, reg p ≠ some ao) → ∀ p, Obs.registry ops prio reg p ≠ some ao
  | [], _, _, _, h, p => h p
  | op :: ops, prio, reg, hlt, h, p => by
    rw [registry_cons]
    refine registry_never_again ops _ _ (by simp; omega) (fun q => ?_) p
    cases op with
    | activate p' _ _ =>
      simp only [Obs.registry]
      split
      · intro hh; cases hh; omega
      · exact h q
    | terminate ao =>
      simp only [Obs.registry]
      split
      · simp
      · exact h q
    | _ => exact h q

/-- **C65** (partial: the object's queue must be empty when it is terminated, as the contract demands). Once terminated an
object is never selected again, whatever happens later, and the scheduler's selection never fails. -/
theorem terminated_never_selected_partial {pre post : List Op} {ao : Nat}
    (h : Run c slots hdr (pre ++ .terminate ao :: post) outs w) (hao : ao < (Obs.activations pre).length) (hph : w.ph = .none) :
    ∃ w' o, step c w .select = .ok (w', o) ∧ o ≠ .chose ao ∧ w'.ph ≠ .fetch ao := by
  obtain ⟨w', o, hs, hcase⟩ := select_highest h hph
  have hw' : o = .idle → w'.ph ≠ .fetch ao := by
    intro ho
    subst ho
    simp only [step, hph, select] at hs
    split at hs
    · revert hs
      cases RdyGrp.findHighest w.rdy with
      | ok p =>
        intro hs
        simp only [Res.bind] at hs
        cases hp : w.sptbl[p]? with
        | none => rw [hp] at hs; simp [Res.map'] at hs
        | some x =>
          rw [hp] at hs
          cases x <;> simp [Res.map'] at hs
      | _ => intro hs; simp [Res.map', Res.bind] at hs
    · simp only [Res.map', Res.ok.injEq, Prod.mk.injEq] at hs
      rw [← hs.1, hph]
      simp
  refine ⟨w', o, hs, ?_⟩
  rcases hcase with ⟨ho, _⟩ | ⟨i, p, x, ho, hp1, hp2, _⟩
  · exact ⟨by rw [ho]; simp, hw' ho⟩
  · obtain ⟨a, hR, _⟩ := h.full
    have hlt : p < c.maxSma := by
      rw [← hR.ao.len]
      exact (List.getElem?_eq_some_iff.mp hp2).1
    have hreg := (registry_is_history_partial h p hlt).1
    rw [hp2] at hreg
    have hreg : some i = _ := Option.some.inj hreg
    have hne : i ≠ ao := by
      intro hi
      subst hi
      rw [registry_append, registry_cons] at hreg
      refine registry_never_again post _ _ ?_ ?_ p hreg.symm
      · simp; omega
      · intro q
        simp only [Obs.registry, List.nil_append]
        split
        · simp
        · next hq =>
          intro hc
          have := registry_prio pre [] (fun _ => none) (by simp) q i hc
          rw [List.nil_append] at this
          exact hq this
    exact ⟨by rw [ho]; simp [hne], by rw [hp1]; simp [hne]⟩

example : ∃ w, Run Demo.cfg Demo.slots Demo.hdr (Demo.setup ++ .terminate 1 :: [.activate 1 [0] 1, .postFifo 2 900, .postFifo 0 901])
    (Demo.outs (Demo.setup ++ .terminate 1 :: [.activate 1 [0] 1, .postFifo 2 900, .postFifo 0 901])) w ∧
    1 < (Obs.activations Demo.setup).length ∧ w.ph = .none := by
  obtain ⟨w, h, hR⟩ := Demo.mk (ops := Demo.setup ++ .terminate 1 :: [.activate 1 [0] 1, .postFifo 2 900, .postFifo 0 901])
    (by decide +kernel)
  exact ⟨w, h, by decide +kernel, hR.ph.trans (by decide +kernel)⟩

/-- **C66** (partial: channels in range). A publish to a channel in range, of an event that may be sent, is never undefined: it
succeeds if every subscriber can receive and stops with an assertion otherwise. -/
theorem publish_in_range_partial (h : Run c slots hdr ops outs w) {ch e : Nat} {s : Option Nat}
    (hl : Allowed c hdr ops (.publish ch e s)) :
    ch < c.maxChan ∧ ((∃ w', step c w (.publish ch e s) = .ok (w', .num (subs c ops ch).length)) ∨
      step c w (.publish ch e s) = .assert) := by
  obtain ⟨a, _, _, _, hleg, _⟩ := h.stepped hl
  refine ⟨hleg.1, ?_⟩
  obtain ⟨h1, h2⟩ := publish_ok_iff h hl
  by_cases hall : ∀ p ∈ subs c ops ch, CanReceive w ops s p
  · exact .inl (h1 hall)
  · exact .inr (h2 hall)

/-- **C67** (partial: the scheduler does not run between the critical sections of a recall, as the contract demands). Whatever else
happens between them (posts, publications, allocations, collections, other recalls), the last section of a recall completes
and changes nothing but the reference counter of the recalled event. -/
theorem recall_completes_partial (h : Run c slots hdr ops outs w) {k ao e : Nat} (hk : w.conts[k]? = some (.rc3 ao e)) :
    ∃ w', step c w (.resume k) = .ok (w', .unit) ∧ w'.aos = w.aos ∧ w'.dqs = w.dqs ∧ w'.slots = w.slots ∧
      (∀ x, x ≠ e → w'.hdr x = w.hdr x) := by
  obtain ⟨a, hR, hr, _⟩ := h.full
  have hk' : a.conts[k]? = some (.rc3 ao e) := by rw [← hR.conts]; exact hk
  have hl : Allowed c hdr ops (.resume k) := (allowed_iff h hr).mpr ⟨_, hk', by intro _ _ hh; cases hh⟩
  obtain ⟨a', hR', hr', _, _, h1, _⟩ := h.stepped hl
  have hk'' : a'.conts[k]? = some (.rc3 ao e) := by rw [← hR'.conts]; exact hk
  simp only [Spec.step, hk'', Spec.resumeCont, Res.map'] at h1
  rcases hs : step c w (.resume k) with ⟨w', o⟩ | _ | _ <;> rw [hs] at h1 <;> simp only [StepRel] at h1
  obtain ⟨_, rfl⟩ := h1
  refine ⟨w', rfl, ?_⟩
  simp only [step, hk, resumeCont, recall3] at hs
  by_cases h0 : (w.hdr e).nref = 0
  · simp only [h0, ne_eq, not_true_eq_false, if_false, Res.map', Res.ok.injEq, Prod.mk.injEq] at hs
    obtain ⟨rfl, _⟩ := hs
    exact ⟨rfl, rfl, rfl, fun _ _ => rfl⟩
  · simp only [h0, ne_eq, not_false_eq_true, if_true] at hs
    cases ha : assertIf c.assertEn (decide ((w.hdr e).nref > 1)) <;> rw [ha] at hs <;> simp [Res.bind, Res.map'] at hs
    subst hs
    exact ⟨rfl, rfl, rfl, fun x hx => by simp [setHdr, hx]⟩

example : ∃ w, Run Demo.cfg Demo.slots Demo.hdr (Demo.sc3 ++ [.recall 1 0, .resume 0, .postFifo 0 900])
    (Demo.outs (Demo.sc3 ++ [.recall 1 0, .resume 0, .postFifo 0 900])) w ∧ w.conts[0]? = some (.rc3 1 1000) := by
  obtain ⟨w, h, hR⟩ := Demo.mk (ops := Demo.sc3 ++ [.recall 1 0, .resume 0, .postFifo 0 900]) (by decide +kernel)
  exact ⟨w, h, by rw [hR.conts]; decide +kernel⟩

end Verif.Fwk
