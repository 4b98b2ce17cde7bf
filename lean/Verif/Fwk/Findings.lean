import Verif.Fwk.Demo
/-
What happens outside the contract, or in other configurations: properties a user might rely on that the code does not have
(C63-C67). Each is stated for every reachable state in which the situation arises.
-/
namespace Verif.Fwk
open Verif

variable {c : Cfg} {slots : List MemPool.Pool} {hdr : Nat → Evt} {ops : List Op} {outs : List Out} {w : World}

/-- **C63 (negation).** An event that was allocated but never handed to the framework cannot be given back: collecting it changes
nothing, the block stays allocated for ever. -/
theorem gc_of_fresh_leaks (h : Run c slots hdr ops outs w) {e : Nat} (he : e ∈ Obs.fresh (ops.zip outs) []) :
    (runOps (step c) w [.gc e, .resume 0]).2 = .ok w ∧ ∃ i, Obs.Allocated c w i e := by
  obtain ⟨a, hR, _, h2, _⟩ := refsAfter_eq h
  rw [← h2] at he
  obtain ⟨⟨i, hi⟩, hc⟩ := hR.ev.freshU e he
  have hh := hR.ev.hdrU i e hi
  refine ⟨?_, i, (allocated_iff hR i e).mpr hi⟩
  have : (w.hdr e).nref = 0 := by rw [hh]; exact hc
  simp [runOps, step, resumeCont, this, Res.map']

example : ∃ w, Run Demo.cfg Demo.slots Demo.hdr (Demo.setup ++ [.alloc 3 4]) (Demo.outs (Demo.setup ++ [.alloc 3 4])) w ∧
    1000 ∈ Obs.fresh ((Demo.setup ++ [Op.alloc 3 4]).zip (Demo.outs (Demo.setup ++ [Op.alloc 3 4]))) [] := by
  obtain ⟨w, h, _⟩ := Demo.mk (ops := Demo.setup ++ [.alloc 3 4]) (by decide +kernel)
  exact ⟨w, h, by decide +kernel⟩

/-- **C64 (negation).** With assertions compiled out, posting to a full queue drops the event silently but still counts a
reference to it: the counter exceeds the number of references by one from then on, so the event is never recycled. -/
theorem post_full_leaks_reference (hen : c.assertEn = false) (w : World) {ao e : Nat} {x : Ao} (hx : w.aos[ao]? = some x)
    (hfull : x.q.nelems ≤ x.q.qty) (hdyn : (w.hdr e).pool ≠ 0) (front : Bool) :
    ∃ w' x', step c w (if front then .postLifo ao e else .postFifo ao e) = .ok (w', .unit) ∧
      w'.aos = w.aos.set ao x' ∧ Obs.contents x'.q = Obs.contents x.q ∧ w'.rdy = w.rdy ∧ w'.slots = w.slots ∧ w'.conts = w.conts ∧
      (w'.hdr e).nref = ((w.hdr e).nref + 1) % 256 := by
  refine ⟨{ incRef w e with aos := w.aos.set ao { x with q := { x.q with info := { x.q.info with nfull := x.q.info.nfull + 1 } } }, rdy := w.rdy },
    { x with q := { x.q with info := { x.q.info with nfull := x.q.info.nfull + 1 } } }, ?_, rfl, rfl, rfl, ?_, ?_, ?_⟩
  · cases front
    · simp [step, postFifo, incRef_eq, hx, Queue.putFifo, Cfg.qc, hen, hfull, applySync, Res.map', assertIf]
    · simp [step, postLifo, incRef_eq, hx, Queue.putLifo, Cfg.qc, hen, hfull, applySync, Res.map', assertIf]
  · rw [incRef_eq]
  · rw [incRef_eq]
  · simp [incRef, hdyn, setHdr]

example : ∃ (w : World) (x : Ao), w.aos[0]? = some x ∧ x.q.nelems ≤ x.q.qty ∧ (w.hdr 1000).pool ≠ 0 :=
  ⟨{ (initW Demo.cfg Demo.slots Demo.hdr) with aos := [⟨1, { Queue.init [7] 1 true with qty := 1 }⟩] }, _, rfl, by decide, by decide⟩

/-- **C65 (negation).** Terminating an object while events are waiting for it leaves it in the ready set: if it is the highest
ready priority, the next scheduler iteration dereferences the null entry of the priority table. -/
theorem terminate_pending_crashes (h : Run c slots hdr ops outs w) {p ao : Nat} {x : Ao} (hph : w.ph = .none)
    (hreg : w.sptbl[p]? = some (some ao)) (hx : w.aos[ao]? = some x) (hpend : Obs.contents x.q ≠ [])
    (hhi : ∀ q y, q < p → Obs.registered w q = some y → Obs.contents y.q = []) :
    (runOps (step c) w [.terminate ao, .select]).2 = .ub := by
  obtain ⟨a, hR, _⟩ := h.full
  have hreg' : Obs.registered w p = some x := by simp [Obs.registered, hreg, hx]
  have hbit := (ready_iff_pending h p).mpr ⟨x, hreg', hpend⟩
  have hready : RdyGrp.isReady w.rdy = true := (RdyGrp.isReady_iff hR.ao.rdyInv).mpr ⟨p, hbit⟩
  obtain ⟨p', h1, h2, h3⟩ := findHighest_of_inv hR.ao.rdyInv hready
  have hpp : p' = p := by
    rcases Nat.lt_trichotomy p' p with hlt | heq | hgt
    · obtain ⟨y, hy, hyc⟩ := (ready_iff_pending h p').mp h2
      exact absurd (hhi p' y hlt hy) hyc
    · exact heq
    · rw [h3 p hgt] at hbit; cases hbit
  subst hpp
  obtain ⟨i, y, hri, hy, hyp, _⟩ := (registered_eq hR p').1 x hreg'
  have hpm := (hR.ao.regOk p' i hri).1
  have htbl := hR.ao.tbl p' hpm
  rw [hreg, hri] at htbl
  simp only [Option.some.injEq] at htbl
  subst htbl
  obtain ⟨_, y', hy', hyp'⟩ := hR.ao.regOk p' ao hri
  rw [hy] at hy'; cases hy'
  have hxp : x.prio = p' := by rw [hyp, hyp']
  have hlen := hR.ao.len
  have hlt : p' < w.sptbl.length := by omega
  have s1 : step c w (.terminate ao) = .ok ({ w with sptbl := w.sptbl.set p' none }, .unit) := by
    simp only [step, terminate, hx, unregister, hxp]
    rw [if_neg (by omega)]
    have hdec : decide (p' ≤ c.maxSma ∧ w.sptbl[p']? = some (some ao)) = true := decide_eq_true ⟨Nat.le_of_lt hpm, hreg⟩
    rw [hdec, assertIf_true, if_pos hlt]
    rfl
  simp only [runOps, s1]
  simp only [step, hph, select, hready, if_true, h1, Res.bind'_ok, List.getElem?_set_self hlt, Res.map']

example : ∃ w x, Run Demo.cfg Demo.slots Demo.hdr (Demo.setup ++ [.postFifo 1 900]) (Demo.outs (Demo.setup ++ [.postFifo 1 900])) w ∧
    w.ph = .none ∧ w.sptbl[1]? = some (some 1) ∧ w.aos[1]? = some x ∧ Obs.contents x.q ≠ [] := by
  obtain ⟨w, h, hR⟩ := Demo.mk (ops := Demo.setup ++ [.postFifo 1 900]) (by decide +kernel)
  obtain ⟨x, hx, _, hq⟩ := hR.ao.aos.get (i := 1) rfl
  exact ⟨w, x, h, hR.ph, hR.ao.tbl 1 (by decide), hx, by rw [contents_eq hq]; decide +kernel⟩

/-- **C66 (negation).** Publishing does not check the channel number, unlike subscribing: a number out of range reads outside the
channel table. -/
theorem publish_channel_unchecked (h : Run c slots hdr ops outs w) {ch e : Nat} {s : Option Nat} (hch : c.maxChan ≤ ch) :
    step c w (.publish ch e s) = .ub ∧ ∀ ao, step c w (.subscribe ch ao) = .assert := by
  obtain ⟨a, hR, _⟩ := h.full
  have : w.chans[ch]? = none := List.getElem?_eq_none (by rw [hR.chLen]; exact hch)
  refine ⟨by simp [step, publish, this, Res.map'], fun ao => ?_⟩
  have hn : ¬ ch < c.maxChan := by omega
  simp [step, subscribe, hn, h.env.en, Res.map']

/-- **C67 (negation).** Recalling is not atomic. If the object that receives the recalled event (last reference) runs and
consumes it before the recalling function continues, that function fails its own assertion: take any reachable state where
object `ao` has nothing pending, nothing else is ready, and a deferred queue holds the only reference to a dynamic event. -/
theorem recall_interrupted_asserts (h : Run c slots hdr ops outs w) {ao i e k : Nat} {rest : List Nat} {d : Queue.Queue} {x : Ao}
    (hph : w.ph = .none) (hd : w.dqs[i]? = some d) (hx : w.aos[ao]? = some x) (hreg : w.sptbl[x.prio]? = some (some ao))
    (he : Obs.contents d = e :: rest) (hempty : ∀ p y, Obs.registered w p = some y → Obs.contents y.q = [])
    (hcap : 0 < x.q.nelems) (ha : Obs.Allocated c w k e) (h1 : (refsAfter ops w).count e = 1) :
    (runOps (step c) w [.recall ao i, .resume 0, .select, .fetch, .done, .resume 0, .resume 0, .resume 0]).2 = .assert := by
  obtain ⟨a, hR, hrun, hb⟩ := h.full
  have hi : i < a.dqs.length := by rw [← hR.dq.1]; exact (List.getElem?_eq_some_iff.mp hd).1
  have hrel := hR.dq.2 i d a.dqs[i] hd (List.getElem?_eq_getElem hi)
  have hyi : a.dqs[i]? = some a.dqs[i] := List.getElem?_eq_getElem hi
  generalize a.dqs[i] = z at hrel hyi
  have hz : z.items = e :: rest := by rw [← contents_eq hrel, he]
  have hu := (allocated_iff hR k e).mp ha
  have hh := hR.ev.hdrU k e hu
  have hrs : refsAfter ops w = Spec.holders a := by
    have : a.resv = Obs.reservations ops [] := hb.resv
    rw [refsAfter, ← this, references_eq hR]
  rw [hrs] at h1
  rw [h1] at hh
  have he0 : e ≠ 0 := hR.ev.nz k e (.inl hu)
  obtain ⟨q', hget, hrep⟩ := qget_cons h.env.en hrel hz
  -- the object
  have hreg' : Obs.registered w x.prio = some x := by simp [Obs.registered, hreg, hx]
  obtain ⟨j, y, hrj, hy, hyp, hyc⟩ := (registered_eq hR x.prio).1 x hreg'
  have hpm := (hR.ao.regOk x.prio j hrj).1
  have htbl := hR.ao.tbl x.prio hpm
  rw [hreg, hrj] at htbl
  simp only [Option.some.injEq] at htbl
  subst htbl
  have hyi0 : y.q.items = [] := by rw [← hyc]; exact hempty _ _ hreg'
  rw [hyp] at hrj
  obtain ⟨x0, hx0, _, _, hput⟩ := hR.ao.put h.env.sma h.env.en hy hrj he0 true
  rw [hx] at hx0; cases hx0
  have hxy := (hR.ao.aos.2 ao x y hx hy).2
  have hcp : x.q.nelems = y.q.cap := by obtain ⟨qa, h3, _⟩ := hxy; exact h3.nel
  obtain ⟨q2, s, g, hput, hsync, hrel2⟩ := hput (by rw [hyi0]; simp; omega)
  have hlt : ao < a.aos.length := (List.getElem?_eq_some_iff.mp hy).1
  have hltw : ao < w.aos.length := (List.getElem?_eq_some_iff.mp hx).1
  simp only [if_true, hyi0] at hrel2
  -- the ready set after the post
  have hbits : ∀ p, RdyGrp.bit g p = true → p = x.prio := by
    intro p hp
    obtain ⟨i', x', h5, h6, h7⟩ := (hrel2.rdyBit p).mp hp
    by_cases hii : i' = ao
    · subst hii
      obtain ⟨_, z, hz1, hz2⟩ := hR.ao.regOk p i' h5
      rw [hy] at hz1; cases hz1
      rw [← hz2, hyp]
    · rw [List.getElem?_set_ne (Ne.symm hii)] at h6
      obtain ⟨u, v, hu1, hv1, _, hu3⟩ := (registered_eq hR p).2 i' h5
      rw [h6] at hv1; cases hv1
      exact absurd (hu3 ▸ hempty p u hu1) h7
  have hbit : RdyGrp.bit g x.prio = true := by
    rw [hrel2.rdyBit]
    exact ⟨ao, _, by rw [hyp]; exact hrj, List.getElem?_set_self hlt, by simp⟩
  have hready : RdyGrp.isReady g = true := (RdyGrp.isReady_iff hrel2.rdyInv).mpr ⟨_, hbit⟩
  obtain ⟨p', hf1, hf2, _⟩ := findHighest_of_inv hrel2.rdyInv hready
  have := hbits p' hf2
  subst this
  -- the fetch
  obtain ⟨x3, q3, s3, g3, hx3, hget3, hsync3, _⟩ := hrel2.get (rest := []) (e := e) h.env.sma h.env.en (List.getElem?_set_self hlt) hrj rfl
  rw [List.getElem?_set_self hltw] at hx3
  cases hx3
  have he0' : (e != 0) = true := by simpa using he0
  simp only [qputC, if_true] at hput
  have s1 : step c w (.recall ao i) = .ok ({ w with dqs := w.dqs.set i q', conts := .rc2 ao e :: w.conts }, .evt e) := by
    simp [step, recall1, hd, hget, Res.map', he0]
  simp only [runOps, s1]
  have hhdr : incHdr w.hdr e = fun x => if x = e then ⟨a.sig e, 2, k + 1⟩ else w.hdr x := by
    simp [incHdr, hh]
  have s2 : step c { w with dqs := w.dqs.set i q', conts := .rc2 ao e :: w.conts } (.resume 0) =
      .ok ({ w with hdr := incHdr w.hdr e, aos := w.aos.set ao { x with q := q2 }, rdy := g, dqs := w.dqs.set i q', conts := .rc3 ao e :: w.conts }, .unit) := by
    simp only [step, List.getElem?_cons_zero, List.eraseIdx_cons_zero, resumeCont, postLifo, incRef_eq, hx, hput, hsync,
      Res.bind'_ok, Res.map']
  simp only [s2]
  simp only [step, hph, select, hready, if_true, hf1, Res.bind'_ok, hreg, Res.map']
  simp only [smaGet, List.getElem?_set_self hltw, hget3, Res.bind'_ok, hsync3, he0', assertIf_true]
  simp [resumeCont, hhdr, gcSection, recall3, h.env.en, setHdr]

example : ∃ w d x, Run Demo.cfg Demo.slots Demo.hdr (Demo.setup ++ [.alloc 3 4, .defer 0 1000])
    (Demo.outs (Demo.setup ++ [.alloc 3 4, .defer 0 1000])) w ∧ w.ph = .none ∧ w.dqs[0]? = some d ∧ w.aos[1]? = some x ∧
    w.sptbl[x.prio]? = some (some 1) ∧ Obs.contents d = [1000] ∧ (∀ p y, Obs.registered w p = some y → Obs.contents y.q = []) ∧
    0 < x.q.nelems ∧ Obs.Allocated Demo.cfg w 0 1000 ∧ (refsAfter (Demo.setup ++ [.alloc 3 4, .defer 0 1000]) w).count 1000 = 1 := by
  obtain ⟨w, h, hR⟩ := Demo.mk (ops := Demo.setup ++ [.alloc 3 4, .defer 0 1000]) (by decide +kernel)
  obtain ⟨x, hx, hxp, hq⟩ := hR.ao.aos.get (i := 1) rfl
  obtain ⟨d, hd, hdq⟩ := hR.dq.get (i := 0) rfl
  refine ⟨w, d, x, h, hR.ph, hd, hx, ?_, by rw [contents_eq hdq]; decide +kernel, ?_, ?_, (allocated_iff hR 0 1000).mpr ⟨_, rfl, by decide +kernel⟩, ?_⟩
  · rw [hxp]; exact hR.ao.tbl 1 (by decide)
  · intro p y hy
    obtain ⟨i, z, _, hz, _, hc⟩ := (registered_eq hR p).1 y hy
    rw [hc]
    have hall : ∀ z ∈ (Demo.fin (Demo.setup ++ [.alloc 3 4, .defer 0 1000])).aos, z.q.items = [] := by decide +kernel
    exact hall z (List.mem_of_getElem? hz)
  · obtain ⟨qa, h5, h6⟩ := hq
    rw [h5.nel]; decide +kernel
  · have e : Obs.reservations (Demo.setup ++ [.alloc 3 4, .defer 0 1000]) [] = (Demo.fin (Demo.setup ++ [.alloc 3 4, .defer 0 1000])).resv := by
      decide +kernel
    rw [refsAfter, e, references_eq hR]; decide +kernel

end Verif.Fwk
