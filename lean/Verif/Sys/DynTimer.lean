import Verif.Sys.Demo
/-
C141: timers that carry a dynamic event.
-/
namespace Verif.Sys
open Verif

namespace Spec

/-- The timers may post at the tick: the receiver `ao` is registered, and the event is a static one or one the application has reserved
(`RKH_FWK_RSV`) and not given back, with room for `n` more references. -/
structure MayPost (c : Fwk.Cfg) (ops : List Fwk.Op) (w : Fwk.World) (n ao e : Nat) : Prop where
  registered : ∃ x, w.aos[ao]? = some x ∧ x.prio < c.maxSma ∧ w.sptbl[x.prio]? = some (some ao)
  event : (e ≠ 0 ∧ c.static e = true) ∨
    (e ∈ Fwk.Obs.reservations ops [] ∧ (Fwk.Obs.references w (Fwk.Obs.reservations ops [])).count e + n ≤ 255)

end Spec

/-- What is needed of a post, in the abstract state. -/
structure PostOk (c : Fwk.Cfg) (a : Fwk.Spec.Abs) (n ao e : Nat) : Prop where
  reg : Fwk.Spec.Registered a ao
  nz : e ≠ 0
  evt : c.static e = true ∨ (0 < Fwk.Spec.refs a e ∧ (∀ i, Fwk.Cont.put i e ∉ a.conts) ∧ Fwk.Spec.refs a e + n ≤ 255)

theorem PostOk.legal {c : Fwk.Cfg} {a : Fwk.Spec.Abs} {n ao e : Nat} (h : PostOk c a (n + 1) ao e) :
    Fwk.Spec.Legal c a (.postFifo ao e) := by
  refine ⟨h.reg, ⟨h.nz, ?_⟩, ?_⟩
  · rcases h.evt with hs | ⟨h1, h2, _⟩
    · exact .inl hs
    · exact .inr (.inr ⟨h1, h2⟩)
  · rcases h.evt with hs | ⟨_, _, h3⟩
    · exact .inl hs
    · exact .inr (by omega)

theorem PostOk.after {c : Fwk.Cfg} {a a' : Fwk.Spec.Abs} {n ao e ao' e' : Nat} {o : Fwk.Out} (h : PostOk c a (n + 1) ao' e')
    (hs : Fwk.Spec.step c a (.postFifo ao e) = .ok (a', o)) : PostOk c a' n ao' e' := by
  simp only [Fwk.Spec.step, Res.map'_eq_ok] at hs
  obtain ⟨b, hp, hb⟩ := hs
  simp only [Prod.mk.injEq] at hb
  obtain ⟨rfl, rfl⟩ := hb
  unfold Fwk.Spec.post at hp
  split at hp
  · cases hp
  · rename_i x hx
    simp only [Fwk.Spec.qput] at hp
    split at hp
    · cases hp
    · simp only [Res.bind, Res.ok.injEq] at hp
      have hb : Fwk.posted false a ao x e = b := by rw [← hp]; rfl
      subst hb
      refine ⟨?_, h.nz, ?_⟩
      · obtain ⟨y, hy, hr⟩ := h.reg
        by_cases hi : ao = ao'
        · subst hi
          rw [hx] at hy; cases hy
          have hlt := (List.getElem?_eq_some_iff.mp hx).1
          exact ⟨{ x with q := { x.q with items := x.q.items ++ [e] } }, by simp [Fwk.posted, hlt], hr⟩
        · exact ⟨y, by simp only [Fwk.posted]; rw [List.getElem?_set_ne hi]; exact hy, hr⟩
      · rcases h.evt with hs | ⟨h1, h2, h3⟩
        · exact .inl hs
        · refine .inr ⟨?_, h2, ?_⟩
          · unfold Fwk.Spec.refs at *
            rw [(Fwk.holders_posted hx).count_eq, List.count_cons]
            omega
          · unfold Fwk.Spec.refs at *
            rw [(Fwk.holders_posted hx).count_eq, List.count_cons]
            split <;> omega

theorem legal_posts {c : Fwk.Cfg} : ∀ (l : List Timer.Post) (a : Fwk.Spec.Abs), (∀ p ∈ l, PostOk c a l.length (p.sma - 1) p.evt) →
    Fwk.Spec.LegalRun c a (l.map fun p => .postFifo (p.sma - 1) p.evt) := by
  intro l
  induction l with
  | nil => intro a _; trivial
  | cons p l ih =>
    intro a h
    refine ⟨(h p (by simp)).legal, fun a' o hs => ih a' fun q hq => ?_⟩
    exact (h q (by simp [hq])).after hs

variable {c : Cfg} {slots : List MemPool.Pool} {hdr : Nat → Fwk.Evt} {heap : Nat → Timer.Tmr} {ops : List Op} {outs : List Out} {s : Sys}

theorem reserved_not_put {ops : List Fwk.Op} {w : Fwk.World} {c : Fwk.Cfg} {e : Nat} (he : e ∈ Fwk.Obs.reservations ops []) {a : Fwk.Spec.Abs} (hR : Fwk.R c w a)
    (hr : a.resv = Fwk.Obs.reservations ops []) : e ≠ 0 ∧ 0 < Fwk.Spec.refs a e ∧ ∀ i, Fwk.Cont.put i e ∉ a.conts := by
  have hm : e ∈ a.resv := by rw [hr]; exact he
  have hc : 0 < a.resv.count e := List.count_pos_iff.2 hm
  have hh : e ∈ Fwk.Spec.holders a := by unfold Fwk.Spec.holders; simp [hm]
  refine ⟨(hR.ev.hold e hh).1, List.count_pos_iff.2 hh, fun i hi => ?_⟩
  have h1 := (hR.ev.putsOk i e hi).1
  have h2 : 0 < (a.conts.map Fwk.Cont.evt).count e := List.count_pos_iff.2 (List.mem_map.2 ⟨_, hi, rfl⟩)
  unfold Fwk.Spec.holders at h1
  simp only [List.count_append] at h1
  omega

/-! ## C141 -/

/-- **C141** (part) A tick of timers all of whose due events are static or reserved respects the contract of every post it makes, so that all
that is proved of histories holds of the history with the tick. Missing: dynamic events that are not reserved, for which it is
false. -/
theorem timer_with_reserved_event_is_safe_partial (h : Run c slots hdr heap ops outs s) {s' : Sys} {l : List Timer.Post}
    (hs : step c s .tick = .ok (s', .posts l)) (hf : (Obs.tmrOps ops).length + 1 < c.tm.fuel)
    (hp : ∀ p ∈ l, Spec.MayPost c.fw (Obs.fwkOps ops outs) s.w l.length (p.sma - 1) p.evt) :
    Run c slots hdr heap (ops ++ [.tick]) (outs ++ [.posts l]) s' := by
  refine ⟨h.env, ?_, ?_, ?_, ?_⟩
  · rw [fwkOps_append h.len, Fwk.legalRun_append]
    refine ⟨h.legalF, fun o a hr => ?_⟩
    obtain ⟨a0, hR, hr0, hb⟩ := h.fwk.full
    rw [hr0] at hr; cases hr
    have hresv : a.resv = Fwk.Obs.reservations (Obs.fwkOps ops outs) [] := hb.resv
    simp only [Obs.fwkOps, Obs.fwkOps1, List.append_nil]
    refine legal_posts l a fun p hpl => ?_
    obtain ⟨⟨x, hx, hxp, hreg⟩, hev⟩ := hp p hpl
    have hlt : p.sma - 1 < a.aos.length := by rw [← hR.ao.aos.1]; exact (List.getElem?_eq_some_iff.mp hx).1
    have hpr := (hR.ao.aos.2 _ x _ hx (List.getElem?_eq_getElem hlt)).1
    refine ⟨⟨_, List.getElem?_eq_getElem hlt, ?_⟩, ?_, ?_⟩
    · have := hR.ao.tbl x.prio hxp
      rw [hreg] at this
      rw [← hpr]
      simpa using this.symm
    · rcases hev with he | ⟨he, _⟩
      · exact he.1
      · exact (reserved_not_put he hR hresv).1
    · rcases hev with he | ⟨he, hn⟩
      · exact .inl he.2
      · obtain ⟨_, h1, h2⟩ := reserved_not_put he hR hresv
        refine .inr ⟨h1, h2, ?_⟩
        rw [← hresv, Fwk.references_eq hR] at hn
        exact hn
  · rw [tmrOps_append, Timer.legal_append]
    exact ⟨h.legalT, trivial, trivial⟩
  · rw [tmrOps_append]
    simpa [Obs.tmrOps] using hf
  · exact runOps_append2 h.run (by simp [runOps, hs])

/-- **C141** An event the application has reserved, and not given back, keeps the signal of its allocation and is in no pool's free
list, however often it was posted, dispatched and collected. -/
theorem reserved_event_survives (h : Run c slots hdr heap ops outs s) {e : Nat}
    (he : e ∈ Fwk.Obs.reservations (Obs.fwkOps ops outs) []) (hd : c.fw.static e = false) :
    (s.w.hdr e).sig = Fwk.Obs.signal ((Obs.fwkOps ops outs).zip (Obs.fwkOuts outs)) (fun e => (hdr e).sig) e ∧
      ∀ p ∈ Fwk.Obs.pools s.w, e ∉ Fwk.Obs.freeBlocks c.fw p := by
  have hm : e ∈ Fwk.refsAfter (Obs.fwkOps ops outs) s.w := by
    unfold Fwk.refsAfter Fwk.Obs.references; simp [he]
  obtain ⟨_, hu, hf⟩ := Fwk.no_use_after_recycle h.fwk hm
  refine ⟨?_, hf⟩
  rcases hu with hs | ⟨i, hi, _⟩
  · rw [hd] at hs; cases hs
  · exact (Fwk.refcount_exact h.fwk hi).2.2

namespace Demo

/-- An object, a pool, an event with signal 21 for timer 1, which fires at every tick; with or without a reservation of the event. -/
def dyn0 (rsv : List Op) : List Op := [
  .activate 3 [0, 0, 0] 3 toggle env 20, .call (.regPool (fun _ => 0) 1000 32 8), .call (.alloc 8 21)] ++ rsv ++ [
  .tmr (.init 1 1000), .tmr (.start 1 1 1 1), .tick,
  .call .select, .fetch 20, .call .done, .call (.resume 0), .call (.resume 0)]

/-- The block goes back to its pool, and the next tick posts it again. -/
def dynBad : List Op := dyn0 [] ++ [.call (.resume 0), .tick, .call .select, .fetch 20]

/-- The same with the event reserved: the collection leaves a reference. -/
def dynGood : List Op := dyn0 [.call (.reserve 1000)] ++ [.tick, .call .select, .fetch 20]

/-- **C141** fails: a periodic timer carries a dynamic event that nobody reserved. The object receives signal 21 at the first expiry.
The event is then recycled, and at the second expiry the object receives whatever the free list has left in the block (in this memory,
signal 77). No assertion notices. -/
theorem timer_with_dynamic_event_goes_wrong :
    (∃ s, (go dynBad).2 = .ok s) ∧ Obs.handled 0 (go dynBad).1 = [21, 77] := by
  have h : after dynBad (fun _ => true) = true := by decide +kernel
  refine ⟨?_, by decide +kernel⟩
  unfold after at h
  cases hg : (go dynBad).2 with
  | ok s => exact ⟨s, rfl⟩
  | assert => rw [hg] at h; cases h
  | ub => rw [hg] at h; cases h

/-- The history up to the second tick respects the contract with the reservation, and the second tick may be made. -/
example : Obs.handled 0 (go dynGood).1 = [21, 21] ∧ ∃ s, Run cfg Fwk.Demo.slots Fwk.Demo.hdr Demo.heap dynGood (go dynGood).1 s :=
  ⟨by decide +kernel, by obtain ⟨s, h, _⟩ := mk (l := dynGood) (by decide +kernel); exact ⟨s, h⟩⟩

/-- The hypotheses of the theorems above are met at the second tick of the good history. -/
example : ∃ s, Run cfg Fwk.Demo.slots Fwk.Demo.hdr Demo.heap (dyn0 [.call (.reserve 1000)]) (go (dyn0 [.call (.reserve 1000)])).1 s ∧
    Spec.MayPost cfg.fw (Obs.fwkOps (dyn0 [.call (.reserve 1000)]) (go (dyn0 [.call (.reserve 1000)])).1) s.w 1 0 1000 ∧
    (s.w.hdr 1000).sig = 21 := by
  obtain ⟨s, h, hs⟩ := mk (l := dyn0 [.call (.reserve 1000)]) (by decide +kernel)
  have hres : Fwk.Obs.reservations (Obs.fwkOps (dyn0 [.call (.reserve 1000)]) (go (dyn0 [.call (.reserve 1000)])).1) [] = [1000] := by
    decide +kernel
  refine ⟨s, h, ⟨?_, .inr ⟨by rw [hres]; simp, ?_⟩⟩, ?_⟩
  · have := after_ok hs (P := fun s => match s.w.aos[0]? with
      | some x => decide (x.prio < cfg.fw.maxSma) && (s.w.sptbl[x.prio]? == some (some 0))
      | none => false) (by decide +kernel)
    split at this
    · rename_i x hx
      simp only [Bool.and_eq_true, decide_eq_true_eq, beq_iff_eq] at this
      exact ⟨x, hx, this⟩
    · cases this
  · rw [hres]
    have := after_ok hs (P := fun s => decide ((Fwk.Obs.references s.w [1000]).count 1000 + 1 ≤ 255)) (by decide +kernel)
    simpa using this
  · have := (reserved_event_survives h (e := 1000) (by rw [hres]; simp) (by decide)).1
    rw [this]
    decide +kernel

end Demo

end Verif.Sys
