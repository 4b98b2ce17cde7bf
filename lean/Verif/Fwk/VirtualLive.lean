import Verif.Fwk.VirtualProps
import Verif.RdyGrp.Live
/-
Properties C183 and C184 for publications: overriding post functions that subscribe, unsubscribe or terminate objects while the channel is traversed.
-/
namespace Verif.Fwk
open Verif Verif.Fwk.Spec

variable {c : Cfg}

/-- The channel `ch` in a state. -/
def chan (ch : Nat) (w : World) : RdyGrp.Grp := (w.chans[ch]?).getD ⟨0#8, []⟩

/-- `rkh_pubsub_publish` (rkhfwk_pubsub.c:177-194), up to the pending `RKH_FWK_GC(event)`, without the simplification of `vpublish`: the overriding functions may
change the channel being traversed. -/
def vpublishLive (c : Cfg) (vt : Vtbls) (w : World) (ch e : Nat) (sender : Option Nat) : Res (World × Nat) :=
  if w.chans.length ≤ ch then .ub
  else (RdyGrp.liveTraverse c.maxSma (chan ch) (vpublishCb c vt e sender) (incRef w e)).map' fun r => ({ r.1 with conts := .gc1 e :: r.1.conts }, r.2)

theorem post_chans {w w' : World} {op : Op} {o : Out} {i e : Nat} (hop : op = .postFifo i e ∨ op = .postLifo i e) (h : Fwk.step c w op = .ok (w', o)) :
    w'.chans = w.chans := by
  rcases hop with rfl | rfl
  all_goals
    simp only [Fwk.step, Res.map'_eq_ok, Prod.mk.injEq] at h
    obtain ⟨w1, h, rfl, _⟩ := h
    simp only [postFifo, postLifo] at h
    split at h
    · cases h
    · simp only [Res.bind'_eq_ok, Res.ok.injEq] at h
      obtain ⟨r, _, g, _, rfl⟩ := h
      rw [incRef_eq]

theorem posts_chans : ∀ (ops : List Op) (w w' : World), (∀ op ∈ ops, ∃ i e, op = .postFifo i e ∨ op = .postLifo i e) → (runOps (Fwk.step c) w ops).2 = .ok w' →
    w'.chans = w.chans := by
  intro ops
  induction ops with
  | nil => intro w w' _ h; simp only [runOps, Res.ok.injEq] at h; rw [h]
  | cons op ops ih =>
    intro w w' hops h
    obtain ⟨i, e, hop⟩ := hops op (by simp)
    cases h1 : Fwk.step c w op with
    | ok r =>
      obtain ⟨w1, o⟩ := r
      simp only [runOps, h1] at h
      rw [ih w1 w' (fun q hq => hops q (by simp [hq])) h, post_chans hop h1]
    | assert => simp [runOps, h1] at h
    | ub => simp [runOps, h1] at h

/-- **C183 (functions that only forward).** If the overriding functions only forward or discard events, the publication is the one of C174: the
simplification made there is without effect. -/
theorem live_publication_of_forwarding {vt : Vtbls} {k : Nat} (hf : Forwards vt k) (w : World) (ch e : Nat) (s : Option Nat)
    (hi : ∀ g, w.chans[ch]? = some g → RdyGrp.Inv c.maxSma g) : vpublishLive c vt w ch e s = vpublish c vt w ch e s := by
  unfold vpublishLive vpublish
  cases hg : w.chans[ch]? with
  | none =>
    rw [if_pos (List.getElem?_eq_none_iff.mp hg)]
  | some g =>
    have hg2 : (incRef w e).chans[ch]? = some g := by rw [incRef_eq]; exact hg
    rw [if_neg (by have := (List.getElem?_eq_some_iff.mp hg).1; omega)]
    have hc : chan ch (incRef w e) = g := by simp [chan, hg2]
    rw [RdyGrp.live_eq_traverse (get := chan ch) ?_ _ (by rw [hc]; exact (hi g hg).len), hc]
    intro w1 p w2 h
    simp only [vpublishCb] at h
    split at h
    · cases h
    · simp only [Res.bind'_eq_ok] at h
      obtain ⟨_, _, h⟩ := h
      split at h
      · cases h
      · rename_i ao _ _
        split at h
        · have : w2.chans = w1.chans := by
            refine posts_chans _ _ _ ?_ h
            intro op hop
            simp only [fifoCalls] at hop
            cases hv : vt ao with
            | none => rw [hv] at hop; simp only [List.mem_singleton] at hop; exact ⟨ao, e, .inl hop⟩
            | some f =>
              rw [hv] at hop
              obtain ⟨i, h1, _⟩ := (hf ao f hv w1 e).2 op hop
              exact ⟨i, e, h1⟩
          simp [chan, this]
        · cases h; rfl

end Verif.Fwk

namespace Verif.Fwk.VLiveDemo
open Verif Verif.Fwk Verif.Fwk.Spec Verif.Fwk.Demo Verif.Fwk.VDemo

/-- The post function of object 1 (priority 1) first withdraws object 0 (priority 3) from channel 0. -/
def withdraw : Vtbls := fun ao => if ao = 1 then some fun _ e => [.unsubscribe 0 0, .postFifo 1 e] else none

/-- The post function of object 1 withdraws object 0 from all channels and terminates it. -/
def finish : Vtbls := fun ao => if ao = 1 then some fun _ e => [.unsubscribeAll 0, .terminate 0, .postFifo 1 e] else none

/-- C183: hypotheses of `live_publication_of_forwarding`, and what the publication does. -/
example : Forwards relay 1 ∧ queues ((vpublishLive cfg relay (st base) 0 900 none).map' Prod.fst) 900 = some ([[], [900, 900]], 0) ∧
    (∀ g, (st base).chans[0]? = some g → RdyGrp.Inv cfg.maxSma g) := by
  refine ⟨forwards_relay, by decide +kernel, fun g hg => ?_⟩
  obtain ⟨a, hR, _⟩ := (mk' (ops := base) (by decide +kernel)).full
  exact (hR.ch 0 g hg).1

/-- **C184 is false of the code, for publications.** An object that was unsubscribed during the publication, before its turn, receives the event; had the same
calls been made one after the other it would not. -/
theorem unsubscribed_object_still_gets_event :
    Run cfg slots hdr base (outs base) (st base) ∧
    queues ((vpublishLive cfg withdraw (st base) 0 900 none).map' Prod.fst) 900 = some ([[900], [900]], 0) ∧
    queues (runOps (Fwk.step cfg) (st base) [.unsubscribe 0 0, .postFifo 1 900, .publish 0 900 (some 1)]).2 900 = some ([[], [900]], 0) :=
  ⟨mk' (by decide +kernel), by decide +kernel, by decide +kernel⟩

/-- **C184 is false of the code, for publications.** An object that was withdrawn from all channels and terminated during the publication, before its turn,
makes the assertion in `publish` fail; made before the publication, the same calls are harmless. -/
theorem ended_object_asserts :
    Run cfg slots hdr base (outs base) (st base) ∧ vpublishLive cfg finish (st base) 0 900 none = .assert ∧
    queues (runOps (Fwk.step cfg) (st base) [.unsubscribeAll 0, .terminate 0, .publish 0 900 none]).2 900 = some ([[], [900]], 0) :=
  ⟨mk' (by decide +kernel), by
    have : (match vpublishLive cfg finish (st base) 0 900 none with | .assert => true | _ => false) = true := by decide +kernel
    revert this
    cases vpublishLive cfg finish (st base) 0 900 none <;> simp, by decide +kernel⟩

end Verif.Fwk.VLiveDemo
