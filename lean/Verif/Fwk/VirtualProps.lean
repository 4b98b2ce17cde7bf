import Verif.Fwk.Virtual
import Verif.Fwk.Partial
/-
Properties C174-C176: polymorphic active objects.
-/
namespace Verif.Fwk
open Verif Verif.Fwk.Spec

variable {c : Cfg} {slots : List MemPool.Pool} {hdr : Nat → Evt} {ops : List Op} {outs : List Out} {w : World} {a : Abs}

/-! ### Specification -/

namespace Spec

/-- `ao` is registered, read off memory. -/
def RegisteredW (w : World) (ao : Nat) : Prop := ∃ x, w.aos[ao]? = some x ∧ w.sptbl[x.prio]? = some (some ao)

/-- The overriding functions forward the event: each calls the inherited FIFO or LIFO function of registered objects, at most `k` times in all, or
not at all. -/
def Forwards (vt : Vtbls) (k : Nat) : Prop :=
  ∀ ao f, vt ao = some f → ∀ w e, (f w e).length ≤ k ∧ ∀ op ∈ f w e, ∃ i, (op = .postFifo i e ∨ op = .postLifo i e) ∧ RegisteredW w i

/-- What posting to `ao` means: its overriding function if it has one, the framework's FIFO function otherwise. -/
def serve (vt : Vtbls) (w : World) (ao e : Nat) : List Op :=
  match vt ao with
  | some f => f w e
  | none => [.postFifo ao e]

/-- The calls the overriding functions make when the targets `l` (object and event) are served in order. -/
def callsFor (c : Cfg) (vt : Vtbls) : World → List (Nat × Nat) → List Op
  | _, [] => []
  | w, p :: ps =>
    serve vt w p.1 p.2 ++
      match (runOps (Fwk.step c) w (serve vt w p.1 p.2)).2 with
      | .ok w' => callsFor c vt w' ps
      | _ => []

/-- The objects registered at the priorities `l`, without the sender. -/
def targets (reg : Nat → Option Nat) (sender : Option Nat) (l : List Nat) : List Nat :=
  (l.filterMap reg).filter fun ao => decide (some ao ≠ sender)

end Spec

theorem serve_eq (vt : Vtbls) (w : World) (ao e : Nat) : Spec.serve vt w ao e = fifoCalls vt w ao e := by
  unfold Spec.serve fifoCalls
  cases vt ao <;> rfl

/-! ### The inherited functions -/

theorem vpost_default {vt : Vtbls} (ao e : Nat) (h : vt ao = none) : vpost c vt w ao e = postFifo c w ao e := by
  simp only [vpost, fifoCalls, h, runOps, step]
  cases postFifo c w ao e <;> rfl

theorem postFifo_conts {ao e : Nat} (l : List Cont) :
    postFifo c { w with conts := l } ao e = (postFifo c w ao e).map' fun w' => { w' with conts := l } := by
  simp only [postFifo_eq, postC]
  cases w.aos[ao]? with
  | none => rfl
  | some x =>
    simp only
    cases qputC false c.qc x.q e with
    | ok r => simp only [Res.bind'_ok]; cases applySync c w.rdy x.prio r.2 <;> rfl
    | assert => rfl
    | ub => rfl

/-- **C174 (nothing overridden).** With the default tables publishing does what it does without virtual functions. -/
theorem default_tables_change_nothing {vt : Vtbls} (hv : ∀ ao, vt ao = none) (w : World) (ch e : Nat) (s : Option Nat)
    (hi : ∀ g, w.chans[ch]? = some g → RdyGrp.Inv c.maxSma g) : vpublish c vt w ch e s = publish c w ch e s := by
  unfold vpublish publish
  cases hg : w.chans[ch]? with
  | none => rfl
  | some g =>
    simp only [RdyGrp.traverse_rows (hi g hg)]
    generalize RdyGrp.rowBits 0 g.tbl = l
    generalize l.length % 256 = n
    have hc : (incRef w e).conts = w.conts := by rw [incRef_eq]
    rw [show ({ incRef w e with conts := .gc1 e :: w.conts } : World) = { incRef w e with conts := .gc1 e :: (incRef w e).conts } by rw [hc]]
    generalize incRef w e = w1
    have hk : ∀ (l : List Nat) (w1 : World), RdyGrp.foldRes (publishCb c e s) { w1 with conts := .gc1 e :: w1.conts } l =
        (RdyGrp.foldRes (vpublishCb c vt e s) w1 l).map' fun w' => { w' with conts := .gc1 e :: w'.conts } := by
      intro l
      induction l with
      | nil => intro w1; rfl
      | cons p l ih =>
        intro w1
        have h1 : publishCb c e s { w1 with conts := .gc1 e :: w1.conts } p =
            (vpublishCb c vt e s w1 p).map' fun w' => { w' with conts := .gc1 e :: w'.conts } := by
          simp only [publishCb, vpublishCb]
          cases w1.sptbl[p]? with
          | none => rfl
          | some r =>
            simp only
            cases assertIf c.assertEn r.isSome with
            | assert => rfl
            | ub => rfl
            | ok u =>
              simp only [Res.bind'_ok]
              cases r with
              | none => rfl
              | some ao =>
                by_cases hs : some ao ≠ s
                · simp only [hs, ne_eq, not_false_eq_true, if_true, vpost_default ao e (hv ao), postFifo_conts]
                  have hpc : ∀ w', postFifo c w1 ao e = .ok w' → w'.conts = w1.conts := by
                    intro w' hw
                    simp only [postFifo_eq, postC] at hw
                    cases hx : w1.aos[ao]? with
                    | none => simp [hx] at hw
                    | some x =>
                      simp only [hx] at hw
                      cases hq : qputC false c.qc x.q e with
                      | ok r =>
                        simp only [hq, Res.bind'_ok] at hw
                        cases hy : applySync c w1.rdy x.prio r.2 with
                        | ok g => simp only [hy, Res.bind'_ok, Res.ok.injEq] at hw; rw [← hw]
                        | assert => simp [hy] at hw
                        | ub => simp [hy] at hw
                      | assert => simp [hq] at hw
                      | ub => simp [hq] at hw
                  cases hp : postFifo c w1 ao e with
                  | ok w' => simp [Res.map', hpc w' hp]
                  | assert => rfl
                  | ub => rfl
                · simp only [hs, if_false, Res.map']
        simp only [RdyGrp.foldRes, h1]
        cases vpublishCb c vt e s w1 p with
        | ok w' => simp only [Res.map', Res.bind'_ok]; exact ih w'
        | assert => rfl
        | ub => rfl
    rw [hk]
    cases RdyGrp.foldRes (vpublishCb c vt e s) w1 l <;> rfl

/-! ### Forwarding -/

theorem registered_posted {front : Bool} {ao e i : Nat} {y : AAo} (hy : a.aos[ao]? = some y) (h : Registered a i) :
    Registered (posted front a ao y e) i := by
  obtain ⟨x, hx, hr⟩ := h
  have hlt : ao < a.aos.length := (List.getElem?_eq_some_iff.mp hy).1
  by_cases hi : i = ao
  · subst hi
    rw [hy] at hx; cases hx
    exact ⟨_, List.getElem?_set_self hlt, hr⟩
  · exact ⟨x, by simp only [posted]; rw [List.getElem?_set_ne (Ne.symm hi)]; exact hx, hr⟩

/-- Event `e` can be posted at any time: it is static, or live. -/
def Ready (c : Cfg) (a : Abs) (e : Nat) : Prop := e ≠ 0 ∧ (c.static e = true ∨ Live a e)

theorem Ready.usable {e : Nat} (h : Ready c a e) : Usable c a e := ⟨h.1, h.2.imp id .inr⟩

/-- A list of posts of one event to registered objects. -/
theorem forwards_legal {e : Nat} : ∀ (L : List Op) (a : Abs), Ready c a e → Room c a e L.length →
    (∀ op ∈ L, ∃ i, (op = .postFifo i e ∨ op = .postLifo i e) ∧ Registered a i) →
    LegalRun c a L ∧ ∀ o a', runOps (Spec.step c) a L = (o, .ok a') →
      Ready c a' e ∧ (∀ n, Room c a e (L.length + n) → Room c a' e n) ∧ a'.resv = a.resv ∧ a'.reg = a.reg ∧
      (∀ i, Registered a i → Registered a' i) := by
  intro L
  induction L with
  | nil =>
    intro a hr _ _
    refine ⟨trivial, fun o a' h => ?_⟩
    simp only [runOps, Prod.mk.injEq, Res.ok.injEq] at h
    rw [← h.2]
    exact ⟨hr, fun n hn => by simpa using hn, rfl, rfl, fun _ h => h⟩
  | cons op L ih =>
    intro a hr hroom hL
    obtain ⟨i, hop, y, hy, hreg⟩ := hL op (by simp)
    have hroom1 : Room c a e 1 := hroom.imp id (fun h => by simp only [List.length_cons] at h; omega)
    have key : ∀ front, LegalRun c (posted front a i y e) L ∧ ∀ o a', runOps (Spec.step c) (posted front a i y e) L = (o, .ok a') →
        Ready c a' e ∧ (∀ n, Room c a e (L.length + 1 + n) → Room c a' e n) ∧ a'.resv = a.resv ∧ a'.reg = a.reg ∧
        (∀ i, Registered a i → Registered a' i) := by
      intro front
      have hr' : Ready c (posted front a i y e) e := by
        refine ⟨hr.1, hr.2.imp id fun h => ⟨by rw [refs_posted hy]; omega, h.2⟩⟩
      have hroom' : ∀ n, Room c a e (n + 1) → Room c (posted front a i y e) e n := by
        intro n hn
        exact hn.imp id fun h => by rw [refs_posted hy]; omega
      obtain ⟨h1, h2⟩ := ih (posted front a i y e) hr' (hroom' _ hroom) (by
        intro op' hop'
        obtain ⟨j, hj, hjr⟩ := hL op' (by simp [hop'])
        exact ⟨j, hj, registered_posted hy hjr⟩)
      refine ⟨h1, fun o a' hrun => ?_⟩
      obtain ⟨g1, g2, g3, g4, g5⟩ := h2 o a' hrun
      refine ⟨g1, fun n hn => g2 n (hroom' _ (by rwa [Nat.add_right_comm] at hn)), g3, g4, fun j hj => g5 j (registered_posted hy hj)⟩
    have hpost : ∀ front a1, Spec.post front a i e = .ok a1 → a1 = posted front a i y e := by
      intro front a1 h1
      obtain ⟨x, q, hx, ha1, hq, _⟩ := post_facts h1
      rw [hy] at hx; cases hx
      rw [ha1, hq]; rfl
    have stepEq : ∀ front, (op = .postFifo i e ∧ front = false ∨ op = .postLifo i e ∧ front = true) →
        Spec.step c a op = (Spec.post front a i e).map' fun a => (a, .unit) := by
      rintro front (⟨rfl, rfl⟩ | ⟨rfl, rfl⟩) <;> rfl
    obtain ⟨front, hfr⟩ : ∃ front, (op = .postFifo i e ∧ front = false ∨ op = .postLifo i e ∧ front = true) := by
      rcases hop with h | h
      · exact ⟨false, .inl ⟨h, rfl⟩⟩
      · exact ⟨true, .inr ⟨h, rfl⟩⟩
    refine ⟨⟨?_, ?_⟩, ?_⟩
    · rcases hop with rfl | rfl <;> exact ⟨⟨y, hy, hreg⟩, hr.usable, hroom1⟩
    · intro a1 o1 hs
      rw [stepEq front hfr] at hs
      cases hp : Spec.post front a i e with
      | ok a2 =>
        rw [hp] at hs
        simp only [Res.map', Res.ok.injEq, Prod.mk.injEq] at hs
        rw [← hs.1, hpost front a2 hp]
        exact (key front).1
      | assert => rw [hp] at hs; simp [Res.map'] at hs
      | ub => rw [hp] at hs; simp [Res.map'] at hs
    · intro o a' hrun
      simp only [runOps, stepEq front hfr] at hrun
      cases hp : Spec.post front a i e with
      | ok a2 =>
        rw [hp] at hrun
        simp only [Res.map', Prod.mk.injEq] at hrun
        rw [hpost front a2 hp] at hrun
        exact (key front).2 _ _ (Prod.ext rfl hrun.2)
      | assert => rw [hp] at hrun; simp [Res.map'] at hrun
      | ub => rw [hp] at hrun; simp [Res.map'] at hrun

theorem registeredW_iff (h : R c w a) (i : Nat) : RegisteredW w i ↔ Registered a i := by
  constructor
  · rintro ⟨x, hx, hr⟩
    obtain ⟨hlen, hrel⟩ := h.ao.aos
    have hlt : i < a.aos.length := by rw [← hlen]; exact (List.getElem?_eq_some_iff.mp hx).1
    have hy : a.aos[i]? = some a.aos[i] := List.getElem?_eq_getElem hlt
    have hp := (hrel i x _ hx hy).1
    have hlt' : x.prio < c.maxSma := by rw [hp]; exact h.ao.prioOk _ (List.mem_of_getElem? hy)
    rw [h.ao.tbl _ hlt'] at hr
    exact ⟨_, hy, by rw [← hp]; simpa using hr⟩
  · rintro ⟨y, hy, hr⟩
    obtain ⟨hlen, hrel⟩ := h.ao.aos
    have hlt : i < w.aos.length := by rw [hlen]; exact (List.getElem?_eq_some_iff.mp hy).1
    have hx : w.aos[i]? = some w.aos[i] := List.getElem?_eq_getElem hlt
    have hp := (hrel i _ y hx hy).1
    refine ⟨_, hx, ?_⟩
    rw [hp, h.ao.tbl _ (h.ao.prioOk _ (List.mem_of_getElem? hy)), hr]

/-- The calls made for one target. -/
theorem calls_ok {vt : Vtbls} {k : Nat} (hf : Forwards vt k) (hk : 1 ≤ k) (hR : R c w a) {ao : Nat} (hreg : Registered a ao) (e : Nat) :
    (fifoCalls vt w ao e).length ≤ k ∧
    ∀ op ∈ fifoCalls vt w ao e, ∃ i, (op = .postFifo i e ∨ op = .postLifo i e) ∧ Registered a i := by
  unfold fifoCalls
  cases hv : vt ao with
  | none => exact ⟨by simpa using hk, fun op hop => ⟨ao, .inl (by simpa using hop), hreg⟩⟩
  | some f =>
    obtain ⟨h1, h2⟩ := hf ao f hv w e
    refine ⟨h1, fun op hop => ?_⟩
    obtain ⟨i, hi, hri⟩ := h2 op hop
    exact ⟨i, hi, (registeredW_iff hR i).mp hri⟩

/-- The calls made for a list of targets. -/
theorem callsFor_legal (wf : Wf c) {vt : Vtbls} {k : Nat} (hf : Forwards vt k) (hk : 1 ≤ k) : ∀ (l : List (Nat × Nat)) (w : World) (a : Abs), R c w a →
    (∀ p ∈ l, Registered a p.1) → (∀ p ∈ l, c.static p.2 = true ∧ p.2 ≠ 0 ∨ (∀ q ∈ l, q.2 = p.2) ∧ Ready c a p.2 ∧ Room c a p.2 (k * l.length)) →
    LegalRun c a (callsFor c vt w l) ∧ (runOps (step c) w (callsFor c vt w l)).2 = vtimeouts c vt w l ∧
    ∀ o a', runOps (Spec.step c) a (callsFor c vt w l) = (o, .ok a') → a'.resv = a.resv := by
  intro l
  induction l with
  | nil =>
    intro w a _ _ _
    refine ⟨trivial, rfl, fun o a' h => ?_⟩
    simp only [callsFor, runOps, Prod.mk.injEq, Res.ok.injEq] at h
    rw [← h.2]
  | cons p l ih =>
    intro w a hR hreg hev
    obtain ⟨hlen, hcalls⟩ := calls_ok hf hk hR (hreg p (by simp)) p.2
    have hready : Ready c a p.2 := by
      rcases hev p (by simp) with h | h
      · exact ⟨h.2, .inl h.1⟩
      · exact h.2.1
    have hmul : k * (p :: l).length = k + k * l.length := by rw [List.length_cons, Nat.mul_add, Nat.mul_one, Nat.add_comm]
    have hroom : Room c a p.2 ((fifoCalls vt w p.1 p.2).length + k * l.length) := by
      rcases hev p (by simp) with h | h
      · exact .inl h.1
      · exact h.2.2.imp id fun h => by rw [hmul] at h; omega
    obtain ⟨g1, g2⟩ := forwards_legal (c := c) (e := p.2) (fifoCalls vt w p.1 p.2) a hready (hroom.imp id fun h => by omega) hcalls
    obtain ⟨s1, s2, s3⟩ := legalRun_sim wf _ w a hR g1
    simp only [callsFor, serve_eq, vtimeouts, vpost]
    rcases hx : runOps (step c) w (fifoCalls vt w p.1 p.2) with ⟨o1, w1 | _ | _⟩ <;>
      rcases hy : runOps (Spec.step c) a (fifoCalls vt w p.1 p.2) with ⟨o2, a1 | _ | _⟩ <;>
      rw [hx, hy] at s2 <;> simp only [FinRel] at s2
    · obtain ⟨q1, q2, q3, q4, q5⟩ := g2 o2 a1 hy
      simp only [Res.bind'_ok]
      obtain ⟨i1, i2, i3⟩ := ih w1 a1 s2 (fun q hq => q5 _ (hreg q (by simp [hq]))) (by
        intro q hq
        rcases hev q (by simp [hq]) with h | ⟨h0, h1, h2⟩
        · exact .inl h
        · right
          have hqp : q.2 = p.2 := (h0 p (by simp)).symm
          refine ⟨fun r hr => h0 r (by simp [hr]), by rw [hqp]; exact q1, by rw [hqp]; exact q2 _ hroom⟩)
      obtain ⟨k1, k2⟩ := runOps_append_ok (fifoCalls vt w p.1 p.2) (callsFor c vt w1 l) w w1 (f := step c) (by rw [hx])
      obtain ⟨k3, k4⟩ := runOps_append_ok (fifoCalls vt w p.1 p.2) (callsFor c vt w1 l) a a1 (f := Spec.step c) (by rw [hy])
      refine ⟨legalRun_append.mpr ⟨g1, fun o b hb => ?_⟩, by rw [k2, i2], fun o a' hrun => ?_⟩
      · rw [hy] at hb; cases hb; exact i1
      · rw [i3 (runOps (Spec.step c) a1 (callsFor c vt w1 l)).1 a' (Prod.ext rfl (by rw [← k4, hrun])), q3]
    · simp only [List.append_nil, hx]
      exact ⟨g1, rfl, fun o a' h => by rw [hy] at h; cases h⟩
    · exact absurd (by rw [hy]) s3

theorem foldRes_targets (wf : Wf c) {vt : Vtbls} {k e : Nat} (hf : Forwards vt k) (hk : 1 ≤ k) (s : Option Nat) : ∀ (l : List Nat) (w : World) (a : Abs), R c w a →
    (∀ p ∈ l, p < c.maxSma) → Ready c a e → Room c a e (k * l.length) →
    ((∀ p ∈ l, a.reg p ≠ none) → RdyGrp.foldRes (vpublishCb c vt e s) w l = vtimeouts c vt w ((targets a.reg s l).map (·, e))) ∧
    ((∃ p ∈ l, a.reg p = none) → RdyGrp.foldRes (vpublishCb c vt e s) w l = .assert) := by
  intro l
  induction l with
  | nil => intro w a _ _ _ _; exact ⟨fun _ => rfl, by simp⟩
  | cons p l ih =>
    intro w a hR hl hready hroom
    have hmul : k * (p :: l).length = k + k * l.length := by rw [List.length_cons, Nat.mul_add, Nat.mul_one, Nat.add_comm]
    rw [hmul] at hroom
    have htbl := hR.ao.tbl p (hl p (by simp))
    simp only [RdyGrp.foldRes, vpublishCb, htbl]
    cases hreg : a.reg p with
    | none => simp [wf.en, hreg]
    | some ao =>
      simp only [Option.isSome_some, assertIf_true, Res.bind'_ok]
      have hrest : ∀ q ∈ l, q < c.maxSma := fun q hq => hl q (by simp [hq])
      by_cases hs : some ao = s
      · simp only [hs, ne_eq, not_true_eq_false, if_false, Res.bind'_ok]
        obtain ⟨h1, h2⟩ := ih w a hR hrest hready (hroom.imp id fun h => by omega)
        refine ⟨fun hall => ?_, fun hex => ?_⟩
        · rw [h1 fun q hq => hall q (by simp [hq])]
          simp only [targets, List.filterMap_cons, hreg]
          rw [List.filter_cons_of_neg (by simp [hs])]
        · obtain ⟨q, hq, hqn⟩ := hex
          rcases List.mem_cons.mp hq with rfl | hq
          · rw [hreg] at hqn; cases hqn
          · exact h2 ⟨q, hq, hqn⟩
      · simp only [hs, ne_eq, not_false_eq_true, if_true]
        obtain ⟨_, y, hy, hyp⟩ := hR.ao.regOk p ao hreg
        have hregA : Registered a ao := ⟨y, hy, by rw [hyp]; exact hreg⟩
        obtain ⟨hlen, hcalls⟩ := calls_ok hf hk hR hregA e
        obtain ⟨g1, g2⟩ := forwards_legal (c := c) (e := e) (fifoCalls vt w ao e) a hready (hroom.imp id fun h => by omega) hcalls
        obtain ⟨s1, s2, s3⟩ := legalRun_sim wf _ w a hR g1
        have htg : (targets a.reg s (p :: l)).map (·, e) = (ao, e) :: (targets a.reg s l).map (·, e) := by
          simp [targets, hreg, hs]
        rw [htg]
        simp only [vtimeouts, vpost]
        rcases hx : runOps (step c) w (fifoCalls vt w ao e) with ⟨o1, w1 | _ | _⟩ <;>
          rcases hy : runOps (Spec.step c) a (fifoCalls vt w ao e) with ⟨o2, a1 | _ | _⟩ <;>
          rw [hx, hy] at s2 <;> simp only [FinRel] at s2
        · obtain ⟨q1, q2, q3, q4, q5⟩ := g2 o2 a1 hy
          simp only [Res.bind'_ok]
          obtain ⟨h1, h2⟩ := ih w1 a1 s2 hrest q1 (q2 _ (hroom.imp id fun h => by omega))
          rw [q4] at h1 h2
          refine ⟨fun hall => h1 fun q hq => hall q (by simp [hq]), fun hex => ?_⟩
          obtain ⟨q, hq, hqn⟩ := hex
          rcases List.mem_cons.mp hq with rfl | hq
          · rw [hreg] at hqn; cases hqn
          · exact h2 ⟨q, hq, hqn⟩
        · exact ⟨fun _ => rfl, fun _ => rfl⟩
        · exact absurd (by rw [hy]) s3

/-- A legal continuation that returns extends the history. -/
theorem Run.extend (h : Run c slots hdr ops outs w) {L : List Op} {o : List Out} {w' : World}
    (hr : runOps (Spec.step c) (Spec.init fun e => (hdr e).sig) ops = (outs, .ok a)) (hl : LegalRun c a L)
    (hrun : runOps (step c) w L = (o, .ok w')) : Run c slots hdr (ops ++ L) (outs ++ o) w' := by
  refine ⟨h.env, legalRun_append.mpr ⟨h.legal, fun o b hb => ?_⟩, ?_⟩
  · rw [hr] at hb; cases hb; exact hl
  · obtain ⟨k1, k2⟩ := runOps_append_ok ops L (initW c slots hdr) w (f := step c) (by rw [h.run])
    exact Prod.ext (by rw [k1, h.run, hrun]) (by rw [k2, hrun])

/-! ### C174 -/

/-- **C174 (publishing).** The subscribers' post functions are overridden by functions that forward the event to registered objects, at front or back, up
to `k` times, or discard it. A publication of a usable event with room for the references is then exactly these calls: reserve the event, what the
overriding functions of the registered subscribers call (in priority order, without the sender), collect the reservation. It never leads to
undefined behaviour, and if it returns, the framework is in a state reached by a history that respects the contract, so that every property of
such histories holds. A subscriber that is not registered any more is an assertion failure. -/
theorem overridden_publish (h : Run c slots hdr ops outs w) {vt : Vtbls} {k : Nat} (hf : Forwards vt k) (hk : 1 ≤ k) {ch e : Nat} (s : Option Nat)
    (hch : ch < c.maxChan) (hu : Allowed c hdr ops (.reserve e))
    (hroom : c.static e = true ∨ (refsAfter ops w).count e + 1 + k * (subs c ops ch).length ≤ 255) :
    ((∃ p ∈ subs c ops ch, Obs.registry ops [] (fun _ => none) p = none) → vpublish c vt w ch e s = .assert) ∧
    ((∀ p ∈ subs c ops ch, Obs.registry ops [] (fun _ => none) p ≠ none) →
      ∀ L, L = .reserve e :: (callsFor c vt (incRef w e) ((targets (Obs.registry ops [] (fun _ => none)) s (subs c ops ch)).map (·, e)) ++ [.gc e]) →
        (vpublish c vt w ch e s).map' Prod.fst = (runOps (step c) w L).2 ∧ vpublish c vt w ch e s ≠ .ub ∧
        ∀ w' n, vpublish c vt w ch e s = .ok (w', n) →
          n = (subs c ops ch).length ∧ Run c slots hdr (ops ++ L) (outs ++ (runOps (step c) w L).1) w') := by
  obtain ⟨a, hR, hr, hb, hleg, hsim⟩ := h.stepped hu
  have hreg : a.reg = Obs.registry ops [] (fun _ => none) := hb.reg
  have hsubs := subs_eq (c := c) hb ch
  have hrefs : (refsAfter ops w).count e = refs a e := by
    have : a.resv = Obs.reservations ops [] := hb.resv
    rw [refsAfter, ← this, references_eq hR]; rfl
  rw [hrefs] at hroom
  obtain ⟨hu1, hr1⟩ := hleg
  -- after the reservation
  have hR1 : R c (incRef w e) { a with resv := e :: a.resv, fresh := a.fresh.erase e } := by
    have := hsim.1
    simpa [Fwk.step, Spec.step, StepRel] using this
  generalize hb1 : ({ a with resv := e :: a.resv, fresh := a.fresh.erase e } : Abs) = b at hR1
  have hbreg : b.reg = a.reg := by rw [← hb1]
  have hbsub : b.sub = a.sub := by rw [← hb1]
  have hbrefs : refs b e = refs a e + 1 := by
    have : (holders b).Perm (e :: holders a) := by
      rw [← hb1]
      unfold holders
      simp only [List.append_assoc, List.cons_append]
      exact (List.Perm.append_left _ List.perm_middle).trans List.perm_middle
    unfold refs
    rw [this.count_eq, List.count_cons_self]
  have hready : Ready c b e := by
    refine ⟨hu1.1, ?_⟩
    by_cases hst : c.static e = true
    · exact .inl hst
    · right
      refine ⟨by omega, fun i hi => ?_⟩
      have hi' : Cont.put i e ∈ a.conts := by rw [← hb1] at hi; exact hi
      have hp := hR.ev.putsOk i e hi'
      rcases hu1.2 with h1 | h1 | h1
      · exact hst h1
      · have := (hR.ev.freshU e h1).2; omega
      · exact h1.2 i hi'
  have hroomb : Room c b e (k * (subs c ops ch).length) := hroom.imp id fun h => by rw [hbrefs]; omega
  have hlt : ∀ p ∈ subs c ops ch, p < c.maxSma := by intro p hp; simp [subs] at hp; exact hp.1
  obtain ⟨f1, f2⟩ := foldRes_targets h.env.wf hf hk s (subs c ops ch) _ b hR1 hlt hready hroomb
  rw [hbreg, hreg] at f1 f2
  -- the channel
  have hclt : ch < (incRef w e).chans.length := by rw [hR1.chLen]; exact hch
  have hg : (incRef w e).chans[ch]? = some (incRef w e).chans[ch] := List.getElem?_eq_getElem hclt
  generalize (incRef w e).chans[ch] = g at hg
  obtain ⟨hinv, hbit⟩ := hR1.ch ch g hg
  have hg' : w.chans[ch]? = some g := by rw [incRef_eq] at hg; exact hg
  have hmem : RdyGrp.rowBits 0 g.tbl = subs c ops ch := by
    rw [members_of_inv hinv, ← hsubs, subscribers]
    congr 1
    funext p
    rw [hbit p, hbsub]
  have hlen : (subs c ops ch).length < 256 := by
    have := List.length_filter_le (fun p => Obs.subscribed ch p ops [] false) (List.range c.maxSma)
    have := h.env.sma
    simp only [subs]
    simp at *
    omega
  have hv : vpublish c vt w ch e s = (RdyGrp.foldRes (vpublishCb c vt e s) (incRef w e) (subs c ops ch)).map'
      fun x => ({ x with conts := .gc1 e :: x.conts }, (subs c ops ch).length) := by
    simp only [vpublish, hg', RdyGrp.traverse_rows hinv, hmem, Nat.mod_eq_of_lt hlen]
    cases RdyGrp.foldRes (vpublishCb c vt e s) (incRef w e) (subs c ops ch) <;> rfl
  refine ⟨fun hex => by rw [hv, f2 hex]; rfl, fun hall L hL => ?_⟩
  rw [f1 hall] at hv
  generalize hT : (targets (Obs.registry ops [] (fun _ => none)) s (subs c ops ch)).map (·, e) = T at hv hL
  have hTlen : T.length ≤ (subs c ops ch).length := by
    rw [← hT, List.length_map, targets]
    exact Nat.le_trans (List.length_filter_le _ _) (List.length_filterMap_le _ _)
  have hTreg : ∀ p ∈ T, Registered b p.1 ∧ p.2 = e := by
    intro p hp
    rw [← hT] at hp
    simp only [targets, List.mem_map, List.mem_filter, List.mem_filterMap] at hp
    obtain ⟨x, ⟨⟨q, _, hq⟩, _⟩, rfl⟩ := hp
    rw [← hreg, ← hbreg] at hq
    obtain ⟨_, y, hy, hyp⟩ := hR1.ao.regOk q x hq
    exact ⟨⟨y, hy, by rw [hyp]; exact hq⟩, rfl⟩
  obtain ⟨l1, l2, l3⟩ := callsFor_legal h.env.wf hf hk T _ b hR1 (fun p hp => (hTreg p hp).1) (by
    intro p hp
    right
    refine ⟨fun q hq => by rw [(hTreg q hq).2, (hTreg p hp).2], by rw [(hTreg p hp).2]; exact hready, ?_⟩
    rw [(hTreg p hp).2]
    exact hroomb.imp id fun h => by have := Nat.mul_le_mul_left k hTlen; omega)
  -- the whole list of calls
  have hb0 : Spec.step c a (.reserve e) = .ok (b, .unit) := by rw [← hb1]; rfl
  have hlegL : LegalRun c a L := by
    rw [hL]
    refine ⟨⟨hu1, hr1⟩, fun a' o ho => ?_⟩
    rw [hb0] at ho; cases ho
    refine legalRun_append.mpr ⟨l1, fun o a' hrun => ⟨⟨hu1.1, ?_⟩, fun _ _ _ => trivial⟩⟩
    right
    rw [l3 o a' hrun, ← hb1]
    simp
  have hrunL : (runOps (step c) w L).2 = (vpublish c vt w ch e s).map' Prod.fst := by
    rw [hL, hv, ← l2]
    simp only [runOps, step]
    rcases hx : (runOps (step c) (incRef w e) (callsFor c vt (incRef w e) T)).2 with w2 | _ | _
    · rw [(runOps_append_ok _ [.gc e] _ _ hx).2]
      rfl
    · rw [runOps_snoc, hx]; rfl
    · rw [runOps_snoc, hx]; rfl
  refine ⟨hrunL.symm, ?_, fun w' n hw => ?_⟩
  · intro hub
    rw [hub] at hrunL
    obtain ⟨_, s2, s3⟩ := legalRun_sim h.env.wf L w a hR hlegL
    rw [hrunL] at s2
    revert s2 s3
    cases (runOps (Spec.step c) a L).2 <;> simp [FinRel, Res.map']
  · rw [hw] at hrunL
    refine ⟨?_, h.extend hr hlegL (Prod.ext rfl hrunL)⟩
    rw [hv] at hw
    cases hx : vtimeouts c vt (incRef w e) T with
    | ok x => rw [hx] at hw; simp only [Res.map', Res.ok.injEq, Prod.mk.injEq] at hw; exact hw.2.symm
    | assert => rw [hx] at hw; simp [Res.map'] at hw
    | ub => rw [hx] at hw; simp [Res.map'] at hw

/-- **C174 (time-outs).** The same for the time-outs of one tick: static events, posted to registered objects through functions that forward. -/
theorem overridden_timeouts (h : Run c slots hdr ops outs w) {vt : Vtbls} {k : Nat} (hf : Forwards vt k) (hk : 1 ≤ k) (l : List (Nat × Nat))
    (hreg : ∀ p ∈ l, RegisteredW w p.1) (hst : ∀ p ∈ l, c.static p.2 = true ∧ p.2 ≠ 0) :
    vtimeouts c vt w l = (runOps (step c) w (callsFor c vt w l)).2 ∧ vtimeouts c vt w l ≠ .ub ∧
    ∀ w', vtimeouts c vt w l = .ok w' → Run c slots hdr (ops ++ callsFor c vt w l) (outs ++ (runOps (step c) w (callsFor c vt w l)).1) w' := by
  obtain ⟨a, hR, hr, hb⟩ := h.full
  obtain ⟨l1, l2, _⟩ := callsFor_legal h.env.wf hf hk l w a hR (fun p hp => (registeredW_iff hR _).mp (hreg p hp)) (fun p hp => .inl (hst p hp))
  refine ⟨l2.symm, ?_, fun w' hw => h.extend hr l1 (Prod.ext rfl (by rw [l2, hw]))⟩
  intro hub
  obtain ⟨_, s2, s3⟩ := legalRun_sim h.env.wf _ w a hR l1
  rw [l2, hub] at s2
  revert s2 s3
  cases (runOps (Spec.step c) a (callsFor c vt w l)).2 <;> simp [FinRel]

/-! ### C175: recalling through an overriding function -/

/-- Exact effect of the end of a recall, the overriding function having called whatever it likes. -/
theorem recall_end (h : Run c slots hdr ops outs w) {k ao e : Nat} (hk : w.conts[k]? = some (.rc2 ao e)) :
    (c.static e = true → vrecallEnd c w k = .ok { w with conts := w.conts.eraseIdx k }) ∧
    (c.static e = false → (refsAfter ops w).count e = 1 → vrecallEnd c w k = .assert) ∧
    (c.static e = false → (refsAfter ops w).count e ≠ 1 → ∃ w', vrecallEnd c w k = .ok w' ∧ w'.aos = w.aos ∧ w'.dqs = w.dqs ∧ w'.slots = w.slots ∧
      w'.conts = w.conts.eraseIdx k ∧ (∀ x, x ≠ e → w'.hdr x = w.hdr x) ∧
      (w'.hdr e).nref = (refsAfter ops w').count e ∧ 0 < (refsAfter ops w').count e) := by
  have hmem : e ∈ refsAfter ops w := by
    simp only [refsAfter, Obs.references, List.mem_append, List.mem_map]
    exact .inr ⟨_, List.mem_of_getElem? hk, rfl⟩
  obtain ⟨_, hcase, _⟩ := no_use_after_recycle h hmem
  have hpos : 0 < (refsAfter ops w).count e := List.count_pos_iff.mpr hmem
  simp only [vrecallEnd, hk, recall3]
  refine ⟨fun hs => ?_, fun hs h1 => ?_, fun hs h1 => ?_⟩
  · obtain ⟨a, hR, hr, hb⟩ := h.full
    have h0 := hR.ev.hdrS e hs
    simp [h0]
  · rcases hcase with hh | ⟨i, hi, _⟩
    · rw [hs] at hh; cases hh
    have hn := (refcount_exact h hi).1
    simp [hn, h1, h.env.en]
  · rcases hcase with hh | ⟨i, hi, _⟩
    · rw [hs] at hh; cases hh
    have hn := (refcount_exact h hi).1
    have h2 : (w.hdr e).nref > 1 := by omega
    refine ⟨setHdr { w with conts := w.conts.eraseIdx k } e { w.hdr e with nref := (w.hdr e).nref - 1 }, ?_, rfl, rfl, rfl, rfl, ?_, ?_⟩
    · simp only [show (w.hdr e).nref ≠ 0 by omega, ne_eq, not_false_eq_true, if_true, h2, decide_true, assertIf_true, Res.bind'_ok]
    · intro x hx; simp [setHdr, hx]
    · have hcnt : ((w.conts.eraseIdx k).map Cont.evt).count e + 1 = (w.conts.map Cont.evt).count e := by
        rw [(eraseIdx_perm hk).count_eq]
        simp [Cont.evt]
      have : (refsAfter ops (setHdr { w with conts := w.conts.eraseIdx k } e { w.hdr e with nref := (w.hdr e).nref - 1 })).count e + 1 = (refsAfter ops w).count e := by
        simp only [refsAfter, Obs.references, setHdr, List.count_append]
        omega
      refine ⟨?_, by omega⟩
      have hh : ((setHdr { w with conts := w.conts.eraseIdx k } e { w.hdr e with nref := (w.hdr e).nref - 1 }).hdr e).nref = (w.hdr e).nref - 1 := by
        simp [setHdr]
      omega

/-- **C175 (negation).** An object overrides the LIFO function with one that discards events. Recalling a deferred dynamic event nobody else
references then ends in an assertion failure, whatever the state: the recall expects the event to be in a queue. -/
theorem recall_to_discarding_object_asserts (h : Run c slots hdr ops outs w) {k ao e : Nat} (hk : w.conts[k]? = some (.rc2 ao e))
    (hd : c.static e = false) (h1 : (refsAfter ops w).count e = 1) : vrecallEnd c w k = .assert := (recall_end h hk).2.1 hd h1

/-- **C175** (partial: the overriding function keeps the event somewhere, or the event is static). An overriding LIFO function that sends the recalled event, at
front or back, to any registered object with room in its queue: the recall completes, the reference counter is exact again. -/
theorem recall_through_override_partial (h : Run c slots hdr ops outs w) {k ao e i : Nat} (hk : w.conts[k]? = some (.rc2 ao e))
    {op : Op} (hop : op = .postFifo i e ∨ op = .postLifo i e) (hl : Allowed c hdr ops op) {w1 : World} {o : Out} (hs : step c w op = .ok (w1, o)) :
    ∃ w', vrecallEnd c w1 k = .ok w' ∧ w'.aos = w1.aos ∧ w'.conts = w.conts.eraseIdx k ∧
      (c.static e = false → (w'.hdr e).nref = (refsAfter (ops ++ [op]) w').count e ∧ 0 < (w'.hdr e).nref) := by
  have hn := h.next hl hs
  obtain ⟨a, hR, hr, hb, hleg, hsim⟩ := h.stepped hl
  have hrefs : (refsAfter ops w).count e = refs a e := by
    have : a.resv = Obs.reservations ops [] := hb.resv
    rw [refsAfter, ← this, references_eq hR]; rfl
  -- the post
  obtain ⟨front, hst⟩ : ∃ front, Spec.step c a op = (Spec.post front a i e).map' fun a => (a, .unit) := by
    rcases hop with rfl | rfl
    · exact ⟨false, rfl⟩
    · exact ⟨true, rfl⟩
  have h1 := hsim.1
  rw [hs, hst] at h1
  rcases hp : Spec.post front a i e with a1 | _ | _ <;> rw [hp] at h1 <;> simp only [Res.map', StepRel] at h1
  obtain ⟨hR1, _⟩ := h1
  obtain ⟨y, q, hy, ha1, hq, _⟩ := post_facts hp
  have ha1' : a1 = posted front a i y e := by rw [ha1, hq]; rfl
  have hconts : w1.conts = w.conts := by rw [hR1.conts, hR.conts, ha1']; rfl
  obtain ⟨a2, hR2, hr2, hb2⟩ := hn.full
  have ha2 : a2 = a1 := by
    obtain ⟨k1, k2⟩ := runOps_append_ok ops [op] _ a (f := Spec.step c) (by rw [hr])
    rw [hr2] at k2
    simp only [runOps, hst, hp, Res.map', Res.ok.injEq] at k2
    exact k2
  have hcnt : (refsAfter (ops ++ [op]) w1).count e = (refsAfter ops w).count e + 1 := by
    have : a2.resv = Obs.reservations (ops ++ [op]) [] := hb2.resv
    rw [refsAfter, ← this, references_eq hR2, ha2, ha1', hrefs]
    exact refs_posted hy
  have hpos : 0 < (refsAfter ops w).count e := by
    refine List.count_pos_iff.mpr ?_
    simp only [refsAfter, Obs.references, List.mem_append, List.mem_map]
    exact .inr ⟨_, List.mem_of_getElem? hk, rfl⟩
  have hk1 : w1.conts[k]? = some (.rc2 ao e) := by rw [hconts]; exact hk
  obtain ⟨r1, _, r3⟩ := recall_end hn hk1
  by_cases hst : c.static e = true
  · exact ⟨_, r1 hst, rfl, by simp [hconts], fun hf => by rw [hst] at hf; cases hf⟩
  · have hf : c.static e = false := by simpa using hst
    obtain ⟨w', g1, g2, _, _, g5, _, g7, g8⟩ := r3 hf (by omega)
    exact ⟨w', g1, g2, by rw [g5, hconts], fun _ => ⟨g7, by rw [g7]; exact g8⟩⟩

/-! ### C176: discarding -/

/-- **C176 (negation).** A function that overrides FIFO posting and discards the event by collecting it (RKH_FWK_GC, as documented for events that
are not needed any more) loses it: an event posted right after its allocation changes nothing at all, the block stays allocated though nothing
refers to it. -/
theorem discarded_post_leaks (h : Run c slots hdr ops outs w) {e ao : Nat} (he : e ∈ Obs.fresh (ops.zip outs) []) {vt : Vtbls}
    (hv : vt ao = some fun _ e => [.gc e, .resume 0]) :
    vpost c vt w ao e = .ok w ∧ (∃ i, Obs.Allocated c w i e) ∧ e ∉ refsAfter ops w := by
  obtain ⟨h1, h2⟩ := gc_of_fresh_leaks h he
  obtain ⟨a, hR, h3, h4, _⟩ := refsAfter_eq h
  refine ⟨by simpa [vpost, fifoCalls, hv] using h1, h2, ?_⟩
  rw [h3]
  exact List.count_eq_zero.mp (hR.ev.freshU e (by rw [h4]; exact he)).2

theorem callsFor_discard {vt : Vtbls} : ∀ (l : List (Nat × Nat)) (w : World), (∀ p ∈ l, ∃ f, vt p.1 = some f ∧ ∀ w, f w p.2 = []) → callsFor c vt w l = [] := by
  intro l
  induction l with
  | nil => intro w _; rfl
  | cons p l ih =>
    intro w hl
    obtain ⟨f, hf, hf'⟩ := hl p (by simp)
    have : fifoCalls vt w p.1 p.2 = [] := by simp [fifoCalls, hf, hf']
    simp only [callsFor, serve_eq, this, runOps, List.nil_append]
    exact ih w fun q hq => hl q (by simp [hq])

/-- **C176** (partial: the event is published). If all subscribers of a channel discard what they are sent, a new event published there is back in a
pool when the publication is complete. -/
theorem discarded_publication_returns_partial (h : Run c slots hdr ops outs w) {vt : Vtbls} {k : Nat} (hf : Forwards vt k) {ch e : Nat} (s : Option Nat)
    (he : e ∈ Obs.fresh (ops.zip outs) []) (hch : ch < c.maxChan) (hk : 1 ≤ k) (hroom : 1 + k * (subs c ops ch).length ≤ 255)
    (hreg : ∀ p ∈ subs c ops ch, ∃ ao f, Obs.registry ops [] (fun _ => none) p = some ao ∧ vt ao = some f ∧ ∀ w, f w e = []) :
    ∃ (w1 w' : World) (i : Nat) (p : MemPool.Pool), vpublish c vt w ch e s = .ok (w1, (subs c ops ch).length) ∧ w1.aos = w.aos ∧
      (runOps (step c) w1 [.resume 0, .resume 0, .resume 0]).2 = .ok w' ∧ (Obs.pools w')[i]? = some p ∧ e ∈ Obs.freeBlocks c p := by
  obtain ⟨⟨i0, hi0⟩, w', i, p, hrun, hp, hfr⟩ := reserve_then_collect_partial h he
  obtain ⟨a, hR, hr, hb⟩ := h.full
  have hfa : e ∈ a.fresh := by rw [hb.fresh]; exact he
  obtain ⟨⟨j, hj⟩, hc0⟩ := hR.ev.freshU e hfa
  have hne : e ≠ 0 := by
    obtain ⟨P, hP, hm⟩ := hj
    obtain ⟨p, n, _, _, hg, hinv⟩ := pool_get hR hP
    obtain ⟨j, _, rfl⟩ := MemPool.mem_blocks.mp (MemPool.mem_held hinv hm)
    have := hg.spos
    unfold MemPool.blkAddr
    omega
  have hcount : (refsAfter ops w).count e = 0 := by
    have : a.resv = Obs.reservations ops [] := hb.resv
    rw [refsAfter, ← this, references_eq hR]; exact hc0
  have hal : Allowed c hdr ops (.reserve e) := (allowed_iff h hr).mpr ⟨⟨hne, .inr (.inl hfa)⟩, .inr (by unfold Spec.refs; omega)⟩
  obtain ⟨_, hmain⟩ := overridden_publish h hf hk (ch := ch) s hch hal (.inr (by omega))
  obtain ⟨m1, m2, m3⟩ := hmain (by
    intro p hp
    obtain ⟨ao, f, h1, _⟩ := hreg p hp
    rw [h1]; simp) _ rfl
  have hcalls : callsFor c vt (incRef w e) ((targets (Obs.registry ops [] (fun _ => none)) s (subs c ops ch)).map (·, e)) = [] := by
    refine callsFor_discard _ _ ?_
    intro q hq
    simp only [targets, List.mem_map, List.mem_filter, List.mem_filterMap] at hq
    obtain ⟨x, ⟨⟨p, hp, hpx⟩, _⟩, rfl⟩ := hq
    obtain ⟨ao, f, h1, h2, h3⟩ := hreg p hp
    rw [h1] at hpx; cases hpx
    exact ⟨f, h2, h3⟩
  rw [hcalls] at m1
  simp only [List.nil_append, runOps, step, Nat.zero_add] at m1
  rcases hv : vpublish c vt w ch e s with ⟨w1, n⟩ | _ | _ <;> rw [hv] at m1 <;> simp only [Res.map', Res.ok.injEq, reduceCtorEq] at m1
  refine ⟨w1, w', i, p, ?_, ?_, ?_, hp, hfr⟩
  · rw [(m3 w1 n hv).1]
  · rw [m1, incRef_eq]
  · obtain ⟨_, k2⟩ := runOps_append_ok [.reserve e, .gc e] [.resume 0, .resume 0, .resume 0] w w1 (f := step c) (by simp [runOps, step, m1])
    rw [← k2]
    exact hrun

/-! ### The hypotheses are met -/

end Verif.Fwk

namespace Verif.Fwk.VDemo
open Verif Verif.Fwk Verif.Fwk.Spec Verif.Fwk.Demo

/-- Object 0 is overridden: it passes events on to the front of object 1's queue. -/
def relay : Vtbls := fun ao => if ao = 0 then some fun w e =>
    match w.aos[1]? with
    | some x => if w.sptbl[x.prio]? = some (some 1) then [.postLifo 1 e] else []
    | none => []
  else none

/-- Both objects throw events away. -/
def drop : Vtbls := fun _ => some fun _ _ => []

theorem forwards_relay : Forwards relay 1 := by
  intro ao f hf w e
  simp only [relay] at hf
  split at hf
  · cases hf
    show (match (w.aos[1]? : Option Ao) with
      | some x => if w.sptbl[x.prio]? = some (some 1) then [Op.postLifo 1 e] else []
      | none => []).length ≤ 1 ∧ ∀ op ∈ (match (w.aos[1]? : Option Ao) with
      | some x => if w.sptbl[x.prio]? = some (some 1) then [Op.postLifo 1 e] else []
      | none => []), _
    cases hx : w.aos[1]? with
    | none => simp
    | some x =>
      by_cases hp : w.sptbl[x.prio]? = some (some 1)
      · simp only [hp, if_true, List.length_singleton, Nat.le_refl, List.mem_singleton, forall_eq, true_and]
        exact ⟨1, .inr rfl, x, hx, hp⟩
      · simp [hp]
  · cases hf

theorem forwards_drop : Forwards drop 1 := by
  intro ao f hf w e
  simp only [drop] at hf
  cases hf
  simp

/-- The state of the code after a history. -/
def st (ops : List Op) : World :=
  match (runOps (Fwk.step cfg) (initW cfg slots hdr) ops).2 with
  | .ok w => w
  | _ => initW cfg slots hdr

theorem mk' {ops : List Op} (h : (res ops).isSome = true) : Run cfg slots hdr ops (outs ops) (st ops) := by
  obtain ⟨w, h1, _⟩ := mk h
  have : st ops = w := by simp [st, h1.run]
  rw [this]; exact h1

/-- What a post operation does: at the front?, target, event. -/
def call : Op → Option (Bool × Nat × Nat)
  | .postFifo i e => some (false, i, e)
  | .postLifo i e => some (true, i, e)
  | _ => none

/-- The contents of the queues of the objects and the reference counter of `e`. -/
def queues (r : Res World) (e : Nat) : Option (List (List Nat) × Nat) :=
  match r with
  | .ok w => some (w.aos.map fun x => Obs.contents x.q, (w.hdr e).nref)
  | _ => none

/-- A new event. -/
def base : List Op := setup ++ [.alloc 3 4]

/-- C174: the publication on channel 0 is posted to object 1 directly and, through object 0, once more; nothing goes into object 0's queue. -/
example : Run cfg slots hdr base (outs base) (st base) ∧ Forwards relay 1 ∧ Allowed cfg hdr base (.reserve 1000) ∧
    subs cfg base 0 = [1, 3] ∧ (∀ p ∈ subs cfg base 0, Obs.registry base [] (fun _ => none) p ≠ none) ∧
    (refsAfter base (st base)).count 1000 + 1 + 1 * (subs cfg base 0).length ≤ 255 ∧
    (callsFor cfg relay (incRef (st base) 1000) ((targets (Obs.registry base [] (fun _ => none)) none (subs cfg base 0)).map (·, 1000))).map call =
      [some (false, 1, 1000), some (true, 1, 1000)] ∧
    queues ((vpublish cfg relay (st base) 0 1000 none).map' Prod.fst) 1000 = some ([[], [1000, 1000]], 3) :=
  ⟨mk' (by decide +kernel), forwards_relay, allowed (by decide +kernel), by decide +kernel, by decide +kernel, by decide +kernel, by decide +kernel, by decide +kernel⟩

/-- C174: two timers of object 0 and one of object 1 expire in one tick. -/
example : Run cfg slots hdr base (outs base) (st base) ∧ Forwards relay 1 ∧
    (∀ p ∈ [(0, 900), (1, 901), (0, 901)], RegisteredW (st base) p.1) ∧
    queues (vtimeouts cfg relay (st base) [(0, 900), (1, 901), (0, 901)]) 900 = some ([[], [901, 900, 901]], 0) := by
  refine ⟨mk' (by decide +kernel), forwards_relay, ?_, by decide +kernel⟩
  obtain ⟨w, h1, hR⟩ := mk (ops := base) (by decide +kernel)
  have : st base = w := by simp [st, h1.run]
  rw [this]
  intro p hp
  refine (registeredW_iff hR _).mpr (regB_iff ?_)
  revert p hp
  decide +kernel

/-- C175: an event held by the deferred queue alone is being recalled for object 1 and thrown away there. -/
example : ∃ w, Run cfg slots hdr (setup ++ [.alloc 10 5, .defer 0 1000, .recall 1 0]) (outs (setup ++ [.alloc 10 5, .defer 0 1000, .recall 1 0])) w ∧
    w.conts[0]? = some (.rc2 1 1000) ∧ cfg.static 1000 = false ∧ vrecallEnd cfg w 0 = .assert := by
  obtain ⟨w, h, hR⟩ := mk (ops := setup ++ [.alloc 10 5, .defer 0 1000, .recall 1 0]) (by decide +kernel)
  have hk : w.conts[0]? = some (.rc2 1 1000) := by rw [hR.conts]; decide +kernel
  refine ⟨w, h, hk, rfl, recall_to_discarding_object_asserts h hk rfl ?_⟩
  obtain ⟨a, hR', hr, hb⟩ := h.full
  have e : w = st (setup ++ [.alloc 10 5, .defer 0 1000, .recall 1 0]) := by simp [st, h.run]
  rw [e]
  decide +kernel

/-- C175 (partial): the same event is passed on to the queue of object 0. -/
example : ∃ w w', Run cfg slots hdr (setup ++ [.alloc 10 5, .defer 0 1000, .recall 1 0]) (outs (setup ++ [.alloc 10 5, .defer 0 1000, .recall 1 0])) w ∧
    w.conts[0]? = some (.rc2 1 1000) ∧ Allowed cfg hdr (setup ++ [.alloc 10 5, .defer 0 1000, .recall 1 0]) (.postFifo 0 1000) ∧
    Fwk.step cfg w (.postFifo 0 1000) = .ok (w', .unit) := by
  obtain ⟨w, h, hR⟩ := mk (ops := setup ++ [.alloc 10 5, .defer 0 1000, .recall 1 0]) (by decide +kernel)
  have hk : w.conts[0]? = some (.rc2 1 1000) := by rw [hR.conts]; decide +kernel
  obtain ⟨w', h', _⟩ := mk (ops := (setup ++ [.alloc 10 5, .defer 0 1000, .recall 1 0]) ++ [.postFifo 0 1000]) (by decide +kernel)
  refine ⟨w, w', h, hk, allowed (by decide +kernel), ?_⟩
  obtain ⟨_, k2⟩ := runOps_append_ok (setup ++ [.alloc 10 5, .defer 0 1000, .recall 1 0]) [.postFifo 0 1000] _ w (f := Fwk.step cfg) (by rw [h.run])
  rw [h'.run] at k2
  simp only [runOps, Fwk.step] at k2 ⊢
  cases hp : postFifo cfg w 0 1000 <;> rw [hp] at k2 <;> simp_all [Res.map']

/-- C176: a new event, discarded by everybody it is sent to. -/
example : Run cfg slots hdr base (outs base) (st base) ∧ 1000 ∈ Obs.fresh (base.zip (outs base)) [] ∧ Forwards drop 1 ∧
    1 + 1 * (subs cfg base 0).length ≤ 255 ∧
    (∀ p ∈ subs cfg base 0, ∃ ao f, Obs.registry base [] (fun _ => none) p = some ao ∧ drop ao = some f ∧ ∀ w, f w 1000 = []) := by
  refine ⟨mk' (by decide +kernel), by decide +kernel, forwards_drop, by decide +kernel, ?_⟩
  intro p hp
  have hs : subs cfg base 0 = [1, 3] := by decide +kernel
  rw [hs] at hp
  simp only [List.mem_cons, List.not_mem_nil, or_false] at hp
  rcases hp with rfl | rfl
  · exact ⟨1, _, by decide +kernel, rfl, fun _ => rfl⟩
  · exact ⟨0, _, by decide +kernel, rfl, fun _ => rfl⟩

end Verif.Fwk.VDemo
