import Verif.Fwk.Props
/-
Properties C24-C27 and C55: defer/recall, publish/subscribe, order of processing.
-/
namespace Verif.Fwk
open Verif

variable {c : Cfg} {slots : List MemPool.Pool} {hdr : Nat → Evt} {ops : List Op} {outs : List Out} {w : World}

/-- After the history `ops` the contract allows the call `op`. -/
def Allowed (c : Cfg) (hdr : Nat → Evt) (ops : List Op) (op : Op) : Prop :=
  Spec.LegalRun c (Spec.init fun e => (hdr e).sig) (ops ++ [op])

theorem legalRun_append {a : Spec.Abs} {xs ys : List Op} :
    Spec.LegalRun c a (xs ++ ys) ↔ Spec.LegalRun c a xs ∧ ∀ o a', runOps (Spec.step c) a xs = (o, .ok a') → Spec.LegalRun c a' ys := by
  induction xs generalizing a with
  | nil =>
    simp only [List.nil_append, Spec.LegalRun, true_and, runOps, Prod.mk.injEq, Res.ok.injEq]
    constructor
    · rintro h o a' ⟨_, rfl⟩; exact h
    · intro h; exact h [] a ⟨rfl, rfl⟩
  | cons op xs ih =>
    simp only [List.cons_append, Spec.LegalRun, and_assoc]
    refine and_congr_right fun _ => ?_
    rcases hs : Spec.step c a op with ⟨a1, o1⟩ | _ | _
    · simp only [Res.ok.injEq, Prod.mk.injEq, and_imp]
      constructor
      · intro h
        have := ih.mp (h a1 o1 rfl rfl)
        refine ⟨fun a' o h1 h2 => by subst h1; exact this.1, fun o a' hr => this.2 (runOps (Spec.step c) a1 xs).1 a' ?_⟩
        simp only [runOps, hs, Prod.mk.injEq] at hr
        rw [← hr.2]
      · rintro ⟨h1, h2⟩ a' o rfl rfl
        refine ih.mpr ⟨h1 a1 o1 rfl rfl, fun o' a'' hr => h2 (o1 :: o') a'' ?_⟩
        simp [runOps, hs, hr]
    · simp [runOps, hs]
    · simp [runOps, hs]

theorem allowed_iff {a : Spec.Abs} (h : Run c slots hdr ops outs w)
    (hr : runOps (Spec.step c) (Spec.init fun e => (hdr e).sig) ops = (outs, .ok a)) {op : Op} :
    Allowed c hdr ops op ↔ Spec.Legal c a op := by
  unfold Allowed
  rw [legalRun_append]
  constructor
  · rintro ⟨_, h2⟩; exact (h2 _ _ hr).1
  · intro hl
    refine ⟨h.legal, fun o a' hr' => ?_⟩
    rw [hr] at hr'
    simp only [Prod.mk.injEq, Res.ok.injEq] at hr'
    obtain ⟨_, rfl⟩ := hr'
    exact ⟨hl, fun _ _ _ => trivial⟩

/-- An allowed call that returns extends the history. -/
theorem Run.next (h : Run c slots hdr ops outs w) {op : Op} {o : Out} {w' : World} (hl : Allowed c hdr ops op)
    (hs : step c w op = .ok (w', o)) : Run c slots hdr (ops ++ [op]) (outs ++ [o]) w' := by
  refine ⟨h.env, hl, ?_⟩
  have hr := h.run
  obtain ⟨h1, h2⟩ := runOps_append_ok ops [op] (initW c slots hdr) w (f := step c) (by rw [hr])
  apply Prod.ext
  · rw [h1, hr]; simp [runOps, hs]
  · rw [h2]; simp [runOps, hs]

/-- Everything known about one allowed call. -/
theorem Run.stepped (h : Run c slots hdr ops outs w) {op : Op} (hl : Allowed c hdr ops op) :
    ∃ a, R c w a ∧ runOps (Spec.step c) (Spec.init fun e => (hdr e).sig) ops = (outs, .ok a) ∧
      BooksRun ops outs (Spec.init fun e => (hdr e).sig) a ∧ Spec.Legal c a op ∧ Sim c w a op := by
  obtain ⟨a, hR, hr, hb⟩ := h.full
  have := (allowed_iff h hr).mp hl
  exact ⟨a, hR, hr, hb, this, sim_step h.env.wf hR op this⟩

/-- **C62.** A call that respects the contract never leads to undefined behaviour. -/
theorem allowed_never_ub (h : Run c slots hdr ops outs w) {op : Op} (hl : Allowed c hdr ops op) : step c w op ≠ .ub := by
  obtain ⟨a, _, _, _, _, h1, h2⟩ := h.stepped hl
  intro hu
  rw [hu] at h1
  revert h1 h2
  cases Spec.step c a op <;> simp [StepRel]

/-! ### C24: defer and recall -/

/-- **C24 (defer).** Deferring appends the event to the deferred queue and counts one more reference; a full deferred queue is an
assertion failure. Nothing else is touched. -/
theorem defer_appends (h : Run c slots hdr ops outs w) {i e : Nat} {d : Queue.Queue} (hl : Allowed c hdr ops (.defer i e))
    (hd : w.dqs[i]? = some d) :
    (d.qty = d.nelems → step c w (.defer i e) = .assert) ∧
    (d.qty ≠ d.nelems → ∃ w' d', step c w (.defer i e) = .ok (w', .unit) ∧ w'.dqs = w.dqs.set i d' ∧
      Obs.contents d' = Obs.contents d ++ [e] ∧ w'.aos = w.aos ∧ w'.rdy = w.rdy ∧ w'.slots = w.slots ∧ w'.conts = w.conts ∧
      (refsAfter (ops ++ [.defer i e]) w').count e = (refsAfter ops w).count e + 1) := by
  obtain ⟨a, hR, hr, hb, hleg, _⟩ := h.stepped hl
  obtain ⟨hi, ⟨he0, hu⟩, hroom⟩ := hleg
  have hrel := hR.dq.2 i d a.dqs[i] hd (List.getElem?_eq_getElem hi)
  generalize hy : a.dqs[i] = y at hrel
  have hyg : a.dqs[i]? = some y := by rw [List.getElem?_eq_getElem hi, hy]
  obtain ⟨h1, h2⟩ := qput_rel (front := false) h.env.en he0 hrel
  have hq := hrel.num
  have hcap : d.nelems = y.cap := by obtain ⟨qa, h3, _⟩ := hrel; exact h3.nel
  have hq' : d.qty = y.items.length := hq
  constructor
  · intro hf
    have := h1 (by omega)
    simp only [qputC, Bool.false_eq_true, if_false] at this
    simp [step, defer, incRef_eq, hd, this, Res.map']
  · intro hf
    obtain ⟨q', hput, hrep⟩ := h2 (by omega)
    simp only [qputC, Bool.false_eq_true, if_false] at hput
    refine ⟨{ w with hdr := incHdr w.hdr e, dqs := w.dqs.set i q' }, q', ?_, rfl, ?_, rfl, rfl, rfl, rfl, ?_⟩
    · simp [step, defer, incRef_eq, hd, hput, Res.map']
    · rw [contents_eq hrep, contents_eq hrel]; simp
    · unfold refsAfter Obs.references
      rw [reservations_append]
      have : Obs.reservations [.defer i e] (Obs.reservations ops []) = Obs.reservations ops [] := rfl
      rw [this]
      have hp : ((w.dqs.set i q').flatMap Obs.contents).Perm (e :: w.dqs.flatMap Obs.contents) := by
        apply flatMap_set_add Obs.contents hd
        rw [contents_eq hrep, contents_eq hrel]
        simpa using (List.perm_append_singleton e y.items)
      simp only [List.count_append, hp.count_eq, List.count_cons_self]
      omega

/-- **C24 (recall of an empty deferred queue).** Returns NULL and changes neither queues nor references. -/
theorem recall_empty (h : Run c slots hdr ops outs w) {ao i : Nat} {d : Queue.Queue} (hd : w.dqs[i]? = some d)
    (he : Obs.contents d = []) : ∃ w' d', step c w (.recall ao i) = .ok (w', .evt 0) ∧ w'.aos = w.aos ∧ w'.hdr = w.hdr ∧
      w'.slots = w.slots ∧ w'.conts = w.conts ∧ w'.dqs = w.dqs.set i d' ∧ Obs.contents d' = [] := by
  obtain ⟨a, hR, _⟩ := h.full
  have hi : i < a.dqs.length := by rw [← hR.dq.1]; exact (List.getElem?_eq_some_iff.mp hd).1
  have hrel := hR.dq.2 i d a.dqs[i] hd (List.getElem?_eq_getElem hi)
  rw [contents_eq hrel] at he
  obtain ⟨q', hget, hrep⟩ := qget_nil hrel he
  refine ⟨{ w with dqs := w.dqs.set i q' }, q', ?_, rfl, rfl, rfl, rfl, rfl, ?_⟩
  · simp [step, recall1, hd, hget, Res.map']
  · rw [contents_eq hrep, he]

/-- **C24 (recall).** Recalling from a non-empty deferred queue moves its oldest event to the front of the object's
queue and returns it; every event header (reference counters included) is as before, no block changes hands, and
the object is ready. (The receiving queue must have room.) The three steps are the three critical sections of the function. -/
theorem recall_moves (h : Run c slots hdr ops outs w) {ao i e : Nat} {rest : List Nat} {d : Queue.Queue} {x : Ao}
    (hl : Allowed c hdr ops (.recall ao i)) (hd : w.dqs[i]? = some d) (hx : w.aos[ao]? = some x)
    (he : Obs.contents d = e :: rest) (hroom : x.q.qty ≠ x.q.nelems) (hc : c.static e = true ∨ (refsAfter ops w).count e < 255) :
    ∃ w' x' d', runOps (step c) w [.recall ao i, .resume 0, .resume 0] = ([.evt e, .unit, .unit], .ok w') ∧
      w'.aos = w.aos.set ao x' ∧ Obs.contents x'.q = e :: Obs.contents x.q ∧
      w'.dqs = w.dqs.set i d' ∧ Obs.contents d' = rest ∧
      w'.hdr = w.hdr ∧ w'.slots = w.slots ∧ w'.conts = w.conts ∧ RdyGrp.bit w'.rdy x.prio = true ∧
      (refsAfter (ops ++ [.recall ao i, .resume 0, .resume 0]) w').Perm (refsAfter ops w) := by
  obtain ⟨a, hR, hr, hb, hleg, _⟩ := h.stepped hl
  obtain ⟨⟨y, hy, hreg⟩, hi⟩ := hleg
  obtain ⟨a2, hR2, h1, _, _⟩ := refsAfter_eq h
  have hrs : refsAfter ops w = Spec.holders a := by
    have : a.resv = Obs.reservations ops [] := hb.resv
    rw [refsAfter, ← this, references_eq hR]
  have hrel := hR.dq.2 i d a.dqs[i] hd (List.getElem?_eq_getElem hi)
  have hyi : a.dqs[i]? = some a.dqs[i] := List.getElem?_eq_getElem hi
  generalize a.dqs[i] = z at hrel hyi
  have hz : z.items = e :: rest := by rw [← contents_eq hrel, he]
  have hin : e ∈ Spec.holders a := by
    unfold Spec.holders
    simp only [List.mem_append, List.mem_flatMap]
    exact .inl (.inl (.inl (.inr ⟨z, List.mem_of_getElem? hyi, by rw [hz]; simp⟩)))
  obtain ⟨he0, hkind⟩ := hR.ev.hold e hin
  obtain ⟨q', hget, hrep⟩ := qget_cons h.env.en hrel hz
  obtain ⟨x0, hx0, hpr, _, hput⟩ := hR.ao.put h.env.sma h.env.en hy hreg he0 true
  rw [hx] at hx0; cases hx0
  have hxy := (hR.ao.aos.2 ao x y hx hy).2
  have hcap : x.q.nelems = y.q.cap := by obtain ⟨qa, h3, _⟩ := hxy; exact h3.nel
  have hqty : x.q.qty = y.q.items.length := hxy.num
  obtain ⟨q2, s, g, hput, hsync, hrel2⟩ := hput (by omega)
  have hlt : ao < a.aos.length := (List.getElem?_eq_some_iff.mp hy).1
  have hltw : ao < w.aos.length := (List.getElem?_eq_some_iff.mp hx).1
  have hnew := hrel2.aos.2 ao _ _ (List.getElem?_set_self hltw) (List.getElem?_set_self hlt)
  have hc2 : Obs.contents q2 = e :: Obs.contents x.q := by
    have := contents_eq hnew.2
    rw [this, contents_eq hxy]; simp
  have hc3 : Obs.contents q' = rest := by rw [contents_eq hrep]
  simp only [qputC, if_true] at hput
  -- the header after the increment and the decrement
  have hdrOk : recall3 c { w with hdr := incHdr w.hdr e, aos := w.aos.set ao { x with q := q2 }, rdy := g, dqs := w.dqs.set i q' } e =
      .ok { w with aos := w.aos.set ao { x with q := q2 }, rdy := g, dqs := w.dqs.set i q' } := by
    rcases hkind with hs | ⟨k, hk⟩
    · have hh := hR.ev.hdrS e hs
      simp [recall3, incHdr, hh]
    · have hh := hR.ev.hdrU k e hk
      have hpos : 0 < (Spec.holders a).count e := List.count_pos_iff.mpr hin
      have hns : c.static e = false := hR.ev.nostat k e (.inl hk)
      have hlt : (Spec.holders a).count e < 255 := by
        rw [← hrs]; exact hc.resolve_left (by simp [hns])
      have hn : ((Spec.holders a).count e + 1) % 256 = (Spec.holders a).count e + 1 := Nat.mod_eq_of_lt (by omega)
      simp only [recall3, incHdr, hh, ne_eq, Nat.add_eq_zero_iff, Nat.one_ne_zero, and_false, not_false_iff, if_true, hn, setHdr]
      have : decide ((Spec.holders a).count e + 1 > 1) = true := by simpa using hin
      simp only [this, assertIf_true, Res.bind'_ok, Res.ok.injEq, Nat.add_sub_cancel]
      congr 1
      funext t
      by_cases ht : t = e
      · subst ht; simp [hh]
      · simp [ht]
  refine ⟨{ w with aos := w.aos.set ao { x with q := q2 }, rdy := g, dqs := w.dqs.set i q' }, { x with q := q2 }, q', ?_, rfl, hc2,
    rfl, hc3, rfl, rfl, rfl, ?_, ?_⟩
  · have s1 : step c w (.recall ao i) = .ok ({ w with dqs := w.dqs.set i q', conts := .rc2 ao e :: w.conts }, .evt e) := by
      simp [step, recall1, hd, hget, Res.map', he0]
    have s2 : step c { w with dqs := w.dqs.set i q', conts := .rc2 ao e :: w.conts } (.resume 0) =
        .ok ({ w with hdr := incHdr w.hdr e, aos := w.aos.set ao { x with q := q2 }, rdy := g, dqs := w.dqs.set i q', conts := .rc3 ao e :: w.conts }, .unit) := by
      simp only [step, List.getElem?_cons_zero, List.eraseIdx_cons_zero, resumeCont, postLifo, incRef_eq, hx, hput, hsync,
        Res.bind'_ok, Res.map']
    simp only [runOps, s1, s2]
    simp only [step, List.getElem?_cons_zero, List.eraseIdx_cons_zero, resumeCont, hdrOk, Res.map']
  · rw [hrel2.rdyBit]
    exact ⟨ao, _, by rw [hpr]; exact hreg, List.getElem?_set_self hlt, by simp⟩
  · unfold refsAfter
    rw [reservations_append]
    have : Obs.reservations [.recall ao i, .resume 0, .resume 0] (Obs.reservations ops []) = Obs.reservations ops [] := rfl
    rw [this]
    unfold Obs.references
    simp only
    have p1 : ((w.aos.set ao { x with q := q2 }).flatMap fun x => Obs.contents x.q).Perm (e :: w.aos.flatMap fun x => Obs.contents x.q) :=
      flatMap_set_add (fun x => Obs.contents x.q) hx (by simp only [hc2]; exact List.Perm.refl _)
    have p2 : (w.dqs.flatMap Obs.contents).Perm (e :: (w.dqs.set i q').flatMap Obs.contents) :=
      flatMap_set_sub Obs.contents hd (by rw [he, hc3])
    refine List.Perm.append_right _ (List.Perm.append_right _ (List.Perm.append_right _ ?_))
    refine (p1.append_right _).trans ?_
    refine List.Perm.trans ?_ (p2.symm.append_left _)
    exact List.perm_middle.symm

/-- **C24 (history).** After any history the events deferred into a queue, in order, are those recalled from it, in order,
followed by those still there: nothing is lost, duplicated or reordered. -/
theorem deferred_fifo (h : Run c slots hdr ops outs w) {i : Nat} {d : Queue.Queue} (hd : w.dqs[i]? = some d) :
    Obs.deferredTo i ops = Obs.recalledFrom i (ops.zip outs) ++ Obs.contents d := by
  obtain ⟨a, hR, hr, hb⟩ := h.full
  have := defer_run h.env.wf i ops _ _ _ _ (R_init h.env) h.legal hr
  have h0 : dItems (Spec.init fun e => (hdr e).sig) i = [] := rfl
  rw [h0, List.nil_append] at this
  rw [this]
  have hi : i < a.dqs.length := by rw [← hR.dq.1]; exact (List.getElem?_eq_some_iff.mp hd).1
  have hrel := hR.dq.2 i d a.dqs[i] hd (List.getElem?_eq_getElem hi)
  rw [contents_eq hrel]
  simp [dItems, List.getElem?_eq_getElem hi]

/-! ### C25-C27: publish/subscribe -/

/-- **C26.** Priority `p` is subscribed to channel `ch` exactly as the last call concerning both says: subscribed by
`subscribe`, not subscribed after `unsubscribe`, `unsubscribeAll` or when no call concerned it. -/
theorem subscription_is_last_call (h : Run c slots hdr ops outs w) {ch : Nat} {g : RdyGrp.Grp} (hg : w.chans[ch]? = some g) (p : Nat) :
    RdyGrp.bit g p = Obs.subscribed ch p ops [] false := by
  obtain ⟨a, hR, hr, hb⟩ := h.full
  rw [(hR.ch ch g hg).2 p, hb.sub ch p]
  rfl

/-- The priorities subscribed to a channel according to the history. -/
def subs (c : Cfg) (ops : List Op) (ch : Nat) : List Nat :=
  (List.range c.maxSma).filter fun p => Obs.subscribed ch p ops [] false

theorem subs_eq {a : Spec.Abs} (hb : BooksRun ops outs (Spec.init fun e => (hdr e).sig) a) (ch : Nat) :
    Spec.subscribers c.maxSma a ch = subs c ops ch := by
  unfold Spec.subscribers subs
  congr 1
  funext p
  rw [hb.sub ch p]
  rfl

theorem publish_spec (h : Run c slots hdr ops outs w) {ch e : Nat} {s : Option Nat} (hl : Allowed c hdr ops (.publish ch e s)) :
    ∃ a, R c w a ∧ BooksRun ops outs (Spec.init fun e => (hdr e).sig) a ∧ Spec.Legal c a (.publish ch e s) ∧
      ((∀ p ∈ subs c ops ch, CanTake a s p) → ∃ w', step c w (.publish ch e s) = .ok (w', .num (subs c ops ch).length) ∧
        R c w' { a with conts := .gc1 e :: a.conts, fresh := a.fresh.erase e, aos := delivered e s a.reg (subs c ops ch) a.aos }) ∧
      ((¬ ∀ p ∈ subs c ops ch, CanTake a s p) → step c w (.publish ch e s) = .assert) := by
  obtain ⟨a, hR, hr, hb, hleg, h1, _⟩ := h.stepped hl
  refine ⟨a, hR, hb, hleg, ?_⟩
  have hfr : (a.fresh.erase e).erase e = a.fresh.erase e := by
    apply List.erase_of_not_mem; exact hR.ev.freshND.not_mem_erase
  obtain ⟨k1, k2⟩ := deliver_fold (e := e) (s := s) (Spec.subscribers c.maxSma a ch)
    { a with conts := .gc1 e :: a.conts, fresh := a.fresh.erase e }
    (fun p i hi => (hR.ao.regOk p i hi).2) (List.nodup_range.filter _) hfr
  rw [subs_eq hb] at k1 k2
  simp only [Spec.step, subs_eq hb] at h1
  constructor
  · intro hct
    rw [k1 hct] at h1
    rcases hst : step c w (.publish ch e s) with ⟨w', o⟩ | _ | _ <;> rw [hst] at h1 <;> simp only [Res.map', StepRel] at h1
    exact ⟨w', by rw [h1.2], h1.1⟩
  · intro hct
    rw [k2 hct] at h1
    rcases hst : step c w (.publish ch e s) with ⟨w', o⟩ | _ | _ <;> rw [hst] at h1 <;> simp only [Res.map', StepRel] at h1

/-- The object registered at priority `p` exists and is the sender or has room in its queue. -/
def CanReceive (w : World) (ops : List Op) (s : Option Nat) (p : Nat) : Prop :=
  ∃ i x, Obs.registry ops [] (fun _ => none) p = some i ∧ w.aos[i]? = some x ∧ (some i = s ∨ x.q.qty ≠ x.q.nelems)

theorem canReceive_iff {a : Spec.Abs} (hR : R c w a) (hb : BooksRun ops outs (Spec.init fun e => (hdr e).sig) a) (s : Option Nat) (p : Nat) :
    CanTake a s p ↔ CanReceive w ops s p := by
  have hreg : a.reg = Obs.registry ops [] (fun _ => none) := hb.reg
  unfold CanTake CanReceive
  rw [hreg]
  constructor
  · rintro ⟨i, y, h1, h2, h3⟩
    obtain ⟨x, hx, _, hq⟩ := hR.ao.aos.get h2
    refine ⟨i, x, h1, hx, h3.imp id ?_⟩
    intro h4
    obtain ⟨qa, h5, h6⟩ := hq
    rw [h5.nel, h5.qty, h6]; exact h4
  · rintro ⟨i, x, h1, h2, h3⟩
    have hlt : i < a.aos.length := by rw [← hR.ao.aos.1]; exact (List.getElem?_eq_some_iff.mp h2).1
    have hq := (hR.ao.aos.2 i x _ h2 (List.getElem?_eq_getElem hlt)).2
    refine ⟨i, _, h1, List.getElem?_eq_getElem hlt, h3.imp id ?_⟩
    intro h4
    obtain ⟨qa, h5, h6⟩ := hq
    rw [h5.nel, h5.qty, h6] at h4; exact h4

/-- **C25 (outcome).** A publish succeeds exactly when every subscribed priority has a registered object that is the sender
or has room, and then reports the number of subscribers; otherwise it stops with an assertion. -/
theorem publish_ok_iff (h : Run c slots hdr ops outs w) {ch e : Nat} {s : Option Nat} (hl : Allowed c hdr ops (.publish ch e s)) :
    ((∀ p ∈ subs c ops ch, CanReceive w ops s p) → ∃ w', step c w (.publish ch e s) = .ok (w', .num (subs c ops ch).length)) ∧
    ((¬ ∀ p ∈ subs c ops ch, CanReceive w ops s p) → step c w (.publish ch e s) = .assert) := by
  obtain ⟨a, hR, hb, _, h1, h2⟩ := publish_spec h hl
  simp only [canReceive_iff hR hb] at h1 h2
  exact ⟨fun hc => by obtain ⟨w', h3, _⟩ := h1 hc; exact ⟨w', h3⟩, h2⟩

theorem publish_step (h : Run c slots hdr ops outs w) {ch e : Nat} {s : Option Nat} (hl : Allowed c hdr ops (.publish ch e s))
    {w' : World} {o : Out} (hs : step c w (.publish ch e s) = .ok (w', o)) :
    ∃ a, R c w a ∧ BooksRun ops outs (Spec.init fun e => (hdr e).sig) a ∧ Spec.Legal c a (.publish ch e s) ∧
      o = .num (subs c ops ch).length ∧ (∀ p ∈ subs c ops ch, CanTake a s p) ∧
      R c w' { a with conts := .gc1 e :: a.conts, fresh := a.fresh.erase e, aos := delivered e s a.reg (subs c ops ch) a.aos } := by
  obtain ⟨a, hR, hb, hleg, h1, h2⟩ := publish_spec h hl
  by_cases hct : ∀ p ∈ subs c ops ch, CanTake a s p
  · obtain ⟨w1, h3, h4⟩ := h1 hct
    rw [hs] at h3
    simp only [Res.ok.injEq, Prod.mk.injEq] at h3
    obtain ⟨rfl, rfl⟩ := h3
    exact ⟨a, hR, hb, hleg, rfl, hct, h4⟩
  · rw [h2 hct] at hs; cases hs

/-- **C25 (delivery).** A publish that returns has appended the event exactly once to the queue of every registered
object whose priority is subscribed, except the sender's, and has left every other queue as it was. -/
theorem publish_delivers (h : Run c slots hdr ops outs w) {ch e : Nat} {s : Option Nat} (hl : Allowed c hdr ops (.publish ch e s))
    {w' : World} {o : Out} (hs : step c w (.publish ch e s) = .ok (w', o)) :
    o = .num (subs c ops ch).length ∧ w'.aos.length = w.aos.length ∧ w'.dqs.map Obs.contents = w.dqs.map Obs.contents ∧
    ∀ (i : Nat) x x', w.aos[i]? = some x → w'.aos[i]? = some x' → x'.prio = x.prio ∧
      Obs.contents x'.q = Obs.contents x.q ++
        (if Obs.registry ops [] (fun _ => none) x.prio = some i ∧ Obs.subscribed ch x.prio ops [] false = true ∧ s ≠ some i
         then [e] else []) := by
  obtain ⟨a, hR, hb, _, rfl, _, hR'⟩ := publish_step h hl hs
  have hreg : a.reg = Obs.registry ops [] (fun _ => none) := hb.reg
  have hlen' : w'.aos.length = w.aos.length := by
    rw [hR'.ao.aos.1, hR.ao.aos.1]; simp [delivered]
  have dqs_map : ∀ (l : List Queue.Queue) (m : List Spec.AQ), Rel2 (QRep c false) l m → l.map Obs.contents = m.map (·.items) := by
    intro l m hlm
    apply List.ext_getElem?
    intro j
    simp only [List.getElem?_map]
    cases hx : m[j]? with
    | none => rw [hlm.get_none hx]; rfl
    | some y =>
      obtain ⟨x, hx', hq⟩ := hlm.get hx
      rw [hx']; simp [contents_eq hq]
  refine ⟨rfl, hlen', ?_, ?_⟩
  · rw [dqs_map _ _ hR.dq, dqs_map _ _ hR'.dq]
  · intro i x x' hx hx'
    have hlt : i < a.aos.length := by rw [← hR.ao.aos.1]; exact (List.getElem?_eq_some_iff.mp hx).1
    obtain ⟨k1, k2⟩ := hR.ao.aos.2 i x _ hx (List.getElem?_eq_getElem hlt)
    have hdel : (delivered e s a.reg (subs c ops ch) a.aos)[i]? = some
        (if a.reg a.aos[i].prio = some i ∧ a.aos[i].prio ∈ subs c ops ch ∧ some i ≠ s then
          { a.aos[i] with q := { a.aos[i].q with items := a.aos[i].q.items ++ [e] } } else a.aos[i]) := by
      simp [delivered, List.getElem?_mapIdx, List.getElem?_eq_getElem hlt]
    obtain ⟨k3, k4⟩ := hR'.ao.aos.2 i x' _ hx' hdel
    have hpm := hR.ao.prioOk _ (List.mem_of_getElem? (List.getElem?_eq_getElem hlt))
    have hmem : a.aos[i].prio ∈ subs c ops ch ↔ Obs.subscribed ch x.prio ops [] false = true := by
      rw [k1]; simp [subs, hpm]
    rw [contents_eq k2, contents_eq k4, k3, ← hreg, k1]
    rw [k1] at hmem
    by_cases hc : a.reg a.aos[i].prio = some i ∧ Obs.subscribed ch a.aos[i].prio ops [] false = true ∧ s ≠ some i
    · rw [if_pos hc, if_pos ⟨hc.1, hmem.mpr hc.2.1, Ne.symm hc.2.2⟩]
      exact ⟨rfl, rfl⟩
    · rw [if_neg hc, if_neg (fun hh => hc ⟨hh.1, hmem.mp hh.2.1, Ne.symm hh.2.2⟩)]
      exact ⟨rfl, by simp⟩

/-- The subscribers that actually get the event: the registered objects other than the sender. -/
def receivers (c : Cfg) (ops : List Op) (ch : Nat) (s : Option Nat) : List Nat :=
  (subs c ops ch).filter fun p => decide (Obs.registry ops [] (fun _ => none) p ≠ s)

theorem deliver_refs {e : Nat} {s : Option Nat} : ∀ {l : List Nat} {a a' : Spec.Abs},
    RdyGrp.foldRes (Spec.deliver e s) a l = .ok a' →
      Spec.refs a' e = Spec.refs a e + (l.filter fun p => decide (a.reg p ≠ s)).length := by
  intro l
  induction l with
  | nil => intro a a' h; simp only [RdyGrp.foldRes, Res.ok.injEq] at h; rw [h]; rfl
  | cons p l ih =>
    intro a a' h
    simp only [RdyGrp.foldRes, Spec.deliver] at h
    cases hr : a.reg p with
    | none => simp [hr] at h
    | some ao =>
      simp only [hr] at h
      by_cases hs : some ao = s
      · simp only [hs, if_true, Res.bind'_ok] at h
        rw [ih h, List.filter_cons]
        simp [hr, hs]
      · simp only [hs, if_false] at h
        cases hp : Spec.post false a ao e with
        | assert => simp [hp] at h
        | ub => simp [hp] at h
        | ok a1 =>
          simp only [hp, Res.bind'_ok] at h
          obtain ⟨x, q, hx, rfl, rfl, _⟩ := post_facts hp
          rw [ih h, List.filter_cons]
          have := refs_posted (front := false) (e := e) hx
          unfold posted at this
          simp only [Bool.false_eq_true, if_false] at this ⊢
          rw [this]
          simp [hr, hs]
          omega

/-- **C27 (references of a publish).** When the deliveries are done, the event has one reference per receiver more than
before, plus the one the function itself holds; dropping that one is the next thing the function does. -/
theorem publish_refs (h : Run c slots hdr ops outs w) {ch e : Nat} {s : Option Nat} (hl : Allowed c hdr ops (.publish ch e s))
    {w' : World} {o : Out} (hs : step c w (.publish ch e s) = .ok (w', o)) :
    (refsAfter (ops ++ [.publish ch e s]) w').count e = (refsAfter ops w).count e + (receivers c ops ch s).length + 1 ∧
    w'.conts = .gc1 e :: w.conts := by
  obtain ⟨a, hR, hb, _, rfl, hct, hR'⟩ := publish_step h hl hs
  have hreg : a.reg = Obs.registry ops [] (fun _ => none) := hb.reg
  have hresv : a.resv = Obs.reservations ops [] := hb.resv
  refine ⟨?_, by rw [hR'.conts, hR.conts]⟩
  have e1 : refsAfter ops w = Spec.holders a := by rw [refsAfter, ← hresv, references_eq hR]
  have e2 : refsAfter (ops ++ [.publish ch e s]) w' = Spec.holders
      { a with conts := .gc1 e :: a.conts, fresh := a.fresh.erase e, aos := delivered e s a.reg (subs c ops ch) a.aos } := by
    rw [refsAfter, reservations_append]
    have : Obs.reservations [.publish ch e s] (Obs.reservations ops []) = a.resv := by rw [hresv]; rfl
    rw [this]
    exact references_eq hR'
  rw [e1, e2]
  have hfr : (a.fresh.erase e).erase e = a.fresh.erase e := by
    apply List.erase_of_not_mem; exact hR.ev.freshND.not_mem_erase
  have hnd : (subs c ops ch).Nodup := List.nodup_range.filter _
  have hfold := (deliver_fold (e := e) (s := s) (subs c ops ch)
    { a with conts := .gc1 e :: a.conts, fresh := a.fresh.erase e } (fun p i hi => (hR.ao.regOk p i hi).2) hnd hfr).1 hct
  have := deliver_refs hfold
  unfold Spec.refs at this
  simp only at this
  rw [this]
  have e3 : (Spec.holders { a with conts := .gc1 e :: a.conts, fresh := a.fresh.erase e }).count e = (Spec.holders a).count e + 1 := by
    simp [Spec.holders, Cont.evt, List.count_append]; omega
  rw [e3]
  unfold receivers
  rw [hreg]
  omega

/-- **C27 (outcome of a publish).** For a dynamic event, when the publishing call returns (uninterrupted): if there are receivers, or
references existed before, the event has exactly the previous references plus one per receiver and no block moved; otherwise
the event went back to its pool. -/
theorem publish_complete (h : Run c slots hdr ops outs w) {ch e i : Nat} {s : Option Nat} (hl : Allowed c hdr ops (.publish ch e s))
    {w' : World} {o : Out} (hs : step c w (.publish ch e s) = .ok (w', o)) (ha : Obs.Allocated c w i e) :
    (0 < (refsAfter ops w).count e + (receivers c ops ch s).length →
      ∃ w2, (runOps (step c) w' [.resume 0, .resume 0]).2 = .ok w2 ∧ w2.slots = w'.slots ∧ w2.conts = w.conts ∧
        (w2.hdr e).nref = (refsAfter ops w).count e + (receivers c ops ch s).length ∧ Obs.Allocated c w2 i e) ∧
    ((refsAfter ops w).count e + (receivers c ops ch s).length = 0 →
      ∃ w2 p, (runOps (step c) w' [.resume 0, .resume 0, .resume 0]).2 = .ok w2 ∧ w2.conts = w.conts ∧
        (Obs.pools w2)[i]? = some p ∧ e ∈ Obs.freeBlocks c p) := by
  obtain ⟨hcnt, hconts⟩ := publish_refs h hl hs
  obtain ⟨a, hR, hb, _, rfl, hct, hR'⟩ := publish_step h hl hs
  have h' := h.next hl hs
  have hu : InUse a.pools i e := (allocated_iff hR i e).mp ha
  have ha' : Obs.Allocated c w' i e := (allocated_iff hR' i e).mpr hu
  have hnref := (refcount_exact h' ha').1
  have s1 : step c w' (.resume 0) = .ok ({ w' with conts := .gc2 e :: w.conts }, .unit) := by
    simp only [step, hconts, List.getElem?_cons_zero, List.eraseIdx_cons_zero, resumeCont]
    rw [if_pos (by omega)]
    rfl
  have l1 : Allowed c hdr (ops ++ [.publish ch e s]) (.resume 0) := by
    obtain ⟨a2, hR2, hr2, _⟩ := h'.full
    rw [allowed_iff h' hr2]
    exact ⟨.gc1 e, by rw [← hR2.conts, hconts]; rfl, fun _ _ hh => by cases hh⟩
  have h'' := h'.next l1 s1
  obtain ⟨j, haj, hcase⟩ := last_reference_recycles h'' (k := 0) (e := e) (by simp)
  have hij : j = i := by
    have := haj
    unfold Obs.Allocated Obs.pools at this
    simp only at this
    have h3 : Obs.Allocated c w' j e := this
    exact hR'.ev.disj j i e (.inl ((allocated_iff hR' j e).mp h3)) (.inl hu)
  subst hij
  have hcnt2 : (refsAfter (ops ++ [.publish ch e s] ++ [.resume 0]) { w' with conts := .gc2 e :: w.conts }).count e =
      (refsAfter (ops ++ [.publish ch e s]) w').count e := by
    unfold refsAfter
    rw [reservations_append (ops ++ [Op.publish ch e s])]
    have : Obs.reservations [.resume 0] (Obs.reservations (ops ++ [.publish ch e s]) []) = Obs.reservations (ops ++ [.publish ch e s]) [] := rfl
    rw [this]
    unfold Obs.references
    simp [hconts, Cont.evt]
  rw [hcnt2, hcnt] at hcase
  constructor
  · intro hpos
    rcases hcase with ⟨h1, _⟩ | ⟨_, w2, hst, hsl, hco, hn⟩
    · omega
    · refine ⟨w2, ?_, hsl, hco, by rw [hn]; omega, ?_⟩
      · simp only [runOps, s1, hst]
      · have l2 : Allowed c hdr (ops ++ [.publish ch e s] ++ [.resume 0]) (.resume 0) := by
          obtain ⟨a2, hR2, hr2, _⟩ := h''.full
          rw [allowed_iff h'' hr2]
          exact ⟨.gc2 e, by rw [← hR2.conts]; rfl, fun _ _ hh => by cases hh⟩
        have h3 := h''.next l2 hst
        obtain ⟨a3, hR3, _⟩ := h3.full
        have hregs : w2.regs = w'.regs := by
          simp only [step, List.getElem?_cons_zero, List.eraseIdx_cons_zero, resumeCont, gcSection] at hst
          have hn1 : (w'.hdr e).nref > 1 := by rw [hnref, hcnt]; omega
          simp only [hn1, if_true, Res.bind'_ok, Res.map', Res.ok.injEq, Prod.mk.injEq, and_true] at hst
          rw [← hst]; rfl
        have hp : Obs.pools w2 = Obs.pools w' := by unfold Obs.pools; rw [hregs, hsl]
        unfold Obs.Allocated
        rw [hp]
        exact ha'
  · intro hz
    rcases hcase with ⟨_, w2, hst, hsl, hco⟩ | ⟨h1, _⟩
    · have l2 : Allowed c hdr (ops ++ [.publish ch e s] ++ [.resume 0]) (.resume 0) := by
        obtain ⟨a2, hR2, hr2, _⟩ := h''.full
        rw [allowed_iff h'' hr2]
        exact ⟨.gc2 e, by rw [← hR2.conts]; rfl, fun _ _ hh => by cases hh⟩
      have h3 := h''.next l2 hst
      have hk3 : w2.conts[0]? = some (.put j e) := by rw [hco]; rfl
      obtain ⟨_, _, w3, p, p', hst3, hp, hp', hfree, _⟩ := pending_return h3 hk3
      have hc3 : w3.conts = w.conts := by
        have s3 : step c w2 (.resume 0) = (evtPut c { w2 with conts := w.conts } j e).map' fun w => (w, .unit) := by
          simp only [step, hk3, hco, List.eraseIdx_cons_zero]; rfl
        rw [s3, Res.map'_eq_ok] at hst3
        obtain ⟨w4, h4, h5⟩ := hst3
        simp only [Prod.mk.injEq, and_true] at h5
        subst h5
        unfold evtPut at h4
        split at h4
        · cases h4
        split at h4
        · cases h4
        · simp only [Res.bind'_eq_ok, Res.ok.injEq] at h4
          obtain ⟨p5, _, h6⟩ := h4
          rw [← h6]; rfl
      refine ⟨w3, p', ?_, hc3, hp', by rw [hfree]; simp⟩
      simp only [runOps, s1, hst, hst3]
    · omega

/-! ### C55: order of processing -/

/-- **C55.** If nothing was posted to the object in LIFO order or recalled for it, the events sent to it (by posting and by
publishing, in order) are the events dispatched to it, in order, followed by those still in its queue. -/
theorem processed_in_order (h : Run c slots hdr ops outs w) {ao : Nat} {x : Ao} (hx : w.aos[ao]? = some x)
    (hf : ∀ op ∈ ops, (∀ e, op ≠ .postLifo ao e) ∧ ∀ i, op ≠ .recall ao i) :
    Obs.sentTo ao ops [] (fun _ => none) (fun _ _ => false) = Obs.dispatched ao outs ++ Obs.contents x.q := by
  obtain ⟨a, hR, hr, hb⟩ := h.full
  have := fifo_run h.env.wf ao ops _ _ _ _ (R_init h.env) h.legal hr hf (by simp [Spec.init])
  have h0 : itemsOf (Spec.init fun e => (hdr e).sig) ao = [] := rfl
  rw [h0, List.nil_append] at this
  refine Eq.trans (by rfl) (this.trans ?_)
  have hlt : ao < a.aos.length := by rw [← hR.ao.aos.1]; exact (List.getElem?_eq_some_iff.mp hx).1
  have hrel := (hR.ao.aos.2 ao x _ hx (List.getElem?_eq_getElem hlt)).2
  rw [contents_eq hrel]
  simp [itemsOf, List.getElem?_eq_getElem hlt]

end Verif.Fwk
