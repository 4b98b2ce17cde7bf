import Verif.Sys.Lemmas
/-
The signals of the events of a history of the framework: an event keeps its signal from the moment it is sent to the moment
it is dispatched.
-/
namespace Verif.Sys
open Verif Verif.Fwk Verif.Fwk.Spec

variable {c : Fwk.Cfg} {w : World} {a : Abs}

/-- The signals of the events dispatched to `ao`, each read at the moment of dispatching. -/
def procSigs (ao : Nat) : Fwk.Obs.Hist → (Nat → Nat) → List Nat
  | [], _ => []
  | (op, o) :: h, sig =>
    (Fwk.Obs.dispatched ao [o]).map (Fwk.Obs.signal [(op, o)] sig) ++ procSigs ao h (Fwk.Obs.signal [(op, o)] sig)

theorem mem_items_holders {e ao : Nat} (h : e ∈ itemsOf a ao) : e ∈ holders a := by
  unfold itemsOf at h
  cases hx : a.aos[ao]? with
  | none => simp [hx] at h
  | some x =>
    simp only [hx, Option.map_some, Option.getD_some] at h
    unfold holders
    simp only [List.mem_append, List.mem_flatMap]
    exact .inl (.inl (.inl (.inl ⟨x, List.mem_of_getElem? hx, h⟩)))

/-- Signals change only for the event being allocated. -/
theorem signal_step (op : Fwk.Op) (o : Fwk.Out) (sig : Nat → Nat) :
    Fwk.Obs.signal [(op, o)] sig = sig ∨ ∃ n sg b, op = .alloc n sg ∧ o = .evt b ∧
      Fwk.Obs.signal [(op, o)] sig = fun x => if x = b then sg else sig x := by
  cases op <;> try exact .inl rfl
  cases o <;> first | exact .inl rfl | exact .inr ⟨_, _, _, rfl, rfl, rfl⟩

theorem sig_items (wf : Wf c) (hR : R c w a) {op : Fwk.Op} {o : Fwk.Out} {a1 : Abs} (hl : Legal c a op)
    (hs : Fwk.Spec.step c a op = .ok (a1, o)) (ao : Nat) : (itemsOf a1 ao).map a1.sig = (itemsOf a1 ao).map a.sig := by
  have hb := books hR hs
  rw [hb.sig]
  rcases signal_step op o a.sig with h | ⟨n, sg, b, rfl, rfl, h⟩
  · rw [h]
  · rw [h]
    obtain ⟨h1, _⟩ := sim_step wf hR _ hl
    rw [hs] at h1
    rcases hf : Fwk.step c w (.alloc n sg) with ⟨w1, o'⟩ | _ | _ <;> rw [hf] at h1 <;> simp only [StepRel] at h1
    have hfr : b ∈ a1.fresh := by rw [hb.fresh]; simp [Fwk.Obs.fresh]
    have h0 := (h1.1.ev.freshU b hfr).2
    apply List.map_congr_left
    intro e he
    rw [if_neg]
    rintro rfl
    exact (List.count_eq_zero.mp h0) (mem_items_holders he)

theorem dispatched_sig (op : Fwk.Op) (o : Fwk.Out) (sig : Nat → Nat) (ao : Nat) :
    (Fwk.Obs.dispatched ao [o]).map (Fwk.Obs.signal [(op, o)] sig) = (Fwk.Obs.dispatched ao [o]).map sig := by
  rcases signal_step op o sig with h | ⟨n, sg, b, rfl, rfl, h⟩
  · rw [h]
  · rfl

theorem sent1_eq (ao : Nat) (a : Abs) (op : Fwk.Op) :
    Fwk.Obs.sentTo ao [op] (a.aos.map (·.prio)) a.reg a.sub = sent1 ao a op := by
  rw [sentTo_cons]; simp [Fwk.Obs.sentTo]

theorem fifo_sigs_run (wf : Wf c) (ao : Nat) : ∀ (ops : List Fwk.Op) (w : World) (a : Abs) (outs : List Fwk.Out) (a' : Abs), R c w a →
    LegalRun c a ops → runOps (Fwk.Spec.step c) a ops = (outs, .ok a') → OnlyFifo ao ops → (∀ e, Cont.rc2 ao e ∉ a.conts) →
    (itemsOf a ao).map a.sig ++ Obs.sentSigs ao (ops.zip outs) (a.aos.map (·.prio)) a.reg a.sub a.sig =
      procSigs ao (ops.zip outs) a.sig ++ (itemsOf a' ao).map a'.sig := by
  refine run_induct wf (P := fun ops outs a a' => OnlyFifo ao ops → (∀ e, Cont.rc2 ao e ∉ a.conts) →
    (itemsOf a ao).map a.sig ++ Obs.sentSigs ao (ops.zip outs) (a.aos.map (·.prio)) a.reg a.sub a.sig =
      procSigs ao (ops.zip outs) a.sig ++ (itemsOf a' ao).map a'.sig) ?_ ?_
  · intro a _ _; simp [Obs.sentSigs, procSigs]
  · intro w a op o a1 ops outs a2 hR hl hs ih hf hrc
    obtain ⟨h1, h2⟩ := fifo_step hR ao hl hs (fun x hx => hf x (by simp at hx; simp [hx])) hrc
    have hb := books hR hs
    have ih := ih (fun x hx => hf x (by simp [hx])) h2
    rw [sig_items wf hR hl hs, hb.sig, hb.prio, hb.reg] at ih
    rw [show a1.sub = fun ch p => Fwk.Obs.subscribed ch p [op] (a.aos.map (·.prio)) (a.sub ch p) from funext fun ch => funext fun p => hb.sub ch p] at ih
    simp only [List.zip_cons_cons, Obs.sentSigs, procSigs, sent1_eq, dispatched_sig]
    rw [← List.append_assoc, ← List.map_append, h1, List.map_append, List.append_assoc, List.append_assoc]
    rw [ih]

/-- What a history of the framework leads to. -/
theorem sim_ok (wf : Wf c) {ops : List Fwk.Op} {outs : List Fwk.Out} {w' : World} (hR : R c w a) (hl : LegalRun c a ops)
    (h : runOps (Fwk.step c) w ops = (outs, .ok w')) : ∃ a', runOps (Fwk.Spec.step c) a ops = (outs, .ok a') ∧ R c w' a' := by
  obtain ⟨h1, h2, _⟩ := legalRun_sim wf ops _ _ hR hl
  rw [h] at h1 h2
  simp only at h1 h2
  rcases hx : runOps (Fwk.Spec.step c) a ops with ⟨o, r⟩
  rw [hx] at h1 h2
  simp only at h1 h2
  subst h1
  cases r with
  | ok a => exact ⟨a, rfl, h2⟩
  | assert => exact h2.elim
  | ub => exact h2.elim

theorem procSigs_append (ao : Nat) (xs ys : Fwk.Obs.Hist) (sig : Nat → Nat) :
    procSigs ao (xs ++ ys) sig = procSigs ao xs sig ++ procSigs ao ys (Fwk.Obs.signal xs sig) := by
  induction xs generalizing sig with
  | nil => rfl
  | cons x xs ih =>
    obtain ⟨op, o⟩ := x
    rw [signal_cons op o xs]
    simp only [List.cons_append, procSigs, List.append_assoc, ih]

/-- The signals the state machine of `ao` was given are those of the events dispatched to it. -/
theorem handled_eq {c : Cfg} (wf : Wf c.fw) (ao : Nat) : ∀ (ops : List Op) (s s' : Sys) (outs : List Out) (a : Abs),
    runOps (step c) s ops = (outs, .ok s') → R c.fw s.w a → LegalRun c.fw a (Obs.fwkOps ops outs) →
    Obs.handled ao outs = procSigs ao ((Obs.fwkOps ops outs).zip (Obs.fwkOuts outs)) a.sig := by
  intro ops
  induction ops with
  | nil =>
    intro s s' outs a h _ _
    simp only [runOps, Prod.mk.injEq, Res.ok.injEq] at h
    obtain ⟨rfl, rfl⟩ := h
    rfl
  | cons op ops ih =>
    intro s s' outs a h hR hl
    simp only [runOps] at h
    rcases hs : step c s op with ⟨s1, o⟩ | _ | _ <;> rw [hs] at h <;> simp only [Prod.mk.injEq, reduceCtorEq, and_false] at h
    obtain ⟨rfl, h⟩ := h
    have sp := split hs
    simp only [Obs.fwkOps] at hl
    rw [legalRun_append] at hl
    obtain ⟨a1, hr1, hR1⟩ := sim_ok wf hR hl.1 sp.fwk
    have hb := books_run wf _ _ _ _ _ hR hl.1 hr1
    have := ih s1 s' _ a1 (Prod.ext rfl h) hR1 (hl.2 _ _ hr1)
    rw [handled_cons, this]
    simp only [Obs.fwkOps, Obs.fwkOuts, List.flatMap_cons]
    rw [List.zip_append hb.len.symm, procSigs_append, ← hb.sig]
    congr 1
    have hsh := sp.shape
    cases op with
    | activate =>
      cases o <;> simp only [Shape] at hsh
      simp [Obs.handled, Obs.fwkOps1, Obs.fwkOuts1, procSigs, Fwk.Obs.dispatched]
    | call op' =>
      cases o <;> simp only [Shape] at hsh
      rename_i o'
      simp only [Obs.handled, Obs.fwkOps1, Obs.fwkOuts1, List.zip_cons_cons, List.zip_nil_left, procSigs, List.append_nil]
      cases o' with
      | dispatch i e => exact absurd rfl (hsh i e)
      | _ => rfl
    | tmr =>
      cases o <;> simp only [Shape] at hsh
      simp [Obs.handled, Obs.fwkOps1, Obs.fwkOuts1, procSigs]
    | tick =>
      cases o <;> simp only [Shape] at hsh
      rename_i l
      simp only [Obs.handled, Obs.fwkOps1, Obs.fwkOuts1]
      generalize a.sig = sg
      clear hl hr1 hb this sp hs h hR1 hsh
      induction l generalizing sg with
      | nil => rfl
      | cons p l ih2 =>
        simp only [List.map_cons, List.zip_cons_cons, procSigs, Fwk.Obs.dispatched, List.map_nil, List.nil_append]
        exact ih2 _
    | fetch f =>
      cases o <;> simp only [Shape] at hsh
      rename_i i e sg r
      obtain ⟨hph, hsig⟩ := sp.sig i e sg r rfl
      have hsg : Fwk.Obs.signal [(Fwk.Op.fetch, Fwk.Out.dispatch i e)] a.sig = a.sig := rfl
      have h1 : a1.sig = a.sig := by
        have := hb.sig
        simp only [Obs.fwkOps1, Obs.fwkOuts1, List.zip_cons_cons, List.zip_nil_left] at this
        rw [this, hsg]
      have hin : e ∈ holders a1 := by
        rcases hph with hph | hph
        · have : a1.ph = .run i e := by rw [← hR1.ph]; exact hph
          simp [holders, this, phEvts]
        · rw [hR1.conts] at hph
          unfold holders
          simp only [List.mem_append, List.mem_map]
          exact .inr ⟨_, hph, rfl⟩
      have hse : sg = a.sig e := by
        rw [← hsig, ← h1]
        rcases (hR1.ev.hold e hin).2 with hs | ⟨k, hk⟩
        · rw [hR1.ev.hdrS e hs]
        · rw [hR1.ev.hdrU k e hk]
      simp only [Obs.handled, Obs.fwkOps1, Obs.fwkOuts1, List.zip_cons_cons, List.zip_nil_left, procSigs, List.append_nil,
        Fwk.Obs.dispatched, hsg]
      by_cases hi : i = ao <;> simp [hi, hse]
    | take ao' f =>
      cases o <;> simp only [Shape] at hsh
      rename_i i e sg r
      obtain ⟨hph, hsig⟩ := sp.sig i e sg r rfl
      have hsg : Fwk.Obs.signal [(Fwk.Op.take ao', Fwk.Out.dispatch i e)] a.sig = a.sig := rfl
      have h1 : a1.sig = a.sig := by
        have := hb.sig
        simp only [Obs.fwkOps1, Obs.fwkOuts1, List.zip_cons_cons, List.zip_nil_left] at this
        rw [this, hsg]
      have hin : e ∈ holders a1 := by
        rcases hph with hph | hph
        · have : a1.ph = .run i e := by rw [← hR1.ph]; exact hph
          simp [holders, this, phEvts]
        · rw [hR1.conts] at hph
          unfold holders
          simp only [List.mem_append, List.mem_map]
          exact .inr ⟨_, hph, rfl⟩
      have hse : sg = a.sig e := by
        rw [← hsig, ← h1]
        rcases (hR1.ev.hold e hin).2 with hs | ⟨k, hk⟩
        · rw [hR1.ev.hdrS e hs]
        · rw [hR1.ev.hdrU k e hk]
      simp only [Obs.handled, Obs.fwkOps1, Obs.fwkOuts1, List.zip_cons_cons, List.zip_nil_left, procSigs, List.append_nil,
        Fwk.Obs.dispatched, hsg]
      by_cases hi : i = ao <;> simp [hi, hse]

end Verif.Sys
