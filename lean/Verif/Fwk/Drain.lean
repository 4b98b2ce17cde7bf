import Verif.Fwk.Props2
/-
The scheduler alone: what happens when nobody sends events any more. Each round of the loop of `rkh_fwk_enter`
(select, fetch, dispatch) removes one waiting event; after as many rounds as events were waiting it idles.
-/
namespace Verif.Fwk.Obs
open Verif Verif.Fwk

/-- The events waiting for registered active objects, with their receivers: object by object from the highest priority (number
0) to the lowest, the events of each object in the order of its queue. -/
def todo (w : World) : List (Nat × Nat) :=
  (List.range w.sptbl.length).flatMap fun p => match w.sptbl[p]?.join with
    | none => []
    | some ao => match w.aos[ao]? with
      | none => []
      | some x => (contents x.q).map fun e => (ao, e)

/-- No `rkh_sma_recall` is in the middle of its work. -/
def NoRecall (w : World) : Prop := ∀ t ∈ w.conts, (∀ ao e, t ≠ .rc2 ao e) ∧ ∀ ao e, t ≠ .rc3 ao e

/-- `n` rounds of the scheduler loop. -/
def rounds (n : Nat) : List Op := (List.replicate n [Op.select, Op.fetch, Op.done]).flatten

end Verif.Fwk.Obs

namespace Verif.Fwk
open Verif Verif.Fwk.Spec

variable {c : Cfg} {w : World} {a : Abs}

/-- `Obs.todo` of the specification: the part of one priority. -/
def todoP (a : Abs) (p : Nat) : List (Nat × Nat) :=
  match a.reg p with
  | none => []
  | some i => (itemsOf a i).map fun e => (i, e)

def todoA (c : Cfg) (a : Abs) : List (Nat × Nat) := (List.range c.maxSma).flatMap (todoP a)

theorem flatMap_congr {α β : Type} {f g : α → List β} : ∀ {l : List α}, (∀ x ∈ l, f x = g x) → l.flatMap f = l.flatMap g := by
  intro l
  induction l with
  | nil => intro _; rfl
  | cons x l ih =>
    intro h
    rw [List.flatMap_cons, List.flatMap_cons, h x (by simp), ih fun y hy => h y (by simp [hy])]

theorem todo_eq (h : R c w a) : Obs.todo w = todoA c a := by
  unfold Obs.todo todoA
  rw [h.ao.len]
  apply flatMap_congr
  intro p hp
  rw [h.ao.tbl p (by simpa using hp)]
  unfold todoP
  cases hr : a.reg p with
  | none => simp
  | some i =>
    obtain ⟨_, y, hy, _⟩ := h.ao.regOk p i hr
    obtain ⟨x, hx, _, hq⟩ := h.ao.aos.get hy
    simp [hx, contents_eq hq, itemsOf, hy]

theorem todoP_pending (p : Nat) : todoP a p = [] ↔ pending a p = false := by
  unfold todoP pending itemsOf
  cases a.reg p with
  | none => simp
  | some i =>
    simp only
    cases a.aos[i]? with
    | none => simp
    | some x => simp

/-- The states of the specification during one round. -/
theorem round_spec (h : R c w a) (hph : a.ph = .none) (hnr : NoRecall a) {x0 : Nat × Nat} {rest0 : List (Nat × Nat)}
    (hw : todoA c a = x0 :: rest0) :
    ∃ a1 a2 a3, Spec.step c a .select = .ok (a1, .chose x0.1) ∧ Spec.step c a1 .fetch = .ok (a2, .dispatch x0.1 x0.2) ∧
      Spec.step c a2 .done = .ok (a3, .unit) ∧ LegalRun c a [.select, .fetch, .done] ∧
      a3.ph = .none ∧ NoRecall a3 ∧ todoA c a3 = rest0 := by
  have hfind : ∃ p, (List.range c.maxSma).find? (pending a) = some p := by
    rcases hf : (List.range c.maxSma).find? (pending a) with _ | p
    · rw [List.find?_eq_none] at hf
      have : todoA c a = [] := by
        unfold todoA
        rw [List.flatMap_eq_nil_iff]
        intro p hp
        rw [todoP_pending]
        simpa using hf p hp
      rw [this] at hw; cases hw
    · exact ⟨p, rfl⟩
  obtain ⟨p, hfind⟩ := hfind
  obtain ⟨hp, l1, l2, hl, hl1⟩ := List.find?_eq_some_iff_append.mp hfind
  obtain ⟨ao, x, hr, hx, hi⟩ := (pending_iff a p).mp hp
  obtain ⟨e, rest, hi⟩ : ∃ e rest, x.q.items = e :: rest := by
    cases hq : x.q.items with
    | nil => exact absurd hq hi
    | cons e rest => exact ⟨e, rest, rfl⟩
  have hlt : ao < a.aos.length := (List.getElem?_eq_some_iff.mp hx).1
  have hnd : (l1 ++ p :: l2).Nodup := hl ▸ List.nodup_range
  rw [List.nodup_append, List.nodup_cons] at hnd
  obtain ⟨_, ⟨hnp2, _⟩, hdis⟩ := hnd
  have s1 : Spec.step c a .select = .ok ({ a with ph := .fetch ao }, .chose ao) := by
    simp only [Spec.step, hfind, hr]
  have s2 : Spec.step c { a with ph := .fetch ao } .fetch =
      .ok ({ a with aos := a.aos.set ao { x with q := { x.q with items := rest } }, ph := .run ao e }, .dispatch ao e) := by
    simp only [Spec.step, hx, hi]
  have s3 : Spec.step c { a with aos := a.aos.set ao { x with q := { x.q with items := rest } }, ph := .run ao e } .done =
      .ok ({ a with aos := a.aos.set ao { x with q := { x.q with items := rest } }, ph := .none, conts := .gc1 e :: a.conts }, .unit) := rfl
  have hnr3 : NoRecall { a with aos := a.aos.set ao { x with q := { x.q with items := rest } }, ph := .none, conts := .gc1 e :: a.conts } := by
    intro t ht
    simp only [List.mem_cons] at ht
    rcases ht with rfl | ht
    · simp
    · exact hnr t ht
  generalize ha3 : ({ a with aos := a.aos.set ao { x with q := { x.q with items := rest } }, ph := .none, conts := .gc1 e :: a.conts } : Abs) = a3 at s3 hnr3
  have hph3 : a3.ph = .none := by rw [← ha3]
  -- the work left over
  have hother : ∀ q, q ≠ p → todoP a3 q = todoP a q := by
    intro q hq
    rw [← ha3]
    unfold todoP
    cases hrq : a.reg q with
    | none => rfl
    | some i =>
      have hne : ao ≠ i := by
        rintro rfl
        obtain ⟨_, y, hy, hyp⟩ := h.ao.regOk q ao hrq
        obtain ⟨_, y', hy', hyp'⟩ := h.ao.regOk p ao hr
        rw [hy] at hy'; cases hy'
        exact hq (by rw [← hyp, ← hyp'])
      simp [itemsOf, List.getElem?_set, hne]
  have hp0 : todoP a p = (ao, e) :: rest.map fun e => (ao, e) := by
    unfold todoP
    simp [hr, itemsOf, hx, hi]
  have hp3 : todoP a3 p = rest.map fun e => (ao, e) := by
    rw [← ha3]
    unfold todoP
    simp [hr, itemsOf, List.getElem?_set, hlt]
  have hz : ∀ q ∈ l1, todoP a q = [] := by
    intro q hq
    rw [todoP_pending]
    simpa using hl1 q hq
  have e1 : todoA c a = (ao, e) :: (rest.map (fun e => (ao, e)) ++ l2.flatMap (todoP a)) := by
    unfold todoA
    rw [hl, List.flatMap_append, List.flatMap_cons, hp0, List.flatMap_eq_nil_iff.mpr hz]
    rfl
  have e3 : todoA c a3 = rest.map (fun e => (ao, e)) ++ l2.flatMap (todoP a) := by
    unfold todoA
    rw [hl, List.flatMap_append, List.flatMap_cons, hp3, List.flatMap_eq_nil_iff.mpr, List.nil_append]
    · congr 1
      exact flatMap_congr fun q hq => hother q (by rintro rfl; exact hnp2 hq)
    · intro q hq
      rw [hother q (by rintro rfl; exact hdis q hq q (by simp) rfl)]
      exact hz q hq
  rw [e1] at hw
  simp only [List.cons.injEq] at hw
  obtain ⟨rfl, rfl⟩ := hw
  refine ⟨_, _, _, s1, s2, s3, ?_, hph3, hnr3, e3⟩
  refine ⟨⟨hph, hnr⟩, fun a' o hs => ?_⟩
  rw [s1] at hs; cases hs
  refine ⟨⟨⟨ao, rfl⟩, hnr⟩, fun a' o hs => ?_⟩
  rw [s2] at hs; cases hs
  exact ⟨⟨⟨ao, e, rfl⟩, hnr⟩, fun _ _ _ => trivial⟩

theorem idle_spec (hw : todoA c a = []) : Spec.step c a .select = .ok (a, .idle) := by
  have hf : (List.range c.maxSma).find? (pending a) = none := by
    rw [List.find?_eq_none]
    intro p hp
    have := (todoP_pending p).mp (List.flatMap_eq_nil_iff.mp hw p hp)
    simp [this]
  simp only [Spec.step, hf]

/-- What the scheduler shows when it works off a list of events. -/
def shown (l : List (Nat × Nat)) : List Out := l.flatMap fun x => [.chose x.1, .dispatch x.1 x.2, .unit]

theorem drain_spec (wf : Wf c) : ∀ (l : List (Nat × Nat)) (w : World) (a : Abs), R c w a → a.ph = .none → NoRecall a →
    todoA c a = l → LegalRun c a (Obs.rounds l.length ++ [.select]) ∧
    ∃ a', runOps (Spec.step c) a (Obs.rounds l.length ++ [.select]) = (shown l ++ [.idle], .ok a') ∧
      a'.ph = .none ∧ NoRecall a' ∧ todoA c a' = [] := by
  intro l
  induction l with
  | nil =>
    intro w a h hph hnr ht
    have := idle_spec ht
    exact ⟨⟨⟨hph, hnr⟩, fun _ _ _ => trivial⟩, a, by simp [Obs.rounds, runOps, this, shown], hph, hnr, ht⟩
  | cons x l ih =>
    intro w a h hph hnr ht
    obtain ⟨a1, a2, a3, s1, s2, s3, hl, hph3, hnr3, ht3⟩ := round_spec h hph hnr ht
    have hrun : runOps (Spec.step c) a [.select, .fetch, .done] = ([.chose x.1, .dispatch x.1 x.2, .unit], .ok a3) := by
      simp [runOps, s1, s2, s3]
    obtain ⟨_, h2, _⟩ := legalRun_sim wf _ _ _ h hl
    rw [hrun] at h2
    rcases hx : (runOps (step c) w [.select, .fetch, .done]).2 with w3 | _ | _ <;> rw [hx] at h2 <;> try exact h2.elim
    simp only at h2
    obtain ⟨i1, a', i2, i3⟩ := ih w3 a3 h2 hph3 hnr3 ht3
    have hsplit : Obs.rounds (x :: l).length ++ [.select] = [.select, .fetch, .done] ++ (Obs.rounds l.length ++ [.select]) := by
      simp [Obs.rounds, List.replicate_succ]
    rw [hsplit]
    refine ⟨legalRun_append.mpr ⟨hl, fun o b hb => ?_⟩, a', ?_, i3⟩
    · rw [hrun] at hb; cases hb; exact i1
    · obtain ⟨k1, k2⟩ := runOps_append_ok [.select, .fetch, .done] (Obs.rounds l.length ++ [.select]) a a3 (f := Spec.step c) (by rw [hrun])
      refine Prod.ext ?_ ?_
      · rw [k1, hrun, i2]; simp [shown]
      · rw [k2, i2]

/-- The events waiting are those in the queues of the registered objects. -/
theorem todo_empty_iff {slots : List MemPool.Pool} {hdr : Nat → Evt} {ops : List Op} {outs : List Out}
    (h : Run c slots hdr ops outs w) :
    Obs.todo w = [] ↔ ∀ p x, Obs.registered w p = some x → Obs.contents x.q = [] := by
  obtain ⟨a, hR, _⟩ := h.full
  rw [todo_eq hR]
  constructor
  · intro ht p x hx
    obtain ⟨i, y, hr, hy, _, hc⟩ := (registered_eq hR p).1 x hx
    have := List.flatMap_eq_nil_iff.mp ht p (by simpa using (hR.ao.regOk p i hr).1)
    simp only [todoP, hr, List.map_eq_nil_iff, itemsOf, hy, Option.map_some, Option.getD_some] at this
    rw [hc, this]
  · intro hz
    unfold todoA
    rw [List.flatMap_eq_nil_iff]
    intro p _
    unfold todoP
    cases hr : a.reg p with
    | none => rfl
    | some i =>
      obtain ⟨x, y, hx, hy, _, hc⟩ := (registered_eq hR p).2 i hr
      have := hz p x hx
      rw [hc] at this
      simp [itemsOf, hy, this]

/-- **C83.** When nobody sends events any more, the scheduler, started between two dispatches, works off the waiting events
by priority and per object in queue order, one per round, no call failing, and is idle after exactly as many rounds
as events were waiting, with all queues of registered objects empty. -/
theorem scheduler_drains {slots : List MemPool.Pool} {hdr : Nat → Evt} {ops : List Op} {outs : List Out}
    (h : Run c slots hdr ops outs w) (hph : w.ph = .none) (hnr : Obs.NoRecall w) :
    ∃ w', Run c slots hdr (ops ++ (Obs.rounds (Obs.todo w).length ++ [.select]))
        (outs ++ ((Obs.todo w).flatMap (fun x => [.chose x.1, .dispatch x.1 x.2, .unit]) ++ [.idle])) w' ∧
      w'.ph = .none ∧ ∀ p x, Obs.registered w' p = some x → Obs.contents x.q = [] := by
  obtain ⟨a, hR, hr, _⟩ := h.full
  obtain ⟨hl, a', hrun, hph', hnr', ht'⟩ := drain_spec h.env.wf (Obs.todo w) w a hR (by rw [← hR.ph]; exact hph)
    (by intro t ht; exact hnr t (by rw [hR.conts]; exact ht)) (todo_eq hR).symm
  obtain ⟨h1, h2, _⟩ := legalRun_sim h.env.wf _ _ _ hR hl
  rw [hrun] at h1 h2
  rcases hx : runOps (step c) w (Obs.rounds (Obs.todo w).length ++ [.select]) with ⟨o, w' | _ | _⟩ <;> rw [hx] at h1 h2 <;>
    try exact h2.elim
  simp only at h1 h2
  subst h1
  have hRun : Run c slots hdr (ops ++ (Obs.rounds (Obs.todo w).length ++ [.select])) (outs ++ (shown (Obs.todo w) ++ [.idle])) w' := by
    refine ⟨h.env, legalRun_append.mpr ⟨h.legal, fun o b hb => ?_⟩, ?_⟩
    · rw [hr] at hb; cases hb; exact hl
    · obtain ⟨k1, k2⟩ := runOps_append_ok ops (Obs.rounds (Obs.todo w).length ++ [.select]) (initW c slots hdr) w (f := step c) (by rw [h.run])
      exact Prod.ext (by rw [k1, h.run, hx]) (by rw [k2, hx])
  refine ⟨w', hRun, by rw [h2.ph]; exact hph', ?_⟩
  rw [← todo_empty_iff hRun, todo_eq h2]
  exact ht'

end Verif.Fwk
