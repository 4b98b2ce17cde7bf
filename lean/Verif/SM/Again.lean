import Verif.SM.Demo
/-
A state machine that is initialised again: `rkh_sm_init` (source/sm/src/rkhsm.c:375-379) called for an object that has
been in use, e.g. when a terminated active object is activated again (rkhsma.c, `rkh_sma_activate`). The function only
dispatches the creation event; the histories are static variables that are not reset.
-/
namespace Verif.SM.Spec
open Verif.SM

/-- The same guards, seen by somebody who was not present when `p` happened. -/
def since (env : Env) (p : List Obs) : Env := fun g e l => env g e (p ++ l)

/-- No history is remembered. -/
def NoMemory (s : Mem) : Prop := ∀ h, s.hist h = none

/-- A machine in the situation `s` that is initialised again, with a step budget `f`, and then receives calls behaves as
one in the situation `t` does of which nothing was observed yet: the calls return the same, the same happens and the
situations afterwards are the same. -/
def RestartsAs (m : Machine) (env : Env) (s t : Mem) (f : Nat) (os : List (Op × Nat)) : Prop :=
  (calls m env ((.dispatch sigCreation, f) :: os) s).2 =
    (calls m (since env s.log) ((.dispatch sigCreation, f) :: os) t).2 ∧
  (calls m env ((.dispatch sigCreation, f) :: os) s).1.log =
    s.log ++ (calls m (since env s.log) ((.dispatch sigCreation, f) :: os) t).1.log ∧
  (calls m env ((.dispatch sigCreation, f) :: os) s).1.state =
    (calls m (since env s.log) ((.dispatch sigCreation, f) :: os) t).1.state ∧
  (calls m env ((.dispatch sigCreation, f) :: os) s).1.hist =
    (calls m (since env s.log) ((.dispatch sigCreation, f) :: os) t).1.hist

end Verif.SM.Spec

namespace Verif.SM
open Eng Spec

/-- `s` differs from `t` in that `p` happened before and, unless `b`, in the current state. -/
structure Later (p : List Obs) (b : Bool) (s t : Mem) : Prop where
  log : s.log = p ++ t.log
  hist : s.hist = t.hist
  state : b = true → s.state = t.state

theorem Later.weaken {p : List Obs} {b : Bool} {s t : Mem} (h : Later p true s t) : Later p b s t :=
  ⟨h.log, h.hist, fun _ => h.state rfl⟩

/-- Two pieces of the engine that keep memories apart in the same way. -/
structure Shifts (p : List Obs) (b : Bool) {α : Type} (x y : Eng α) : Prop where
  run : ∀ s t, Later p b s t → Later p b (x s).1 (y t).1 ∧ (x s).2 = (y t).2

variable {p : List Obs} {b : Bool} {α β : Type} {m : Machine} {env : Env} {e : Sig}

theorem Shifts.pure {a : α} : Shifts p b (Pure.pure a : Eng α) (Pure.pure a) := ⟨fun _ _ h => ⟨h, rfl⟩⟩
theorem Shifts.stop {c : Stop} : Shifts p b (Eng.stop c : Eng α) (Eng.stop c) := ⟨fun _ _ h => ⟨h, rfl⟩⟩
theorem Shifts.lift {a : Ans α} : Shifts p b (Eng.lift a) (Eng.lift a) := ⟨fun _ _ h => ⟨h, rfl⟩⟩
theorem Shifts.error {c : RC} : Shifts p b (error m c : Eng α) (error m c) := .stop

theorem Shifts.bind {x y : Eng α} {f g : α → Eng β} (h : Shifts p b x y) (hf : ∀ a, Shifts p b (f a) (g a)) :
    Shifts p b (x >>= f) (y >>= g) := by
  refine ⟨fun s t hs => ?_⟩
  have h1 := h.run s t hs
  show Later p b (Eng.bind x f s).1 (Eng.bind y g t).1 ∧ (Eng.bind x f s).2 = (Eng.bind y g t).2
  unfold Eng.bind
  rcases hx : x s with ⟨s1, a | c⟩ <;> rcases hy : y t with ⟨t1, a' | d⟩ <;> rw [hx, hy] at h1 <;> simp at h1 ⊢
  · obtain ⟨h1, rfl⟩ := h1
    exact (hf a).run s1 t1 h1
  · obtain ⟨h1, rfl⟩ := h1
    exact ⟨h1, rfl⟩

theorem Shifts.get {f g : Mem → Eng β} (hf : ∀ s t, Later p b s t → Shifts p b (f s) (g t)) :
    Shifts p b (Eng.get >>= f) (Eng.get >>= g) := ⟨fun s t hs => (hf s t hs).run s t hs⟩

theorem Shifts.modify {f g : Mem → Mem} (h : ∀ s t, Later p b s t → Later p b (f s) (g t)) :
    Shifts p b (Eng.modify f) (Eng.modify g) := ⟨fun s t hs => ⟨h s t hs, rfl⟩⟩

theorem Shifts.emit {o : Obs} : Shifts p b (Eng.emit o) (Eng.emit o) :=
  .modify fun s t h => ⟨by simp [h.log], h.hist, h.state⟩

theorem shifts_guard (g : Option Guard) : Shifts p b (evalGuard env e g) (evalGuard (since env p) e g) := by
  match g with
  | none => exact .pure
  | some .els => exact .pure
  | some (.fn g) =>
    refine ⟨fun s t h => ?_⟩
    simp only [evalGuard, since, h.log]
    exact ⟨⟨by simp, h.hist, h.state⟩, trivial⟩

theorem shifts_findTrn : ∀ tbl, Shifts p b (findTrn env e tbl) (findTrn (since env p) e tbl)
  | [] => .pure
  | t :: ts => by
    unfold findTrn
    split
    · exact .pure
    split
    · refine .bind (shifts_guard _) fun r => ?_
      cases r
      · exact shifts_findTrn ts
      · exact .pure
    · exact shifts_findTrn ts

theorem shifts_findBranch : ∀ tbl, Shifts p b (findBranch env e tbl) (findBranch (since env p) e tbl)
  | [] => .pure
  | t :: ts => by
    unfold findBranch
    split
    · exact .pure
    cases t.guard with
    | none => exact shifts_findBranch ts
    | some g =>
      refine .bind (shifts_guard _) fun r => ?_
      cases r
      · exact shifts_findBranch ts
      · exact .pure

theorem shifts_exec : ∀ l, Shifts p b (exec e l) (exec e l)
  | [] => .pure
  | _ :: as => .bind .emit fun _ => shifts_exec as

theorem shifts_searchUp : ∀ f v, Shifts p b (searchUp m env e f v) (searchUp m (since env p) e f v)
  | 0, _ => .stop
  | f + 1, v => by
    unfold searchUp
    cases m.trtbl v with
    | none => exact .stop
    | some tbl =>
      refine .bind (shifts_findTrn tbl) fun r => ?_
      cases r with
      | some t => exact .pure
      | none =>
        match m.parent v with
        | none => exact .stop
        | some none => exact .pure
        | some (some q) => exact shifts_searchUp f q

theorem shifts_pushAct {al : List Act} {a : Option Act} : Shifts p b (pushAct m al a) (pushAct m al a) := by
  unfold pushAct
  cases addAct m al a with
  | none => exact .error
  | some _ => exact .pure

theorem shifts_updShallow {v : Vid} : Shifts p b (updShallow m v) (updShallow m v) := by
  unfold updShallow
  refine .bind .lift fun r => ?_
  cases r with
  | none => exact .pure
  | some h => exact .modify fun s t hs => ⟨hs.log, by simp [hs.hist], hs.state⟩

theorem shifts_exits {ts : Vid} : ∀ f ix x ent, Shifts p b (exits m ts f ix x ent) (exits m ts f ix x ent)
  | 0, _, _, _ => .stop
  | f + 1, _, none, _ => by unfold exits; exact .pure
  | f + 1, ix, some x, _ => by
    unfold exits
    refine .bind .lift fun r => ?_
    match r with
    | (true, ent) =>
      cases ix with
      | zero =>
        refine .bind .emit fun _ => .bind shifts_updShallow fun _ => ?_
        split
        · exact .pure
        · exact .stop
      | succ n => exact .pure
    | (false, ent) =>
      refine .bind .emit fun _ => .bind shifts_updShallow fun _ => ?_
      cases m.parent x with
      | none => exact .stop
      | some q => exact shifts_exits f _ q ent

theorem shifts_enter : ∀ l c, Shifts p b (enter m l c) (enter m l c)
  | [], _ => .pure
  | _ :: ss, _ => .bind .emit fun _ => shifts_enter ss _

theorem shifts_takeBranch {tbl : List Tr} {al : List Act} :
    Shifts p b (takeBranch m env e tbl al) (takeBranch m (since env p) e tbl al) := by
  unfold takeBranch
  refine .bind (shifts_findBranch tbl) fun r => ?_
  cases r with
  | none => exact .stop
  | some t =>
    refine .bind shifts_pushAct fun al => ?_
    cases t.target with
    | none => exact .stop
    | some v => exact .pure

theorem shifts_takeHist {h : Vid} {par : Option Vid} {trn : Tr} {al : List Act} :
    Shifts p b (takeHist m env e h par trn al) (takeHist m (since env p) e h par trn al) := by
  unfold takeHist
  cases par with
  | none => exact .stop
  | some q =>
    dsimp only
    split
    · split
      · exact .stop
      · refine .get fun s t hs => ?_
        rw [hs.hist]
        cases t.hist h with
        | some v => exact .pure
        | none =>
          cases trn.target with
          | none => exact .pure
          | some v =>
            refine .bind (shifts_guard _) fun r => ?_
            cases r with
            | false => exact .stop
            | true => exact .bind shifts_pushAct fun al => .pure
    · exact .stop

theorem shifts_precheck {f : Nat} {mi : Bool} {x y : Vid} : Shifts p b (precheck m f mi x y) (precheck m f mi x y) := by
  unfold precheck
  split
  · exact .bind .lift fun _ => .pure
  · exact .pure

theorem shifts_resolve {mi : Bool} : ∀ f stn ets al,
    Shifts p b (resolve m env e mi f stn ets al) (resolve m (since env p) e mi f stn ets al)
  | 0, _, _, _ => .stop
  | f + 1, stn, ets, al => by
    unfold resolve
    split
    · exact .stop
    · exact .pure
    · exact .pure
    · exact .pure
    · exact .bind (shifts_exec al) fun _ => .bind shifts_takeBranch fun r => .bind shifts_precheck fun _ =>
        shifts_resolve f _ _ _
    · exact .bind shifts_takeBranch fun r => .bind shifts_precheck fun _ => shifts_resolve f _ _ _
    · exact .bind shifts_takeHist fun r => .bind shifts_precheck fun _ => shifts_resolve f _ _ _
    · exact .error

theorem shifts_stage4 {f : Nat} {cr mi : Bool} {cs stn ts : Vid} :
    Shifts p b (stage4 m f cr mi cs stn ts) (stage4 m f cr mi cs stn ts) := by
  unfold stage4
  split
  · exact .lift
  · exact .lift
  · exact shifts_exits _ _ _ _

theorem shifts_segLoop {cr : Bool} {cs : Vid} : ∀ f mi stn ets ta c,
    Shifts p b (segLoop m env e cr cs f mi stn ets ta c) (segLoop m (since env p) e cr cs f mi stn ets ta c)
  | 0, _, _, _, _, _ => .stop
  | f + 1, mi, stn, ets, ta, c => by
    unfold segLoop
    refine .bind shifts_pushAct fun al => .bind (shifts_resolve f _ _ _) fun r => .bind shifts_stage4 fun ent =>
      .bind (shifts_exec _) fun _ => .bind (shifts_enter _ _) fun c => ?_
    cases m.comp r.2.1 with
    | some d => exact shifts_segLoop f _ _ _ _ _
    | none =>
      cases ent with
      | nil => exact .stop
      | cons s _ => exact .pure

theorem shifts_finish {f : Nat} {v : Vid} : Shifts p b (finish m f v) (finish m f v) := by
  unfold finish
  cases m.parent v with
  | none => exact .stop
  | some q => exact .bind .lift fun ks => .bind (.modify fun s t h => ⟨h.log, by simp [h.hist], fun _ => rfl⟩) fun _ => .emit

/-- Once a stable state is recorded the current states agree. -/
theorem shifts_finish_state {f : Nat} {v : Vid} {s t : Mem} (h : Later p b s t) (hok : (finish m f v t).2 = .ok ()) :
    Later p true (finish m f v s).1 (finish m f v t).1 := by
  have hs := (shifts_finish (m := m) (f := f) (v := v)).run s t h
  refine ⟨hs.1.log, hs.1.hist, fun _ => ?_⟩
  revert hok
  unfold finish
  cases m.parent v with
  | none => intro h; cases h
  | some q =>
    dsimp only
    cases hd : deepTargets m f q [] with
    | stop c =>
      intro h
      cases h
    | ok ks => intro _; rfl

theorem shifts_compound {f : Nat} {cr : Bool} (hb : cr = true ∨ b = true) :
    Shifts p b (compound m env f e cr) (compound m (since env p) f e cr) := by
  unfold compound
  cases cr with
  | true => exact .bind (shifts_segLoop _ _ _ _ _ _) fun r => .bind shifts_finish fun _ => .pure
  | false =>
    have hb : b = true := by simpa using hb
    refine .get fun s t hs => ?_
    rw [hs.state hb]
    cases t.state with
    | none => exact .stop
    | some cs =>
      refine .bind (shifts_searchUp _ _) fun r => ?_
      match r with
      | none => exact .stop
      | some (v, tr) =>
        dsimp only
        cases tr.target with
        | none => exact .bind shifts_pushAct fun al => .bind (shifts_exec _) fun _ => .pure
        | some w => exact .bind (shifts_segLoop _ _ _ _ _ _) fun r => .bind shifts_finish fun _ => .pure

theorem creation_state {f : Nat} {s t s' t' : Mem} {c c' : Bool} (h : Later p b s t)
    (hs : compound m env f e true s = (s', .ok c')) (ht : compound m (since env p) f e true t = (t', .ok c)) :
    Later p true s' t' := by
  have hl := (shifts_segLoop (p := p) (b := b) (m := m) (env := env) (e := e) (cr := true) (cs := m.istate) f false m.istate m.istate
    m.iaction false).run s t h
  have hs : Eng.bind _ _ s = _ := hs
  have ht : Eng.bind _ _ t = _ := ht
  unfold Eng.bind at hs ht
  rcases hx : segLoop m env e true m.istate f false m.istate m.istate m.iaction false s with ⟨s1, r | c⟩ <;>
    rcases hy : segLoop m (since env p) e true m.istate f false m.istate m.istate m.iaction false t with ⟨t1, r' | d⟩ <;>
    rw [hx, hy] at hl <;> rw [hx] at hs <;> rw [hy] at ht <;> simp at hl hs ht
  obtain ⟨hl, rfl⟩ := hl
  have hs : Eng.bind _ _ s1 = _ := hs
  have ht : Eng.bind _ _ t1 = _ := ht
  unfold Eng.bind at hs ht
  have hf := shifts_finish_state (m := m) (f := f) (v := r.1) hl
  rcases hx2 : finish m f r.1 s1 with ⟨s2, x | c⟩ <;> rcases hy2 : finish m f r.1 t1 with ⟨t2, y | d⟩ <;>
    rw [hx2] at hs <;> rw [hy2] at ht <;> simp at hs ht
  rw [hx2, hy2] at hf
  have hs : (Pure.pure r.2 : Eng Bool) s2 = _ := hs
  have ht : (Pure.pure r.2 : Eng Bool) t2 = _ := ht
  cases hs; cases ht
  exact hf rfl

theorem shifts_passes : ∀ f e, Shifts p true (passes m env f e false) (passes m (since env p) f e false)
  | 0, _ => .stop
  | f + 1, e => by
    unfold passes
    refine .bind (shifts_compound (.inr rfl)) fun c => ?_
    cases c with
    | false => exact .pure
    | true => exact shifts_passes f _

/-- Creation does not depend on the current state. -/
theorem creation_later {f : Nat} {s t : Mem} (h : Later p b s t) :
    Later p b (passes m env f e true s).1 (passes m (since env p) f e true t).1 ∧
    (passes m env f e true s).2 = (passes m (since env p) f e true t).2 ∧
    ((passes m (since env p) f e true t).2 = .ok () →
      Later p true (passes m env f e true s).1 (passes m (since env p) f e true t).1) := by
  cases f with
  | zero => exact ⟨h, rfl, fun h => by cases h⟩
  | succ f =>
    have hc := (shifts_compound (p := p) (m := m) (env := env) (e := e) (f := f) (b := b) (cr := true) (.inl rfl)).run s t h
    unfold passes
    show Later p b (Eng.bind _ _ s).1 (Eng.bind _ _ t).1 ∧ (Eng.bind _ _ s).2 = (Eng.bind _ _ t).2 ∧
      ((Eng.bind _ _ t).2 = _ → Later p true (Eng.bind _ _ s).1 (Eng.bind _ _ t).1)
    unfold Eng.bind
    rcases hx : compound m env f e true s with ⟨s1, c | d⟩ <;>
      rcases hy : compound m (since env p) f e true t with ⟨t1, c' | d'⟩ <;> rw [hx, hy] at hc <;> simp at hc ⊢
    · obtain ⟨hc, rfl⟩ := hc
      have h1 := creation_state h hx hy
      cases c with
      | false => exact ⟨hc, rfl, fun _ => h1⟩
      | true =>
        have h2 := (shifts_passes (m := m) (env := env) f sigCompletion).run _ _ h1
        exact ⟨h2.1.weaken, h2.2, fun _ => h2.1⟩
    · exact hc

theorem shifts_op {f : Nat} {o : Op} : Shifts p true (op m env f o) (op m (since env p) f o) := by
  cases o with
  | dispatch e =>
    show Shifts p true (dispatch m env f e) (dispatch m (since env p) f e)
    unfold dispatch
    cases e == sigCreation with
    | false => exact shifts_passes f e
    | true => exact ⟨fun s t h => ⟨(creation_later h).1, (creation_later h).2.1⟩⟩
  | clearHistory h =>
    show Shifts p true (clearHistory h) (clearHistory h)
    exact .bind (.modify fun s t hs => ⟨hs.log, by simp [hs.hist], hs.state⟩) fun _ => .emit

theorem shifts_calls : ∀ (os : List (Op × Nat)) (s t : Mem), Later p true s t →
    Later p true (calls m env os s).1 (calls m (since env p) os t).1 ∧
    (calls m env os s).2 = (calls m (since env p) os t).2
  | [], s, t, h => ⟨h, rfl⟩
  | (o, f) :: os, s, t, h => by
    have h1 := (shifts_op (m := m) (env := env) (f := f) (o := o)).run s t h
    unfold calls
    rcases hx : op m env f o s with ⟨s1, a⟩
    rcases hy : op m (since env p) f o t with ⟨t1, a'⟩
    rw [hx, hy] at h1
    obtain ⟨h1, h2⟩ := h1
    dsimp only at h1 h2
    subst h2
    have h3 := shifts_calls os s1 t1 h1
    match a with
    | .ok () => exact ⟨h3.1, by simp [h3.2]⟩
    | .stop (.rc c) => exact ⟨h3.1, by simp [h3.2]⟩
    | .stop .ub => exact ⟨h1, rfl⟩
    | .stop .fuel => exact ⟨h1, rfl⟩
    | .stop .assert => exact ⟨h1, rfl⟩

end Verif.SM
