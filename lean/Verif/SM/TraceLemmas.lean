import Verif.SM.TraceSpec
/-
The engine with trace calls does the same as the engine without; its records can be read back.
-/
namespace Verif.SM.Traced
open Eng TEng Spec

/-! ## Erasure -/

/-- `t` without its records, and with its result mapped by `g`, is `x`. -/
structure Erases {α β : Type} (g : α → β) (t : TEng α) (x : Eng β) : Prop where
  run : ∀ s, x s.mem = ((t s).1.mem, match (t s).2 with | .ok a => .ok (g a) | .stop c => .stop c)

theorem Erases.quiet {α : Type} (x : Eng α) : Erases id (TEng.quiet x) x := by
  constructor
  intro s
  simp only [TEng.quiet]
  rcases h : x s.mem with ⟨m, a | c⟩ <;> rfl

theorem Erases.quiet' {α β : Type} (g : α → β) (c : Stop) : Erases g (TEng.quiet (Eng.stop c)) (Eng.stop c) :=
  ⟨fun _ => rfl⟩

theorem Erases.pure {α β : Type} (g : α → β) (a : α) : Erases g (Pure.pure a) (Pure.pure (g a)) := ⟨fun _ => rfl⟩

theorem Erases.say {α β : Type} {g : α → β} (r : TRec) {t : TEng α} {x : Eng β} (h : Erases g t x) :
    Erases g (TEng.say r >>= fun _ => t) x := ⟨fun s => h.run ⟨s.mem, s.trc ++ [r]⟩⟩

theorem Erases.bind {α β γ δ : Type} {g : α → β} {k : γ → δ} {t : TEng α} {x : Eng β} {u : α → TEng γ} {y : β → Eng δ}
    (h1 : Erases g t x) (h2 : ∀ a, Erases k (u a) (y (g a))) : Erases k (t >>= u) (x >>= y) := by
  constructor
  intro s
  have e1 := h1.run s
  show Eng.bind x y s.mem = ((TEng.bind t u s).1.mem, match (TEng.bind t u s).2 with | .ok a => .ok (k a) | .stop c => .stop c)
  unfold Eng.bind TEng.bind
  rw [e1]
  rcases h : t s with ⟨s1, a | c⟩
  · exact (h2 a).run s1
  · rfl

theorem erase_findTrn (env : Env) (e : Sig) : ∀ l, Erases id (tFindTrn env e l) (findTrn env e l)
  | [] => Erases.pure _ _
  | t :: ts => by
    unfold tFindTrn findTrn
    by_cases h0 : t.event = sigAny
    · rw [if_pos h0, if_pos h0]; exact Erases.pure id _
    rw [if_neg h0, if_neg h0]
    by_cases h : t.event = e
    · rw [if_pos h, if_pos h]
      refine Erases.bind (Erases.quiet _) fun b => ?_
      cases b
      · exact Erases.say _ (erase_findTrn env e ts)
      · exact Erases.pure _ _
    · rw [if_neg h, if_neg h]
      exact erase_findTrn env e ts

theorem erase_exec (e : Sig) : ∀ l, Erases id (tExec e l) (exec e l)
  | [] => Erases.pure _ _
  | a :: as => by
    unfold tExec exec
    refine Erases.bind (Erases.quiet _) fun _ => ⟨fun s => ?_⟩
    exact (erase_exec e as).run ⟨s.mem, s.trc ++ [.exe .eff s.mem.state a]⟩

theorem erase_searchUp (m : Machine) (env : Env) (e : Sig) : ∀ f s, Erases id (tSearchUp m env e f s) (searchUp m env e f s)
  | 0, _ => Erases.quiet _
  | f + 1, s => by
    unfold tSearchUp searchUp
    cases m.trtbl s with
    | none => exact Erases.quiet _
    | some tbl =>
      refine Erases.bind (erase_findTrn ..) fun r => ?_
      cases r with
      | some t => exact Erases.pure _ _
      | none =>
        simp only [id]
        cases m.parent s with
        | none => exact Erases.quiet _
        | some p =>
          cases p with
          | none => exact Erases.pure id _
          | some p => exact erase_searchUp m env e f _

theorem erase_pushAct (m : Machine) (al : List Act) (a : Option Act) : Erases id (tPushAct m al a) (pushAct m al a) := by
  unfold tPushAct pushAct
  cases addAct m al a with
  | none => exact Erases.say _ (Erases.quiet _)
  | some l => exact Erases.pure id _

theorem erase_findLca (m : Machine) (stx : Vid) (f : Nat) (n : Option Vid) :
    Erases id (tFindLca m stx f n) (lift (findLca m stx f n [])) := by
  unfold tFindLca
  split
  · rename_i h; rw [h]; exact Erases.say _ (Erases.quiet' _ _)
  · rename_i h; rw [h]; exact Erases.say _ (Erases.quiet' _ _)
  · exact Erases.quiet _

theorem Erases.assoc {α β γ δ : Type} {g : γ → δ} {t : TEng γ} {x : Eng α} {y : α → Eng β} {z : β → Eng δ}
    (h : Erases g t ((x >>= y) >>= z)) : Erases g t (x >>= fun a => y a >>= z) := by
  have e : (x >>= fun a => y a >>= z) = ((x >>= y) >>= z) := by
    funext s
    show Eng.bind x (fun a => Eng.bind (y a) z) s = Eng.bind (Eng.bind x y) z s
    unfold Eng.bind
    rcases x s with ⟨s1, a | c⟩ <;> rfl
  rw [e]; exact h

theorem erase_exit1 (m : Machine) (fn : Fns) (x : Vid) :
    Erases id (tExit m fn x) (do emit (.exit x); updShallow m x) := by
  unfold tExit
  refine Erases.bind (Erases.quiet _) fun _ => ?_
  have := Erases.bind (k := id) (Erases.quiet (updShallow m x)) (u := fun _ => TEng.say (.exState x))
    (y := fun _ => pure ()) (fun _ => ⟨fun s => rfl⟩)
  have hb : (updShallow m x >>= fun _ => pure ()) = updShallow m x := by
    funext s
    show Eng.bind _ _ _ = _
    unfold Eng.bind
    rcases updShallow m x s with ⟨s1, a | c⟩ <;> rfl
  rw [hb] at this
  constructor
  intro s
  cases hx : fn.ex x with
  | none => exact this.run s
  | some a => exact this.run ⟨s.mem, s.trc ++ [.exe .ex (some x) a]⟩

theorem erase_exit {β γ : Type} {g : γ → β} (m : Machine) (fn : Fns) (x : Vid) {t : TEng γ} {y : Eng β} (h : Erases g t y) :
    Erases g (tExit m fn x >>= fun _ => t) (do emit (.exit x); updShallow m x; y) :=
  Erases.assoc (Erases.bind (erase_exit1 m fn x) fun _ => h)

theorem erase_exits (m : Machine) (fn : Fns) (ts : Vid) : ∀ f ix st ent,
    Erases Prod.fst (tExits m fn ts f ix st ent) (exits m ts f ix st ent)
  | 0, _, _, _ => Erases.quiet' _ _
  | _ + 1, ix, none, ent => Erases.pure Prod.fst (ent, ix)
  | f + 1, ix, some x, ent => by
    unfold tExits exits
    refine Erases.bind (erase_findLca ..) fun r => ?_
    obtain ⟨b, ent'⟩ := r
    cases b
    · refine erase_exit m fn x ?_
      cases m.parent x with
      | none => exact Erases.quiet' _ _
      | some p => exact erase_exits m fn ts f (ix + 1) _ ent'
    · cases ix
      · refine erase_exit m fn x ?_
        by_cases h : ent'.length < m.maxDepth
        · simp only [h, if_true]
          exact Erases.pure Prod.fst (ent' ++ [x], 1)
        · simp only [h, if_false]
          exact Erases.quiet' _ _
      · exact Erases.pure Prod.fst (ent', _)

theorem erase_enter (m : Machine) (fn : Fns) : ∀ l c, Erases id (tEnter m fn l c) (enter m l c)
  | [], c => Erases.pure _ _
  | s :: ss, _ => by
    unfold tEnter enter
    have e : Erases id (tEntry fn s) (emit (.entry s)) := by
      constructor
      intro st
      unfold tEntry
      cases hx : fn.en s with
      | none => rfl
      | some a => rfl
    exact Erases.bind e fun _ => erase_enter m fn ss _

theorem erase_takeBranch (m : Machine) (env : Env) (e : Sig) (tbl : List Tr) (al : List Act) :
    Erases id (tTakeBranch m env e tbl al) (takeBranch m env e tbl al) := by
  unfold tTakeBranch takeBranch
  refine Erases.bind (Erases.quiet _) fun r => ?_
  cases r with
  | none => exact Erases.say _ (Erases.quiet' _ _)
  | some t =>
    refine Erases.bind (erase_pushAct ..) fun al => ?_
    cases t.target with
    | none => exact Erases.quiet' _ _
    | some v => exact Erases.pure id _

theorem erase_takeHist (m : Machine) (env : Env) (e : Sig) (h : Vid) (par : Option Vid) (trn : Tr) (al : List Act) :
    Erases id (tTakeHist m env e h par trn al) (takeHist m env e h par trn al) := by
  unfold tTakeHist takeHist
  cases par with
  | none => exact Erases.quiet' _ _
  | some p =>
    simp only
    cases m.vert p with
    | none => exact Erases.quiet' _ _
    | some v =>
      cases v with
      | composite _ _ _ _ hp =>
        simp only
        split
        · exact Erases.quiet' _ _
        · refine Erases.bind (Erases.quiet _) fun mem => ?_
          simp only [id]
          cases mem.hist h with
          | some v => exact Erases.pure id _
          | none =>
            cases trn.target with
            | none => exact Erases.pure id _
            | some v =>
              refine Erases.bind (Erases.quiet _) fun b => ?_
              cases b
              · exact Erases.say _ (Erases.quiet' _ _)
              · exact Erases.bind (erase_pushAct ..) fun al => Erases.pure id _
      | _ => exact Erases.quiet' _ _

theorem erase_resolve (m : Machine) (env : Env) (e : Sig) (micro : Bool) : ∀ f stn ets al,
    Erases id (tResolve m env e micro f stn ets al) (resolve m env e micro f stn ets al)
  | 0, _, _, _ => Erases.quiet' _ _
  | f + 1, stn, ets, al => by
    unfold tResolve resolve
    cases m.vert ets with
    | none => exact Erases.quiet' _ _
    | some v =>
      cases v with
      | choice tbl =>
        exact Erases.bind (erase_exec ..) fun _ => Erases.bind (erase_takeBranch ..) fun r =>
          Erases.bind (Erases.quiet _) fun _ => Erases.say _ (erase_resolve m env e micro f _ _ _)
      | cond tbl =>
        exact Erases.bind (erase_takeBranch ..) fun r =>
          Erases.bind (Erases.quiet _) fun _ => Erases.say _ (erase_resolve m env e micro f _ _ _)
      | hist d par trn =>
        exact Erases.bind (erase_takeHist ..) fun r =>
          Erases.bind (Erases.quiet _) fun _ => Erases.say _ (erase_resolve m env e micro f _ _ _)
      | unknown => exact Erases.say _ (Erases.quiet _)
      | _ => exact Erases.pure id _

theorem Erases.map_right {α β : Type} (t : Eng α) (b : β) :
    Erases Prod.fst (TEng.quiet t >>= fun l => (Pure.pure (l, b) : TEng _)) t := by
  constructor
  intro s
  have e : (TEng.quiet t >>= fun l => (Pure.pure (l, b) : TEng _)) s =
      ({ s with mem := (t s.mem).1 }, match (t s.mem).2 with | Ans.ok a => Ans.ok (a, b) | Ans.stop c => Ans.stop c) := by
    show TEng.bind _ _ _ = _
    unfold TEng.bind TEng.quiet
    rcases t s.mem with ⟨m, a | c⟩ <;> rfl
  rw [e]
  rcases t s.mem with ⟨m, a | c⟩ <;> rfl

theorem erase_stage4 (m : Machine) (fn : Fns) (f : Nat) (creation micro : Bool) (cs stn ts : Vid) (nEx : Nat) :
    Erases Prod.fst (tStage4 m fn f creation micro cs stn ts nEx) (stage4 m f creation micro cs stn ts) := by
  unfold tStage4 stage4
  cases micro <;> cases creation
  · exact erase_exits ..
  · exact Erases.map_right _ _
  · exact Erases.map_right _ _
  · exact Erases.map_right _ _

theorem erase_segLoop (m : Machine) (fn : Fns) (env : Env) (e : Sig) (creation : Bool) (cs : Vid) :
    ∀ f micro stn ets ta compl nEn nEx,
      Erases Prod.fst (tSegLoop m fn env e creation cs f micro stn ets ta compl nEn nEx)
        (segLoop m env e creation cs f micro stn ets ta compl)
  | 0, _, _, _, _, _, _, _ => Erases.quiet' _ _
  | f + 1, micro, stn, ets, ta, compl, nEn, nEx => by
    unfold tSegLoop segLoop
    refine Erases.bind (erase_pushAct ..) fun al => Erases.say _ <| Erases.bind (erase_resolve ..) fun r =>
      Erases.bind (erase_stage4 ..) fun x => Erases.bind (erase_exec ..) fun _ => Erases.bind (erase_enter ..) fun c => ?_
    simp only [id]
    cases m.comp r.2.1 with
    | some d => exact erase_segLoop m fn env e creation cs f _ _ _ _ _ _ _
    | none =>
      obtain ⟨ent, n⟩ := x
      cases ent
      · exact Erases.quiet' _ _
      · rename_i s l
        exact Erases.pure Prod.fst ((s, c), nEn + (s :: l).length, n)

theorem erase_finish (m : Machine) (f : Nat) (r : (Vid × Bool) × Nat × Nat) :
    Erases id (tFinish m f r) (do finish m f r.1.1; pure r.1.2) := by
  unfold tFinish
  exact Erases.say _ (Erases.bind (Erases.quiet _) fun _ => Erases.say _ (Erases.say _ (Erases.pure id _)))

theorem erase_compound (m : Machine) (fn : Fns) (env : Env) (f : Nat) (e : Sig) (creation : Bool) :
    Erases id (tCompound m fn env f e creation) (compound m env f e creation) := by
  unfold tCompound compound
  cases creation
  · refine Erases.bind (Erases.quiet _) fun mem => ?_
    simp only [id]
    cases mem.state with
    | none => exact Erases.quiet' _ _
    | some cs =>
      refine Erases.bind (erase_searchUp ..) fun r => Erases.say _ ?_
      obtain _ | ⟨s, t⟩ := r
      · exact Erases.say _ (Erases.quiet' _ _)
      · unfold tTake
        refine Erases.say _ ?_
        simp only [id]
        cases t.target with
        | none => exact Erases.bind (erase_pushAct ..) fun al => Erases.bind (erase_exec ..) fun _ =>
            Erases.say _ (Erases.pure id _)
        | some v => exact Erases.bind (erase_segLoop ..) fun r => erase_finish m f r
  · exact Erases.say _ (Erases.bind (erase_segLoop ..) fun r => erase_finish m f r)

theorem erase_passes (m : Machine) (fn : Fns) (env : Env) : ∀ f e creation,
    Erases id (tPasses m fn env f e creation) (passes m env f e creation)
  | 0, _, _ => Erases.quiet' _ _
  | f + 1, e, creation => by
    unfold tPasses passes
    refine Erases.bind (erase_compound ..) fun c => ?_
    cases c
    · exact Erases.pure id _
    · exact erase_passes m fn env f _ _

theorem erase_op (m : Machine) (fn : Fns) (env : Env) (f : Nat) (o : Op) : Erases id (tOp m fn env f o) (op m env f o) := by
  cases o with
  | clearHistory h => exact Erases.quiet _
  | dispatch e =>
    show Erases id (tDispatch m fn env f e) (dispatch m env f e)
    unfold tDispatch dispatch
    cases h : e == sigCreation
    · exact erase_passes m fn env f e false
    · exact Erases.say _ (erase_passes m fn env f e true)

/-- The engine with trace calls goes through the same data and gives the same results. -/
theorem erase_calls (m : Machine) (fn : Fns) (env : Env) : ∀ os s,
    calls m env os s.mem = ((tCalls m fn env os s).1.mem, (tCalls m fn env os s).2)
  | [], s => rfl
  | (o, f) :: os, s => by
    have h := (erase_op m fn env f o).run s
    simp only [calls, tCalls]
    rw [h]
    rcases hr : tOp m fn env f o s with ⟨s1, a | c⟩
    · have := erase_calls m fn env os s1
      simp only [this]
    · cases c with
      | rc c => have := erase_calls m fn env os s1; simp only [this]
      | _ => rfl

/-! ## Reading the records -/

theorem read_append (m : Machine) (fn : Fns) : ∀ (a b : List TRec) (r : Reader), r.read m fn (a ++ b) =
    match r.read m fn a with
    | none => none
    | some (r1, os) => (r1.read m fn b).map fun x => (x.1, os ++ x.2)
  | [], b, r => by simp only [List.nil_append, Reader.read]; cases r.read m fn b <;> simp
  | t :: a, b, r => by
    simp only [List.cons_append, Reader.read]
    cases h : r.step m fn t with
    | none => rfl
    | some x =>
      simp only []
      rw [read_append m fn a b x.1]
      cases h1 : x.1.read m fn a with
      | none => rfl
      | some y => simp only [Option.map_some]; cases y.1.read m fn b <;> simp

/-- What of a program's behaviour a trace can show. -/
def vis (l : List Obs) : List Obs := l.filter visible

/-- From `s` to `s'`, a reader that knows `r` reads the new records, comes to know `r'` and tells what has happened. -/
def Told (m : Machine) (fn : Fns) (s s' : TMem) (r r' : Reader) : Prop :=
  ∃ recs obs, s'.trc = s.trc ++ recs ∧ r.read m fn recs = some (r', obs) ∧ vis s'.mem.log = vis s.mem.log ++ obs

theorem Told.refl (m : Machine) (fn : Fns) (s : TMem) (r : Reader) : Told m fn s s r r := ⟨[], [], by simp, rfl, by simp⟩

theorem Told.trans {m : Machine} {fn : Fns} {s1 s2 s3 : TMem} {r1 r2 r3 : Reader} (h1 : Told m fn s1 s2 r1 r2) (h2 : Told m fn s2 s3 r2 r3) :
    Told m fn s1 s3 r1 r3 := by
  obtain ⟨a, o, e1, e2, e3⟩ := h1
  obtain ⟨b, p, f1, f2, f3⟩ := h2
  refine ⟨a ++ b, o ++ p, by rw [f1, e1, List.append_assoc], ?_, by rw [f3, e3, List.append_assoc]⟩
  rw [read_append, e2]
  simp [f2]

/-- What a reader knows agrees with the machine. -/
def Knows (r : Reader) (s : Mem) : Prop := r.pend = none ∧ (r.cur = s.state)

/-- Started by a reader that knows the state and `p`, the piece keeps the reader informed, and if it ends normally the
reader then knows `q`. -/
structure Tells {α : Type} (m : Machine) (fn : Fns) (p : Reader → Prop) (t : TEng α) (q : α → Reader → Prop) : Prop where
  run : ∀ s r, Knows r s.mem → p r → ∀ s' a, t s = (s', a) → a ≠ .stop .ub →
    ∃ r', Told m fn s s' r r' ∧ Knows r' s'.mem ∧ (∀ x, a = .ok x → q x r')

theorem Tells.bind {α β : Type} {m : Machine} {fn : Fns} {p : Reader → Prop} {t : TEng α} {q : α → Reader → Prop} {k : α → TEng β}
    {q' : β → Reader → Prop} (h1 : Tells m fn p t q) (h2 : ∀ a, Tells m fn (q a) (k a) q') : Tells m fn p (t >>= k) q' := by
  constructor
  intro s r hk hp s' a hrun hub
  have hrun : TEng.bind t k s = (s', a) := hrun
  unfold TEng.bind at hrun
  rcases h : t s with ⟨s1, x | c⟩
  · rw [h] at hrun
    obtain ⟨r1, t1, k1, q1⟩ := h1.run s r hk hp s1 (.ok x) h (by simp)
    obtain ⟨r2, t2, k2, q2⟩ := (h2 x).run s1 r1 k1 (q1 x rfl) s' a hrun hub
    exact ⟨r2, t1.trans t2, k2, q2⟩
  · rw [h] at hrun
    simp only [Prod.mk.injEq] at hrun
    obtain ⟨rfl, rfl⟩ := hrun
    obtain ⟨r1, t1, k1, _⟩ := h1.run s r hk hp s1 (.stop c) h (by simpa using hub)
    exact ⟨r1, t1, k1, fun x hx => by simp at hx⟩

theorem Tells.pure {α : Type} {m : Machine} {fn : Fns} {p : Reader → Prop} {q : α → Reader → Prop} (a : α) (h : ∀ r, p r → q a r) :
    Tells m fn p (Pure.pure a) q := by
  constructor
  intro s r hk hp s' b hrun _
  have hrun : (s, Ans.ok a) = (s', b) := hrun
  simp only [Prod.mk.injEq] at hrun
  obtain ⟨rfl, rfl⟩ := hrun
  exact ⟨r, Told.refl _ _ _ _, hk, fun x hx => by simp only [Ans.ok.injEq] at hx; subst hx; exact h r hp⟩

theorem Tells.weaken {α : Type} {m : Machine} {fn : Fns} {p p' : Reader → Prop} {t : TEng α} {q q' : α → Reader → Prop}
    (h : Tells m fn p t q) (hp : ∀ r, p' r → p r) (hq : ∀ a r, q a r → q' a r) : Tells m fn p' t q' := by
  constructor
  intro s r hk hp' s' a hrun hub
  obtain ⟨r', t', k', q1⟩ := h.run s r hk (hp r hp') s' a hrun hub
  exact ⟨r', t', k', fun x hx => hq _ _ (q1 x hx)⟩

/-- A piece that neither changes the state nor does anything visible. -/
def Silent {α : Type} (x : Eng α) : Prop := ∀ m, (x m).1.state = m.state ∧ vis (x m).1.log = vis m.log

theorem Tells.quiet {α : Type} {m : Machine} {fn : Fns} {p : Reader → Prop} {q : α → Reader → Prop} {x : Eng α} (hx : Silent x)
    (h : ∀ s a r, (x s).2 = .ok a → p r → q a r) : Tells m fn p (TEng.quiet x) q := by
  constructor
  intro s r hk hp s' a hrun _
  have hrun : (({ s with mem := (x s.mem).1 } : TMem), (x s.mem).2) = (s', a) := hrun
  simp only [Prod.mk.injEq] at hrun
  obtain ⟨rfl, rfl⟩ := hrun
  refine ⟨r, ⟨[], [], by simp, rfl, by simpa using (hx s.mem).2⟩, ⟨hk.1, ?_⟩, fun a ha => h s.mem a r ha hp⟩
  rw [hk.2]; exact (hx s.mem).1.symm

theorem Tells.stop {α : Type} {m : Machine} {fn : Fns} {p : Reader → Prop} {q : α → Reader → Prop} (c : Stop) :
    Tells m fn p (TEng.quiet (Eng.stop c)) q :=
  Tells.quiet (fun _ => ⟨rfl, rfl⟩) (fun m a r h => by cases h)

theorem Tells.say {m : Machine} {fn : Fns} {p : Reader → Prop} {q : Unit → Reader → Prop} (t : TRec)
    (h : ∀ r, p r → r.pend = none → ∃ r', r.step m fn t = some (r', []) ∧ r'.pend = none ∧ r'.cur = r.cur ∧ q () r') :
    Tells m fn p (TEng.say t) q := by
  constructor
  intro s r hk hp s' a hrun _
  have hrun : (({ s with trc := s.trc ++ [t] } : TMem), Ans.ok ()) = (s', a) := hrun
  simp only [Prod.mk.injEq] at hrun
  obtain ⟨rfl, rfl⟩ := hrun
  obtain ⟨r', h1, h2, h3, h4⟩ := h r hp hk.1
  exact ⟨r', ⟨[t], [], rfl, by simp [Reader.read, h1], by simp⟩, ⟨h2, by rw [h3]; exact hk.2⟩, fun _ _ => h4⟩

theorem silent_evalGuard (env : Env) (e : Sig) (g : Option Guard) : Silent (evalGuard env e g) := by
  intro m
  obtain _ | (_ | g) := g
  · exact ⟨rfl, rfl⟩
  · exact ⟨rfl, rfl⟩
  · refine ⟨rfl, ?_⟩
    show vis (m.log ++ [_]) = _
    simp [vis, visible]

theorem silent_bind {α β : Type} {x : Eng α} {k : α → Eng β} (h1 : Silent x) (h2 : ∀ a, Silent (k a)) :
    Silent (x >>= k) := by
  intro m
  show (Eng.bind x k m).1.state = _ ∧ vis (Eng.bind x k m).1.log = _
  unfold Eng.bind
  have h := h1 m
  rcases hx : x m with ⟨m1, a | c⟩
  · rw [hx] at h
    have := h2 a m1
    exact ⟨this.1.trans h.1, this.2.trans h.2⟩
  · rw [hx] at h; exact h

theorem silent_pure {α : Type} (a : α) : Silent (pure a : Eng α) := fun _ => ⟨rfl, rfl⟩
theorem silent_lift {α : Type} (a : Ans α) : Silent (lift a) := fun _ => ⟨rfl, rfl⟩
theorem silent_stop {α : Type} (c : Stop) : Silent (stop c : Eng α) := fun _ => ⟨rfl, rfl⟩
theorem silent_get : Silent get := fun _ => ⟨rfl, rfl⟩

theorem silent_findBranch (env : Env) (e : Sig) : ∀ l, Silent (findBranch env e l)
  | [] => silent_pure _
  | t :: ts => by
    unfold findBranch
    split
    · exact silent_pure _
    · split
      · exact silent_findBranch env e ts
      · refine silent_bind (silent_evalGuard env e _) fun b => ?_
        cases b
        · exact silent_findBranch env e ts
        · exact silent_pure _

theorem silent_precheck (m : Machine) (f : Nat) (micro : Bool) (a b : Vid) : Silent (precheck m f micro a b) := by
  unfold precheck
  split
  · exact silent_bind (silent_lift _) fun _ => silent_pure _
  · exact silent_pure _

variable {m : Machine} {fn : Fns}

/-- A record that only reports an outcome. -/
theorem tells_note {r0 : Reader} {q : Unit → Reader → Prop} (t : TRec)
    (ht : ∀ r : Reader, r.pend = none → r.step m fn t = some (r, [])) (h : q () r0) :
    Tells m fn (· = r0) (TEng.say t) q :=
  Tells.say t fun r hr hp => ⟨r, ht r hp, hp, rfl, hr ▸ h⟩

theorem Tells.all {α : Type} {p : Reader → Prop} {t : TEng α} {q : α → Reader → Prop}
    (h : ∀ r0, p r0 → Tells m fn (· = r0) t q) : Tells m fn p t q :=
  ⟨fun s r hk hp => (h r hp).run s r hk rfl⟩

theorem tells_findTrn (env : Env) (e : Sig) (r0 : Reader) : ∀ l,
    Tells m fn (· = r0) (tFindTrn env e l) (fun x r => r = r0 ∧ ∀ t, x = some t → t ∈ l ∧ t.event = e)
  | [] => Tells.pure _ fun _ h => ⟨h, by simp⟩
  | t :: ts => by
    have next := Tells.weaken (q' := fun x r => r = r0 ∧ ∀ t', x = some t' → t' ∈ t :: ts ∧ t'.event = e)
      (tells_findTrn env e r0 ts) (fun _ h => h) fun _ _ h =>
        ⟨h.1, fun t ht => ⟨List.mem_cons_of_mem _ (h.2 t ht).1, (h.2 t ht).2⟩⟩
    unfold tFindTrn
    split
    · exact Tells.pure _ fun _ h => ⟨h, by simp⟩
    · split
      · refine Tells.bind (Tells.quiet (silent_evalGuard env e _) (q := fun _ r => r = r0) fun _ _ _ _ h => h) fun b => ?_
        cases b
        · exact Tells.bind (tells_note (q := fun _ r => r = r0) _ (fun r h => by simp [Reader.step, h]) rfl) fun _ => next
        · exact Tells.pure _ fun _ h => ⟨h, by simp_all⟩
      · exact next

theorem tells_exec (e : Sig) (r0 : Reader) (he : r0.evt = e) : ∀ l, Tells m fn (· = r0) (tExec e l) (fun _ r => r = r0)
  | [] => Tells.pure _ fun _ h => h
  | a :: as => by
    constructor
    intro s r hk hr s' x hrun hub
    subst hr
    have hrun : tExec e as ⟨{ s.mem with log := s.mem.log ++ [.act a e] }, s.trc ++ [.exe .eff s.mem.state a]⟩ = (s', x) := hrun
    obtain ⟨r', t', k', q'⟩ := (tells_exec e r he as).run _ r (by exact ⟨hk.1, hk.2⟩) rfl s' x hrun hub
    refine ⟨r', Told.trans ?_ t', k', q'⟩
    refine ⟨[.exe .eff s.mem.state a], [.act a e], rfl, ?_, ?_⟩
    · simp [Reader.read, Reader.step, hk.1, hk.2, he]
    · simp [vis, visible]

theorem tells_searchUp (m : Machine) (env : Env) (e : Sig) (r0 : Reader) : ∀ f s,
    Tells m fn (· = r0) (tSearchUp m env e f s)
      (fun x r => r = r0 ∧ ∀ v t, x = some (v, t) → t ∈ (m.trtbl v).getD [] ∧ t.event = e)
  | 0, _ => Tells.stop _
  | f + 1, s => by
    unfold tSearchUp
    cases ht : m.trtbl s with
    | none => exact Tells.stop _
    | some tbl =>
      refine Tells.bind (tells_findTrn env e r0 _) fun r => ?_
      cases r with
      | some t =>
        refine Tells.pure _ fun _ h => ⟨h.1, fun v t' hv => ?_⟩
        simp only [Option.some.injEq, Prod.mk.injEq] at hv
        obtain ⟨rfl, rfl⟩ := hv
        rw [ht]
        exact h.2 t rfl
      | none =>
        simp only
        refine Tells.all fun r1 h1 => ?_
        obtain ⟨rfl, _⟩ := h1
        split
        · exact Tells.stop _
        · exact Tells.pure _ fun _ h => ⟨h, by simp⟩
        · exact tells_searchUp m env e r1 f _

theorem tells_pushAct (m : Machine) (al : List Act) (a : Option Act) (r0 : Reader) :
    Tells m fn (· = r0) (tPushAct m al a) (fun _ r => r = r0) := by
  unfold tPushAct
  split
  · exact Tells.bind (tells_note (q := fun _ r => r = r0) _ (fun r h => by simp [Reader.step, h]) rfl) fun _ => Tells.stop _
  · exact Tells.pure _ fun _ h => h

theorem findLca_head (m : Machine) (stx ts : Vid) (f : Nat) {b : Bool} {ent : List Vid}
    (h : findLca m stx f (some ts) [] = .ok (b, ent)) : ent.head? = some ts ∨ (ts = stx ∧ b = true ∧ ent = []) := by
  have key : ∀ f n acc b ent, findLca m stx f n acc = .ok (b, ent) → acc ≠ [] → ent.head? = acc.head? := by
    intro f
    induction f with
    | zero => intro n acc b ent h; cases n <;> simp [findLca] at h
    | succ f ih =>
      intro n acc b ent h ha
      cases n with
      | none => simp [findLca] at h; rw [← h.2]
      | some n =>
        simp only [findLca] at h
        split at h
        · simp at h; rw [← h.2]
        · split at h
          · split at h
            · simp at h
            · rename_i p hp
              rw [ih _ _ _ _ h (by simp)]
              cases acc
              · exact absurd rfl ha
              · rfl
          · simp at h
  cases f with
  | zero => simp [findLca] at h
  | succ f =>
    simp only [findLca] at h
    split at h
    · rename_i hc
      simp at h
      exact Or.inr ⟨hc, h.1, h.2⟩
    · split at h
      · split at h
        · simp at h
        · left
          rw [key _ _ _ _ _ h (by simp)]
          rfl
      · simp at h

theorem tells_findLca (m : Machine) (stx : Vid) (f : Nat) (ts : Vid) (r0 : Reader) :
    Tells m fn (· = r0) (tFindLca m stx f (some ts))
      (fun x r => r = r0 ∧ (x.2.head? = some ts ∨ (ts = stx ∧ x.1 = true ∧ x.2 = []))) := by
  unfold tFindLca
  split
  · exact Tells.bind (tells_note (q := fun _ r => r = r0) _ (fun r h => by simp [Reader.step, h]) rfl) fun _ => Tells.stop _
  · exact Tells.bind (tells_note (q := fun _ r => r = r0) _ (fun r h => by simp [Reader.step, h]) rfl) fun _ => Tells.stop _
  · exact Tells.quiet (silent_lift _) fun m0 a r h hr => ⟨hr, findLca_head m stx ts f (b := a.1) (ent := a.2) (by simpa [lift] using h)⟩

theorem updShallow_keeps (m : Machine) (x : Vid) (s : Mem) :
    (updShallow m x s).1.state = s.state ∧ (updShallow m x s).1.log = s.log := by
  unfold updShallow
  show (Eng.bind _ _ s).1.state = _ ∧ (Eng.bind _ _ s).1.log = _
  unfold Eng.bind lift
  cases shallowTarget m x with
  | stop c => exact ⟨rfl, rfl⟩
  | ok o => cases o <;> exact ⟨rfl, rfl⟩

/-- Leaving a state. -/
theorem tells_exit (m : Machine) (x : Vid) (r0 : Reader) :
    Tells m fn (· = r0) (tExit m fn x) (fun _ r => r = { r0 with nEx := r0.nEx + 1 }) := by
  constructor
  intro s r hk hr s' a hrun hub
  subst hr
  obtain ⟨hp, hc⟩ := hk
  let s1 : Mem := { s.mem with log := s.mem.log ++ [.exit x] }
  have hk1 := updShallow_keeps m x s1
  have run : ∀ tr, (match updShallow m x s1 with
      | (s2, .ok _) => ((⟨s2, tr ++ [.exState x]⟩ : TMem), (.ok () : Ans Unit))
      | (s2, .stop c) => (⟨s2, tr⟩, .stop c)) = (s', a) →
      ∃ s2, updShallow m x s1 = (s2, .ok ()) ∧ s' = ⟨s2, tr ++ [.exState x]⟩ := by
    intro tr h
    rcases hu : updShallow m x s1 with ⟨s2, u | c⟩
    · rw [hu] at h
      simp only [Prod.mk.injEq] at h
      exact ⟨s2, rfl, h.1.symm⟩
    · rw [hu] at h
      simp only [Prod.mk.injEq] at h
      exfalso
      apply hub
      rw [← h.2]
      have : (updShallow m x s1).2 = .stop c := by rw [hu]
      unfold updShallow at this
      have this : (Eng.bind (lift (shallowTarget m x)) _ s1).2 = .stop c := this
      unfold Eng.bind lift at this
      cases hs : shallowTarget m x with
      | stop d =>
        rw [hs] at this
        simp only [Ans.stop.injEq] at this
        subst this
        unfold shallowTarget at hs
        repeat' split at hs
        all_goals simp at hs
        all_goals simp [← hs]
      | ok o => rw [hs] at this; cases o <;> cases this
  cases hx : fn.ex x with
  | none =>
    have hrun : (tExit m fn x s) = (s', a) := hrun
    obtain ⟨s2, h2, rfl⟩ := run s.trc (by
      rw [← hrun]
      simp only [tExit, hx]
      show _ = TEng.bind _ _ _
      simp only [TEng.bind, TEng.quiet, emit, Eng.modify]
      show _ = TEng.bind (TEng.quiet (updShallow m x)) (fun _ => TEng.say (.exState x)) ⟨s1, s.trc⟩
      unfold TEng.bind TEng.quiet
      simp only
      rcases updShallow m x s1 with ⟨s2, u | c⟩ <;> rfl)
    rw [h2] at hk1
    refine ⟨{ r with nEx := r.nEx + 1 }, ⟨[.exState x], [.exit x], rfl, ?_, ?_⟩, ⟨hp, hc.trans hk1.1.symm⟩, fun _ _ => rfl⟩
    · simp [Reader.read, Reader.step, hx, hp]
    · have h3 : s2.log = s.mem.log ++ [.exit x] := hk1.2
      simp [h3, vis, visible]
  | some b =>
    have hrun : (tExit m fn x s) = (s', a) := hrun
    obtain ⟨s2, h2, rfl⟩ := run (s.trc ++ [.exe .ex (some x) b]) (by
      rw [← hrun]
      simp only [tExit, hx]
      show _ = TEng.bind _ _ _
      simp only [TEng.bind, TEng.quiet, emit, Eng.modify]
      show _ = TEng.bind (TEng.quiet (updShallow m x)) (fun _ => TEng.say (.exState x)) ⟨s1, s.trc ++ [.exe .ex (some x) b]⟩
      unfold TEng.bind TEng.quiet
      simp only
      rcases updShallow m x s1 with ⟨s2, u | c⟩ <;> rfl)
    rw [h2] at hk1
    refine ⟨{ r with nEx := r.nEx + 1 }, ⟨[.exe .ex (some x) b, .exState x], [.exit x], by simp, ?_, ?_⟩,
      ⟨hp, hc.trans hk1.1.symm⟩, fun _ _ => rfl⟩
    · simp [Reader.read, Reader.step, hx, hp]
    · have h3 : s2.log = s.mem.log ++ [.exit x] := hk1.2
      simp [h3, vis, visible]

theorem tells_exits (m : Machine) (ts : Vid) : ∀ f ix st ent (r0 : Reader), (ent.head? = some ts ∨ ent = []) →
    Tells m fn (· = r0) (tExits m fn ts f ix st ent)
      (fun x r => (∃ k, r = { r0 with nEx := r0.nEx + k } ∧ x.2 = ix + k) ∧ (x.1.head? = some ts ∨ x.1 = []))
  | 0, _, _, _, _, _ => Tells.stop _
  | _ + 1, ix, none, ent, r0, h => Tells.pure _ fun r hr => ⟨⟨0, hr, rfl⟩, h⟩
  | f + 1, ix, some x, _, r0, _ => by
    unfold tExits
    refine Tells.bind (tells_findLca m x f ts r0) fun res => ?_
    obtain ⟨b, ent⟩ := res
    cases b
    · refine Tells.all fun r1 h1 => ?_
      obtain ⟨rfl, h2⟩ := h1
      have h3 : ent.head? = some ts ∨ ent = [] := by
        rcases h2 with h2 | h2
        · exact Or.inl h2
        · exact Or.inr h2.2.2
      refine Tells.bind (tells_exit m x r1) fun _ => ?_
      split
      · exact Tells.stop _
      · refine Tells.weaken (tells_exits m ts f (ix + 1) _ ent _ h3) (fun _ h => h) ?_
        intro a r h
        obtain ⟨⟨k, e1, e2⟩, e3⟩ := h
        refine ⟨⟨k + 1, ?_, by omega⟩, e3⟩
        rw [e1]
        simp only [Reader.mk.injEq, true_and, and_true]
        omega
    · cases ix with
      | zero =>
        refine Tells.all fun r1 h1 => ?_
        obtain ⟨rfl, h2⟩ := h1
        refine Tells.bind (tells_exit m x r1) fun _ => ?_
        split
        · refine Tells.pure _ fun r h => ⟨⟨1, h, rfl⟩, ?_⟩
          left
          rcases h2 with h2 | ⟨h2, _, h3⟩
          · simp only at h2
            show (ent ++ [x]).head? = some ts
            cases ent
            · simp at h2
            · simpa using h2
          · simp only at h3
            subst h3
            rw [h2]; rfl
        · exact Tells.stop _
      | succ ix =>
        refine Tells.pure _ fun r h => ⟨⟨0, h.1, rfl⟩, ?_⟩
        rcases h.2 with h2 | h2
        · exact Or.inl h2
        · exact Or.inr h2.2.2

theorem tells_entry (x : Vid) (r0 : Reader) :
    Tells m fn (· = r0) (tEntry fn x) (fun _ r => r = { r0 with nEn := r0.nEn + 1 }) := by
  constructor
  intro s r hk hr s' a hrun hub
  subst hr
  obtain ⟨hp, hc⟩ := hk
  cases hx : fn.en x with
  | none =>
    have e : tEntry fn x s = (⟨{ s.mem with log := s.mem.log ++ [.entry x] }, s.trc ++ [.enState x]⟩, .ok ()) := by
      simp only [tEntry, hx]; rfl
    rw [e] at hrun
    simp only [Prod.mk.injEq] at hrun
    obtain ⟨rfl, rfl⟩ := hrun
    refine ⟨{ r with nEn := r.nEn + 1 }, ⟨[.enState x], [.entry x], rfl, ?_, ?_⟩, ⟨hp, hc⟩, fun _ _ => rfl⟩
    · simp [Reader.read, Reader.step, hx, hp]
    · simp [vis, visible]
  | some b =>
    have e : tEntry fn x s = (⟨{ s.mem with log := s.mem.log ++ [.entry x] }, s.trc ++ [.exe .en (some x) b] ++ [.enState x]⟩, .ok ()) := by
      simp only [tEntry, hx]; rfl
    rw [e] at hrun
    simp only [Prod.mk.injEq] at hrun
    obtain ⟨rfl, rfl⟩ := hrun
    refine ⟨{ r with nEn := r.nEn + 1 }, ⟨[.exe .en (some x) b, .enState x], [.entry x], by simp, ?_, ?_⟩, ⟨hp, hc⟩, fun _ _ => rfl⟩
    · simp [Reader.read, Reader.step, hx, hp]
    · simp [vis, visible]

theorem tells_enter (m : Machine) : ∀ l c (r0 : Reader),
    Tells m fn (· = r0) (tEnter m fn l c) (fun _ r => r = { r0 with nEn := r0.nEn + l.length })
  | [], _, _ => Tells.pure _ fun _ h => h
  | s :: ss, _, r0 => by
    unfold tEnter
    refine Tells.bind (tells_entry s r0) fun _ => ?_
    refine Tells.weaken (tells_enter m ss _ _) (fun _ h => h) ?_
    intro _ r h
    rw [h]
    simp only [Reader.mk.injEq, List.length_cons, true_and, and_true]
    omega

theorem tells_takeBranch (m : Machine) (env : Env) (e : Sig) (tbl : List Tr) (al : List Act) (r0 : Reader) :
    Tells m fn (· = r0) (tTakeBranch m env e tbl al) (fun _ r => r = r0) := by
  unfold tTakeBranch
  refine Tells.bind (Tells.quiet (silent_findBranch env e _) (q := fun _ r => r = r0) fun _ _ _ _ h => h) fun b => ?_
  cases b with
  | none =>
    exact Tells.bind (tells_note (q := fun _ r => r = r0) _ (fun r h => by simp [Reader.step, h]) rfl) fun _ => Tells.stop _
  | some t =>
    refine Tells.bind (tells_pushAct m al _ r0) fun _ => ?_
    split
    · exact Tells.stop _
    · exact Tells.pure _ fun _ h => h

theorem tells_takeHist (m : Machine) (env : Env) (e : Sig) (h : Vid) (par : Option Vid) (trn : Tr) (al : List Act)
    (r0 : Reader) : Tells m fn (· = r0) (tTakeHist m env e h par trn al) (fun _ r => r = r0) := by
  unfold tTakeHist
  split
  · exact Tells.stop _
  · split
    · split
      · exact Tells.stop _
      · refine Tells.bind (Tells.quiet silent_get (q := fun _ r => r = r0) fun _ _ _ _ h => h) fun mem => ?_
        split
        · exact Tells.pure _ fun _ h => h
        · split
          · exact Tells.pure _ fun _ h => h
          · refine Tells.bind (Tells.quiet (silent_evalGuard env e _) (q := fun _ r => r = r0) fun _ _ _ _ h => h) fun b => ?_
            cases b
            · exact Tells.bind (tells_note (q := fun _ r => r = r0) _ (fun r h => by simp [Reader.step, h]) rfl) fun _ => Tells.stop _
            · exact Tells.bind (tells_pushAct m al _ r0) fun _ => Tells.pure _ fun _ h => h
    · exact Tells.stop _

theorem tells_tsState (v : Vid) (r0 : Reader) :
    Tells m fn (· = r0) (TEng.say (.tsState v)) (fun _ r => r = { r0 with seg := some v }) :=
  Tells.say _ fun r hr hp => ⟨{ r with seg := some v }, by simp [Reader.step, hp], hp, rfl, by rw [hr]⟩

theorem tells_resolve (m : Machine) (env : Env) (e : Sig) (micro : Bool) : ∀ f stn ets al (r0 : Reader), r0.evt = e →
    r0.seg = some ets →
    Tells m fn (· = r0) (tResolve m env e micro f stn ets al) (fun x r => r = { r0 with seg := some x.2.1 })
  | 0, _, _, _, _, _, _ => Tells.stop _
  | f + 1, stn, ets, al, r0, he, hs => by
    have stay : ∀ r : Reader, r = r0 → r = { r0 with seg := some ets } := by
      intro r h; rw [h, ← hs]
    have next : ∀ (v stn' : Vid) (al' : List Act) (stn2 : Vid),
        Tells m fn (· = r0) (do quiet (precheck m f micro v stn'); TEng.say (.tsState v); tResolve m env e micro f stn2 v al')
          (fun x r => r = { r0 with seg := some x.2.1 }) := by
      intro v stn' al' stn2
      refine Tells.bind (Tells.quiet (silent_precheck m f micro v stn') (q := fun _ r => r = r0) fun _ _ _ _ h => h) fun _ => ?_
      refine Tells.bind (tells_tsState v r0) fun _ => ?_
      exact tells_resolve m env e micro f _ v _ { r0 with seg := some v } he rfl
    unfold tResolve
    split
    · exact Tells.stop _
    · exact Tells.pure _ stay
    · exact Tells.pure _ stay
    · exact Tells.pure _ stay
    · exact Tells.bind (tells_exec e r0 he al) fun _ => Tells.bind (tells_takeBranch m env e _ _ r0) fun _ => next _ _ _ _
    · exact Tells.bind (tells_takeBranch m env e _ _ r0) fun _ => next _ _ _ _
    · exact Tells.bind (tells_takeHist m env e _ _ _ _ r0) fun _ => next _ _ _ _
    · exact Tells.bind (tells_note (q := fun _ r => r = r0) _ (fun r h => by simp [Reader.step, h]) rfl) fun _ => Tells.stop _

theorem addTargetLoop_head (m : Machine) (cmp : Option Vid) : ∀ f n acc ent, addTargetLoop m cmp f n acc = .ok ent →
    acc ≠ [] → ent.head? = acc.head?
  | 0, _, _, _, h, _ => by simp [addTargetLoop] at h
  | f + 1, n, acc, ent, h, ha => by
    simp only [addTargetLoop] at h
    split at h
    · simp at h; rw [← h]
    · split at h
      · simp at h
      · split at h
        · split at h
          · simp at h
          · rw [addTargetLoop_head m cmp f _ _ _ h (by simp)]
            cases acc
            · exact absurd rfl ha
            · rfl
        · simp at h

theorem addTarget_head (m : Machine) (f : Nat) (ts : Vid) (cmp : Option Vid) {ent : List Vid}
    (h : addTarget m f ts cmp = .ok ent) : ent.head? = some ts ∨ ent = [] := by
  have key : addTargetLoop m cmp f (some ts) [] = .ok ent → ent.head? = some ts ∨ ent = [] := by
    intro h
    cases f with
    | zero => simp [addTargetLoop] at h
    | succ f =>
      simp only [addTargetLoop] at h
      split at h
      · simp at h; exact Or.inr h
      · split at h
        · split at h
          · simp at h
          · left; rw [addTargetLoop_head m cmp f _ _ _ h (by simp)]; rfl
        · simp at h
  unfold addTarget at h
  split at h
  · simp at h
  · exact key h
  · exact key h
  · exact key h
  · simp at h; exact Or.inr h

theorem tells_stage4 (m : Machine) (f : Nat) (creation micro : Bool) (cs stn ts : Vid) (nEx : Nat) (r0 : Reader)
    (h0 : r0.nEx = nEx) (hm : micro = false → nEx = 0) :
    Tells m fn (· = r0) (tStage4 m fn f creation micro cs stn ts nEx)
      (fun x r => r = { r0 with nEx := x.2 } ∧ (x.1.head? = some ts ∨ x.1 = [])) := by
  have stay : ∀ cmp, Tells m fn (· = r0) (do let l ← quiet (lift (addTarget m f ts cmp)); pure (l, nEx))
      (fun x r => r = { r0 with nEx := x.2 } ∧ (x.1.head? = some ts ∨ x.1 = [])) := by
    intro cmp
    refine Tells.bind (Tells.quiet (silent_lift _) (q := fun l r => r = r0 ∧ (l.head? = some ts ∨ l = []))
      fun _ l r hl hr => ⟨hr, addTarget_head m f ts cmp hl⟩) fun l => ?_
    exact Tells.pure _ fun r h => ⟨by rw [h.1, ← h0], h.2⟩
  unfold tStage4
  split
  · exact stay _
  · exact stay _
  · refine Tells.weaken (tells_exits m ts f 0 (some cs) [] r0 (Or.inr rfl)) (fun _ h => h) ?_
    intro x r h
    obtain ⟨⟨k, e1, e2⟩, e3⟩ := h
    refine ⟨?_, e3⟩
    rw [e1, e2, h0, hm rfl]

theorem tells_segLoop (m : Machine) (env : Env) (e : Sig) (creation : Bool) (cs : Vid) :
    ∀ f micro stn ets ta compl nEn nEx, (micro = false → nEx = 0) →
      Tells m fn (fun r => r.evt = e ∧ r.nEn = nEn ∧ r.nEx = nEx)
        (tSegLoop m fn env e creation cs f micro stn ets ta compl nEn nEx)
        (fun x r => r.seg = some x.1.1 ∧ r.nEn = x.2.1 ∧ r.nEx = x.2.2)
  | 0, _, _, _, _, _, _, _, _ => Tells.stop _
  | f + 1, micro, stn, ets, ta, compl, nEn, nEx, hm => by
    unfold tSegLoop
    refine Tells.all fun r0 h0 => ?_
    obtain ⟨he, hn, hx⟩ := h0
    refine Tells.bind (tells_pushAct m [] ta r0) fun al => ?_
    refine Tells.bind (tells_tsState ets r0) fun _ => ?_
    refine Tells.bind (tells_resolve m env e micro f stn ets al _ he rfl) fun r => ?_
    refine Tells.bind (tells_stage4 m f creation micro cs r.1 r.2.1 nEx _ hx hm) fun x => ?_
    refine Tells.all fun r1 h1 => ?_
    obtain ⟨h1, hh⟩ := h1
    refine Tells.bind (tells_exec e r1 (by rw [h1]; exact he) r.2.2) fun _ => ?_
    refine Tells.bind (tells_enter m x.1.reverse compl r1) fun c => ?_
    split
    · refine Tells.weaken (tells_segLoop m env e creation cs f true _ _ _ c (nEn + x.1.length) x.2 (by simp)) ?_ (fun _ _ h => h)
      intro r h
      rw [h, h1]
      refine ⟨he, ?_, rfl⟩
      simp [hn]
    · split
      · exact Tells.stop _
      · rename_i s l hl
        refine Tells.pure _ fun r h => ?_
        rw [h, h1]
        refine ⟨?_, ?_, rfl⟩
        · simp only [hl] at hh
          rcases hh with hh | hh
          · simp only [List.head?_cons] at hh; exact hh.symm
          · cases hh
        · simp [hn]

theorem tells_finish (m : Machine) (f : Nat) (x : (Vid × Bool) × Nat × Nat) :
    Tells m fn (fun r => r.seg = some x.1.1 ∧ r.nEn = x.2.1 ∧ r.nEx = x.2.2) (tFinish m f x) (fun _ _ => True) := by
  obtain ⟨⟨stn, c⟩, nEn, nEx⟩ := x
  unfold tFinish
  refine Tells.bind (Tells.say _ (q := fun _ r => r.seg = some stn) fun r hr hp => ?_) fun _ => ?_
  · refine ⟨r, ?_, hp, rfl, hr.1⟩
    simp only [Reader.step, hp, hr.2.1, hr.2.2]
    simp
  constructor
  intro s r hk hseg s' a hrun hub
  have hrun : TEng.bind (quiet (finish m f stn)) (fun _ => do TEng.say (.state stn); TEng.say .evtProc; pure c) s = (s', a) := hrun
  unfold TEng.bind TEng.quiet at hrun
  simp only at hrun
  have fin : (∃ h, finish m f stn s.mem = ({ state := some stn, hist := h, log := s.mem.log ++ [.stable stn] }, .ok ())) ∨
      ∃ d, finish m f stn s.mem = (s.mem, .stop d) := by
    unfold finish
    cases m.parent stn with
    | none => exact Or.inr ⟨_, rfl⟩
    | some p =>
      simp only
      show (∃ h, Eng.bind _ _ s.mem = _) ∨ ∃ d, Eng.bind _ _ s.mem = _
      unfold Eng.bind lift
      cases deepTargets m f p [] with
      | stop d => exact Or.inr ⟨d, rfl⟩
      | ok ks => exact Or.inl ⟨_, rfl⟩
  rcases fin with ⟨h, hf⟩ | ⟨d, hf⟩
  · rw [hf] at hrun
    have hrun : ((⟨{ state := some stn, hist := h, log := s.mem.log ++ [.stable stn] }, s.trc ++ [.state stn] ++ [.evtProc]⟩ : TMem),
      (Ans.ok c)) = (s', a) := hrun
    simp only [Prod.mk.injEq] at hrun
    obtain ⟨rfl, rfl⟩ := hrun
    refine ⟨{ r with cur := some stn }, ⟨[.state stn, .evtProc], [.stable stn], by simp, ?_, by simp [vis, visible]⟩,
      ⟨hk.1, rfl⟩, fun _ _ => trivial⟩
    simp [Reader.read, Reader.step, hk.1, hseg]
  · rw [hf] at hrun
    have hrun : (s, (Ans.stop d : Ans Bool)) = (s', a) := hrun
    simp only [Prod.mk.injEq] at hrun
    obtain ⟨rfl, rfl⟩ := hrun
    exact ⟨r, Told.refl _ _ _ _, hk, fun x hx => by simp at hx⟩

theorem tells_trn (src : Vid) (tgt : Option Vid) (e : Sig) (he : explains m e src tgt) :
    Tells m fn (fun r => r.evt = e) (TEng.say (.trn src tgt)) (fun _ r => r.evt = e ∧ r.nEn = 0 ∧ r.nEx = 0) :=
  Tells.say _ fun r hr hp => ⟨{ r with nEn := 0, nEx := 0 }, by simp [Reader.step, hp, hr, he], hp, rfl, hr, rfl, rfl⟩

/-- What follows the record of the transition. -/
def tDo (m : Machine) (fn : Fns) (env : Env) (f : Nat) (e : Sig) (cs : Vid) (v : Vid) (t : Tr) : TEng Bool :=
  match t.target with
  | none => do
    let al ← tPushAct m [] t.action
    tExec e al
    say .evtProc
    pure false
  | some w => do
    let r ← tSegLoop m fn env e false cs f false v w t.action false 0 0
    tFinish m f r

theorem tells_do (m : Machine) (env : Env) (f : Nat) (e : Sig) (cs : Vid) (v : Vid) (t : Tr) :
    Tells m fn (fun r => r.evt = e ∧ r.nEn = 0 ∧ r.nEx = 0) (tDo m fn env f e cs v t) (fun _ _ => True) := by
  unfold tDo
  split
  · refine Tells.all fun r0 h0 => ?_
    refine Tells.bind (tells_pushAct m [] _ r0) fun al => ?_
    refine Tells.bind (tells_exec e r0 h0.1 al) fun _ => ?_
    exact Tells.bind (tells_note (q := fun _ _ => True) _ (fun r h => by simp [Reader.step, h]) trivial) fun _ =>
      Tells.pure _ fun _ _ => trivial
  · exact Tells.bind (tells_segLoop m env e false _ f false _ _ _ _ 0 0 fun _ => rfl) fun x => tells_finish m f x

theorem tells_take (m : Machine) (env : Env) (f : Nat) (e : Sig) (cs : Vid) (x : Option (Vid × Tr))
    (hx : ∀ v t, x = some (v, t) → explains m e v t.target) :
    Tells m fn (fun r => r.evt = e) (tTake m fn env f e cs x) (fun _ _ => True) := by
  obtain _ | ⟨v, t⟩ := x
  · exact Tells.all fun r0 h0 =>
      Tells.bind (Tells.say _ (q := fun _ r => r = r0) fun r hr hp =>
        ⟨r, by subst hr; simp [Reader.step, hp, h0], hp, rfl, hr⟩) fun _ => Tells.stop _
  · exact Tells.bind (tells_trn _ _ e (hx v t rfl)) fun _ => tells_do m env f e cs v t

/-- A pass for an event other than creation, once the current state is read. -/
theorem compound_eq (m : Machine) (env : Env) (f : Nat) (e : Sig) {s : TMem} {cs : Vid} (hs : s.mem.state = some cs) :
    tCompound m fn env f e false s =
      (do let r ← tSearchUp m env e f cs; TEng.say (.dch e cs); tTake m fn env f e cs r : TEng Bool) s := by
  have : tCompound m fn env f e false s = (match s.mem.state with
    | none => (quiet (stop .ub) : TEng Bool)
    | some cs => do let r ← tSearchUp m env e f cs; TEng.say (.dch e cs); tTake m fn env f e cs r) s := rfl
  rw [this, hs]

theorem tells_compound (m : Machine) (env : Env) (f : Nat) (e : Sig) (creation : Bool) (hce : creation = (e == sigCreation)) :
    Tells m fn (fun r => creation = true → r.evt = e) (tCompound m fn env f e creation) (fun _ _ => True) := by
  cases creation with
  | true =>
    simp only [tCompound]
    refine Tells.bind (Tells.weaken (tells_trn _ _ e (by simp at hce; simp [explains, hce])) (fun r h => h trivial) fun _ _ h => h) fun _ => ?_
    exact Tells.bind (tells_segLoop m env e true _ f false _ _ _ _ 0 0 fun _ => rfl) fun x => tells_finish m f x
  | false =>
    constructor
    intro s r hk _ s' a hrun hub
    cases hs : s.mem.state with
    | none =>
      have : tCompound m fn env f e false s = (match s.mem.state with
        | none => (quiet (stop .ub) : TEng Bool)
        | some cs => do let r ← tSearchUp m env e f cs; TEng.say (.dch e cs); tTake m fn env f e cs r) s := rfl
      rw [this, hs] at hrun
      have hrun : (s, (Ans.stop .ub : Ans Bool)) = (s', a) := hrun
      simp only [Prod.mk.injEq] at hrun
      exact absurd hrun.2.symm hub
    | some cs =>
      rw [compound_eq m env f e hs] at hrun
      refine Tells.run (p := (· = r)) (q := fun _ _ => True) ?_ s r hk rfl s' a hrun hub
      refine Tells.bind (tells_searchUp m env e r f cs) fun x => ?_
      refine Tells.all fun r0 h0 => ?_
      obtain ⟨rfl, hx⟩ := h0
      refine Tells.bind (Tells.say _ (q := fun _ r => r.evt = e) fun r1 h1 hp => ?_) fun _ => tells_take m env f e cs x
        fun v t hv => by
          have : e ≠ sigCreation := by simpa using hce
          simp only [explains, this, if_false]
          exact ⟨t, (hx v t hv).1, (hx v t hv).2, rfl⟩
      subst h1
      refine ⟨{ r1 with evt := e }, ?_, hp, rfl, rfl⟩
      have := hk.2
      rw [hs] at this
      simp [Reader.step, hp, this]

theorem tells_passes (m : Machine) (env : Env) : ∀ f e creation, creation = (e == sigCreation) →
    Tells m fn (fun r => creation = true → r.evt = e) (tPasses m fn env f e creation) (fun _ _ => True)
  | 0, _, _, _ => Tells.stop _
  | f + 1, e, creation, hce => by
    unfold tPasses
    refine Tells.bind (tells_compound m env f e creation hce) fun c => ?_
    cases c
    · exact Tells.pure _ fun _ h => h
    · exact Tells.weaken (tells_passes m env f sigCompletion false (by decide)) (fun _ _ h => by cases h) fun _ _ h => h

theorem step_cur {r r' : Reader} {t : TRec} {o : List Obs} (h : r.step m fn t = some (r', o)) (hc : r.cur.isSome = true) :
    r'.cur.isSome = true := by
  cases t with
  | exe k s a =>
    cases k <;> cases s <;> simp only [Reader.step] at h
    all_goals first
      | (split at h
         · simp only [Option.some.injEq, Prod.mk.injEq] at h; rw [← h.1]; exact hc
         · simp at h)
      | simp at h
  | _ =>
    simp only [Reader.step] at h
    split at h
    · simp only [Option.some.injEq, Prod.mk.injEq] at h
      rw [← h.1]
      first | exact hc | rfl
    · simp at h

theorem read_cur : ∀ (l : List TRec) {r r' : Reader} {o : List Obs}, r.read m fn l = some (r', o) → r.cur.isSome = true →
    r'.cur.isSome = true
  | [], r, r', o, h, hc => by simp [Reader.read] at h; rw [← h.1]; exact hc
  | t :: l, r, r', o, h, hc => by
    simp only [Reader.read] at h
    cases hs : r.step m fn t with
    | none => rw [hs] at h; simp at h
    | some x =>
      rw [hs] at h
      simp only at h
      cases hr : x.1.read m fn l with
      | none => rw [hr] at h; simp at h
      | some y =>
        rw [hr] at h
        simp only [Option.map_some, Option.some.injEq, Prod.mk.injEq] at h
        rw [← h.1]
        exact read_cur l hr (step_cur hs hc)

/-- A dispatch that does not run into undefined behaviour keeps the reader informed. -/
theorem tells_dispatch (m : Machine) (env : Env) (f : Nat) (e : Sig) {s s' : TMem} {r : Reader} {a : Ans Unit}
    (hp : r.pend = none)
    (hc : (r.cur = s.mem.state ∧ r.cur.isSome = true) ∨ (e = sigCreation ∧ r.cur = none ∧ s.mem.state = some m.istate))
    (h : tDispatch m fn env f e s = (s', a)) (hub : a ≠ .stop .ub) :
    ∃ r', Told m fn s s' r r' ∧ Knows r' s'.mem ∧ r'.cur.isSome = true := by
  cases hb : e == sigCreation with
  | false =>
    have hc : r.cur = s.mem.state ∧ r.cur.isSome = true := by
      rcases hc with hc | hc
      · exact hc
      · rw [hc.1] at hb; simp at hb
    simp only [tDispatch, hb] at h
    obtain ⟨r', h1, h2, _⟩ := (tells_passes m env f e false hb.symm).run s r ⟨hp, hc.1⟩ (by simp) s' a h hub
    obtain ⟨x, y, z, w, v⟩ := h1
    exact ⟨r', ⟨x, y, z, w, v⟩, h2, read_cur x w hc.2⟩
  | true =>
    simp only [tDispatch, hb] at h
    have h : tPasses m fn env f e true ⟨s.mem, s.trc ++ [.init m.istate]⟩ = (s', a) := h
    have he : e = sigCreation := by simpa using hb
    let r1 : Reader := { r with evt := sigCreation, cur := some (r.cur.getD m.istate) }
    have hc1 : r1.cur = s.mem.state := by
      rcases hc with ⟨h1, h2⟩ | ⟨_, h1, h2⟩
      · rw [← h1]
        cases hx : r.cur with
        | none => rw [hx] at h2; simp at h2
        | some v => simp [r1, hx]
      · rw [h2]; simp [r1, h1]
    obtain ⟨r', h1, h2, _⟩ := (tells_passes (fn := fn) m env f e true hb.symm).run ⟨s.mem, s.trc ++ [.init m.istate]⟩ r1 ⟨hp, hc1⟩
      (fun _ => he.symm) s' a h hub
    obtain ⟨x, y, z, w, v⟩ := h1
    exact ⟨r', Told.trans ⟨[.init m.istate], [], rfl, by simp [Reader.read, Reader.step, hp, r1], by simp⟩ ⟨x, y, z, w, v⟩, h2,
      read_cur x w (by simp [r1])⟩

theorem tells_calls (m : Machine) (env : Env) : ∀ os s r, r.pend = none → r.cur = s.mem.state → r.cur.isSome = true →
    Ans.stop .ub ∉ (tCalls m fn env os s).2 →
    ∃ r', Told m fn s (tCalls m fn env os s).1 r r' ∧ Knows r' (tCalls m fn env os s).1.mem
  | [], s, r, hp, hc, _, _ => ⟨r, Told.refl _ _ _ _, hp, hc⟩
  | (o, f) :: os, s, r, hp, hc, hs, hub => by
    simp only [tCalls] at hub ⊢
    rcases hr : tOp m fn env f o s with ⟨s1, a⟩
    have step : a ≠ .stop .ub → ∃ r1, Told m fn s s1 r r1 ∧ Knows r1 s1.mem ∧ r1.cur.isSome = true := by
      intro ha
      cases o with
      | dispatch e => exact tells_dispatch m env f e hp (Or.inl ⟨hc, hs⟩) hr ha
      | clearHistory h =>
        have hr : ((⟨{ s.mem with hist := setHist s.mem.hist h none, log := s.mem.log ++ [.clear h] }, s.trc⟩ : TMem),
          (Ans.ok () : Ans Unit)) = (s1, a) := hr
        simp only [Prod.mk.injEq] at hr
        rw [← hr.1]
        exact ⟨r, ⟨[], [], by simp, rfl, by simp [vis, visible]⟩, ⟨hp, hc⟩, hs⟩
    rw [hr] at hub
    have go : (a = .ok () ∨ ∃ c, a = .stop (.rc c)) → Ans.stop .ub ∉ (tCalls m fn env os s1).2 →
        ∃ r', Told m fn s (tCalls m fn env os s1).1 r r' ∧ Knows r' (tCalls m fn env os s1).1.mem := by
      intro ha hub
      obtain ⟨r1, h1, h2, h3⟩ := step (by rcases ha with rfl | ⟨c, rfl⟩ <;> simp)
      obtain ⟨r2, g1, g2⟩ := tells_calls m env os s1 r1 h2.1 h2.2 h3 hub
      exact ⟨r2, h1.trans g1, g2⟩
    cases a with
    | ok u =>
      simp only at hub ⊢
      exact go (Or.inl rfl) fun h => hub (List.mem_cons_of_mem _ h)
    | stop c =>
      cases c with
      | rc c =>
        simp only at hub ⊢
        exact go (Or.inr ⟨c, rfl⟩) fun h => hub (List.mem_cons_of_mem _ h)
      | ub => simp at hub
      | fuel => obtain ⟨r1, h1, h2, _⟩ := step (by simp); exact ⟨r1, h1, h2⟩
      | assert => obtain ⟨r1, h1, h2, _⟩ := step (by simp); exact ⟨r1, h1, h2⟩

/-! ## The last record of a dispatch -/

/-- The last record announces the result. -/
def LastSays (s : TMem) (a : Ans Unit) : Prop := s.trc.getLast?.bind announced = some a

/-- If the piece ends with a return code the last record announces it. -/
structure Ends {α : Type} (t : TEng α) : Prop where
  run : ∀ s s' c, t s = (s', .stop (.rc c)) → LastSays s' (.stop (.rc c))

theorem Ends.bind {α β : Type} {t : TEng α} {k : α → TEng β} (h1 : Ends t) (h2 : ∀ a, Ends (k a)) : Ends (t >>= k) := by
  constructor
  intro s s' c h
  have h : TEng.bind t k s = (s', .stop (.rc c)) := h
  unfold TEng.bind at h
  rcases hx : t s with ⟨s1, x | d⟩
  · rw [hx] at h; exact (h2 x).run s1 s' c h
  · rw [hx] at h
    simp only [Prod.mk.injEq, Ans.stop.injEq] at h
    obtain ⟨rfl, rfl⟩ := h
    exact h1.run s s1 c hx

theorem Ends.pure {α : Type} (a : α) : Ends (Pure.pure a : TEng α) := ⟨fun s s' c h => by cases h⟩

theorem Ends.say (r : TRec) : Ends (TEng.say r) := ⟨fun s s' c h => by cases h⟩

/-- Without a return code. -/
def NoRc {α : Type} (x : Eng α) : Prop := ∀ m c, (x m).2 ≠ .stop (.rc c)

theorem Ends.quiet {α : Type} {x : Eng α} (h : NoRc x) : Ends (TEng.quiet x) :=
  ⟨fun s s' c hh => by
    have hh : (({ s with mem := (x s.mem).1 } : TMem), (x s.mem).2) = (s', .stop (.rc c)) := hh
    simp only [Prod.mk.injEq] at hh
    exact absurd hh.2 (h s.mem c)⟩

theorem Ends.stop {α : Type} {d : Stop} (h : ∀ c, d ≠ .rc c) : Ends (TEng.quiet (Eng.stop d) : TEng α) :=
  Ends.quiet fun _ c hh => by cases hh; exact h c rfl

/-- A record and the return code it stands for. -/
theorem Ends.fail {α : Type} {r : TRec} {c : RC} (h : announced r = some (.stop (.rc c))) :
    Ends (do TEng.say r; TEng.quiet (Eng.stop (.rc c)) : TEng α) := by
  constructor
  intro s s' d hh
  have hh : ((⟨s.mem, s.trc ++ [r]⟩ : TMem), (Ans.stop (.rc c) : Ans α)) = (s', .stop (.rc d)) := hh
  simp only [Prod.mk.injEq, Ans.stop.injEq, Stop.rc.injEq] at hh
  obtain ⟨rfl, rfl⟩ := hh
  simp [LastSays, h]

theorem Ends.error {α : Type} {m : Machine} {r : TRec} {c : RC} (h : announced r = some (.stop (.rc c))) :
    Ends (do TEng.say r; TEng.quiet (SM.error m c) : TEng α) := by
  unfold SM.error
  split
  · exact Ends.bind (Ends.say _) fun _ => Ends.stop (by simp)
  · exact Ends.fail h

theorem noRc_lift {α : Type} {a : Ans α} (h : ∀ c, a ≠ .stop (.rc c)) : NoRc (lift a) := fun _ c => h c
theorem noRc_bind {α β : Type} {x : Eng α} {k : α → Eng β} (h1 : NoRc x) (h2 : ∀ a, NoRc (k a)) : NoRc (x >>= k) := by
  intro m c
  show (Eng.bind x k m).2 ≠ _
  unfold Eng.bind
  have := h1 m c
  rcases hx : x m with ⟨m1, a | d⟩
  · exact h2 a m1 c
  · rw [hx] at this; simpa using this
theorem noRc_pure {α : Type} (a : α) : NoRc (Pure.pure a : Eng α) := fun _ _ h => by cases h
theorem noRc_evalGuard (env : Env) (e : Sig) (g : Option Guard) : NoRc (evalGuard env e g) := by
  intro m c h
  obtain _ | (_ | g) := g <;> cases h
theorem noRc_findBranch (env : Env) (e : Sig) : ∀ l, NoRc (findBranch env e l)
  | [] => noRc_pure _
  | t :: ts => by
    unfold findBranch
    split
    · exact noRc_pure _
    · split
      · exact noRc_findBranch env e ts
      · refine noRc_bind (noRc_evalGuard env e _) fun b => ?_
        cases b
        · exact noRc_findBranch env e ts
        · exact noRc_pure _

theorem addTargetLoop_noRc (m : Machine) (cmp : Option Vid) : ∀ f n acc c, addTargetLoop m cmp f n acc ≠ .stop (.rc c)
  | 0, _, _, c => by simp [addTargetLoop]
  | f + 1, n, acc, c => by
    simp only [addTargetLoop]
    split
    · simp
    · split
      · simp
      · split
        · split
          · simp
          · exact addTargetLoop_noRc m cmp f _ _ c
        · simp

theorem addTarget_noRc (m : Machine) (f : Nat) (ts : Vid) (cmp : Option Vid) (c : RC) : addTarget m f ts cmp ≠ .stop (.rc c) := by
  unfold addTarget
  split
  · simp
  · exact addTargetLoop_noRc m cmp f _ _ c
  · exact addTargetLoop_noRc m cmp f _ _ c
  · exact addTargetLoop_noRc m cmp f _ _ c
  · simp

theorem noRc_precheck (m : Machine) (f : Nat) (micro : Bool) (a b : Vid) : NoRc (precheck m f micro a b) := by
  unfold precheck
  split
  · exact noRc_bind (noRc_lift fun c => addTarget_noRc m f a (some b) c) fun _ => noRc_pure _
  · exact noRc_pure _

theorem shallowTarget_noRc (m : Machine) (x : Vid) (c : RC) : shallowTarget m x ≠ .stop (.rc c) := by
  unfold shallowTarget
  repeat' split
  all_goals simp

theorem deepTargets_noRc (m : Machine) : ∀ f n acc c, deepTargets m f n acc ≠ .stop (.rc c)
  | 0, _, _, c => by simp [deepTargets]
  | f + 1, none, acc, c => by simp [deepTargets]
  | f + 1, some n, acc, c => by
    simp only [deepTargets]
    repeat' split
    all_goals first | exact deepTargets_noRc m f _ _ c | simp

theorem noRc_modify (f : Mem → Mem) : NoRc (modify f) := fun _ _ h => by cases h
theorem noRc_emit (o : Obs) : NoRc (emit o) := noRc_modify _

theorem ends_findTrn (env : Env) (e : Sig) : ∀ l, Ends (tFindTrn env e l)
  | [] => Ends.pure _
  | t :: ts => by
    unfold tFindTrn
    split
    · exact Ends.pure _
    · split
      · refine Ends.bind (Ends.quiet (noRc_evalGuard env e _)) fun b => ?_
        cases b
        · exact Ends.bind (Ends.say _) fun _ => ends_findTrn env e ts
        · exact Ends.pure _
      · exact ends_findTrn env e ts

theorem ends_exec (e : Sig) : ∀ l, Ends (tExec e l)
  | [] => Ends.pure _
  | a :: as => by
    unfold tExec
    exact Ends.bind (Ends.quiet (noRc_emit _)) fun _ => Ends.bind (Ends.quiet fun _ _ h => by cases h) fun _ =>
      Ends.bind (Ends.say _) fun _ => ends_exec e as

theorem ends_searchUp (m : Machine) (env : Env) (e : Sig) : ∀ f s, Ends (tSearchUp m env e f s)
  | 0, _ => Ends.stop (by simp)
  | f + 1, s => by
    unfold tSearchUp
    split
    · exact Ends.stop (by simp)
    · refine Ends.bind (ends_findTrn env e _) fun r => ?_
      cases r with
      | some t => exact Ends.pure _
      | none =>
        simp only
        split
        · exact Ends.stop (by simp)
        · exact Ends.pure _
        · exact ends_searchUp m env e f _

theorem ends_pushAct (m : Machine) (al : List Act) (a : Option Act) : Ends (tPushAct m al a) := by
  unfold tPushAct
  split
  · exact Ends.error rfl
  · exact Ends.pure _

theorem findLca_rc (m : Machine) (stx : Vid) : ∀ f n acc c, findLca m stx f n acc = .stop (.rc c) → c = .exHlevel
  | 0, n, _, c, h => by cases n <;> simp [findLca] at h
  | f + 1, none, _, c, h => by simp [findLca] at h
  | f + 1, some n, acc, c, h => by
    simp only [findLca] at h
    split at h
    · simp at h
    · split at h
      · split at h
        · simp at h
        · exact findLca_rc m stx f _ _ c h
      · simp only [Ans.stop.injEq] at h
        split at h
        · cases h
        · cases h; rfl

theorem ends_findLca (m : Machine) (stx : Vid) (f : Nat) (n : Option Vid) : Ends (tFindLca m stx f n) := by
  unfold tFindLca
  split
  · exact Ends.bind (Ends.say _) fun _ => Ends.stop (by simp)
  · rename_i c h
    have := findLca_rc m stx f n [] c h
    subst this
    exact Ends.fail rfl
  · rename_i h1 h2
    exact Ends.quiet (noRc_lift fun c hc => h2 c hc)

theorem ends_exit (m : Machine) (fn : Fns) (x : Vid) : Ends (tExit m fn x) := by
  have tail : Ends (do TEng.quiet (updShallow m x); TEng.say (.exState x)) := by
    refine Ends.bind (Ends.quiet ?_) fun _ => Ends.say _
    unfold updShallow
    refine noRc_bind (noRc_lift fun c => shallowTarget_noRc m x c) fun r => ?_
    cases r
    · exact noRc_pure _
    · exact noRc_modify _
  unfold tExit
  refine Ends.bind (Ends.quiet (noRc_emit _)) fun _ => ?_
  cases fn.ex x with
  | none => exact tail
  | some a => exact Ends.bind (Ends.say _) fun _ => tail

theorem ends_exits (m : Machine) (fn : Fns) (ts : Vid) : ∀ f ix st ent, Ends (tExits m fn ts f ix st ent)
  | 0, _, _, _ => Ends.stop (by simp)
  | _ + 1, ix, none, ent => Ends.pure _
  | f + 1, ix, some x, _ => by
    unfold tExits
    refine Ends.bind (ends_findLca m x f _) fun res => ?_
    obtain ⟨b, ent⟩ := res
    cases b
    · refine Ends.bind (ends_exit m fn x) fun _ => ?_
      split
      · exact Ends.stop (by simp)
      · exact ends_exits m fn ts f _ _ _
    · cases ix with
      | zero =>
        refine Ends.bind (ends_exit m fn x) fun _ => ?_
        split
        · exact Ends.pure _
        · exact Ends.stop (by simp)
      | succ ix => exact Ends.pure _

theorem ends_enter (m : Machine) (fn : Fns) : ∀ l c, Ends (tEnter m fn l c)
  | [], _ => Ends.pure _
  | s :: ss, _ => by
    unfold tEnter
    refine Ends.bind ?_ fun _ => ends_enter m fn ss _
    unfold tEntry
    refine Ends.bind (Ends.quiet (noRc_emit _)) fun _ => ?_
    cases fn.en s with
    | none => exact Ends.say _
    | some a => exact Ends.bind (Ends.say _) fun _ => Ends.say _

theorem ends_takeBranch (m : Machine) (env : Env) (e : Sig) (tbl : List Tr) (al : List Act) :
    Ends (tTakeBranch m env e tbl al) := by
  unfold tTakeBranch
  refine Ends.bind (Ends.quiet (noRc_findBranch env e _)) fun b => ?_
  cases b with
  | none => exact Ends.fail rfl
  | some t =>
    refine Ends.bind (ends_pushAct m al _) fun _ => ?_
    split
    · exact Ends.stop (by simp)
    · exact Ends.pure _

theorem ends_takeHist (m : Machine) (env : Env) (e : Sig) (h : Vid) (par : Option Vid) (trn : Tr) (al : List Act) :
    Ends (tTakeHist m env e h par trn al) := by
  unfold tTakeHist
  split
  · exact Ends.stop (by intro c; split <;> simp)
  · split
    · split
      · exact Ends.stop (by simp)
      · refine Ends.bind (Ends.quiet fun _ _ h => by cases h) fun mem => ?_
        split
        · exact Ends.pure _
        · split
          · exact Ends.pure _
          · refine Ends.bind (Ends.quiet (noRc_evalGuard env e _)) fun b => ?_
            cases b
            · exact Ends.fail rfl
            · exact Ends.bind (ends_pushAct m al _) fun _ => Ends.pure _
    · exact Ends.stop (by simp)

theorem ends_resolve (m : Machine) (env : Env) (e : Sig) (micro : Bool) : ∀ f stn ets al,
    Ends (tResolve m env e micro f stn ets al)
  | 0, _, _, _ => Ends.stop (by simp)
  | f + 1, stn, ets, al => by
    have next : ∀ (v stn' : Vid) (al' : List Act) (stn2 : Vid),
        Ends (do TEng.quiet (precheck m f micro v stn'); TEng.say (.tsState v); tResolve m env e micro f stn2 v al') :=
      fun v stn' al' stn2 => Ends.bind (Ends.quiet (noRc_precheck m f micro v stn')) fun _ =>
        Ends.bind (Ends.say _) fun _ => ends_resolve m env e micro f _ _ _
    unfold tResolve
    split
    · exact Ends.stop (by simp)
    · exact Ends.pure _
    · exact Ends.pure _
    · exact Ends.pure _
    · exact Ends.bind (ends_exec e al) fun _ => Ends.bind (ends_takeBranch m env e _ _) fun _ => next _ _ _ _
    · exact Ends.bind (ends_takeBranch m env e _ _) fun _ => next _ _ _ _
    · exact Ends.bind (ends_takeHist m env e _ _ _ _) fun _ => next _ _ _ _
    · exact Ends.error rfl

theorem ends_segLoop (m : Machine) (fn : Fns) (env : Env) (e : Sig) (creation : Bool) (cs : Vid) :
    ∀ f micro stn ets ta compl nEn nEx, Ends (tSegLoop m fn env e creation cs f micro stn ets ta compl nEn nEx)
  | 0, _, _, _, _, _, _, _ => Ends.stop (by simp)
  | f + 1, micro, stn, ets, ta, compl, nEn, nEx => by
    unfold tSegLoop
    refine Ends.bind (ends_pushAct m _ _) fun al => Ends.bind (Ends.say _) fun _ => Ends.bind (ends_resolve m env e _ _ _ _ _)
      fun r => Ends.bind ?_ fun x => Ends.bind (ends_exec e _) fun _ => Ends.bind (ends_enter m fn _ _) fun c => ?_
    · have stay : ∀ cmp, Ends (do let l ← TEng.quiet (lift (addTarget m f r.2.1 cmp)); pure (l, nEx)) := fun cmp =>
        Ends.bind (Ends.quiet (noRc_lift fun c => addTarget_noRc m f _ cmp c)) fun _ => Ends.pure _
      unfold tStage4
      split
      · exact stay _
      · exact stay _
      · exact ends_exits m fn _ f _ _ _
    · split
      · exact ends_segLoop m fn env e creation cs f _ _ _ _ _ _ _
      · split
        · exact Ends.stop (by simp)
        · exact Ends.pure _

/-- If the piece ends normally the last record is the one for a processed event. -/
def EndsOk {α : Type} (t : TEng α) : Prop := ∀ s s' a, t s = (s', .ok a) → LastSays s' (.ok ())

theorem EndsOk.bind {α β : Type} {t : TEng α} {k : α → TEng β} (h : ∀ a, EndsOk (k a)) : EndsOk (t >>= k) := by
  intro s s' a hh
  have hh : TEng.bind t k s = (s', .ok a) := hh
  unfold TEng.bind at hh
  rcases hx : t s with ⟨s1, x | d⟩
  · rw [hx] at hh; exact h x s1 s' a hh
  · rw [hx] at hh; simp at hh

theorem EndsOk.stop {α : Type} (d : Stop) : EndsOk (TEng.quiet (Eng.stop d) : TEng α) := fun s s' a h => by cases h

theorem EndsOk.proc {α : Type} (a : α) : EndsOk (do TEng.say .evtProc; Pure.pure a : TEng α) := by
  intro s s' x h
  have h : ((⟨s.mem, s.trc ++ [.evtProc]⟩ : TMem), (Ans.ok a : Ans α)) = (s', .ok x) := h
  simp only [Prod.mk.injEq] at h
  rw [← h.1]
  simp [LastSays, announced]

theorem ends_finish (m : Machine) (f : Nat) (x : (Vid × Bool) × Nat × Nat) : Ends (tFinish m f x) ∧ EndsOk (tFinish m f x) := by
  unfold tFinish
  constructor
  · refine Ends.bind (Ends.say _) fun _ => Ends.bind (Ends.quiet ?_) fun _ => Ends.bind (Ends.say _) fun _ =>
      Ends.bind (Ends.say _) fun _ => Ends.pure _
    unfold finish
    split
    · exact fun _ c h => by cases h
    · exact noRc_bind (noRc_lift fun c => deepTargets_noRc m f _ _ c) fun _ => noRc_bind (noRc_modify _) fun _ => noRc_emit _
  · exact EndsOk.bind fun _ => EndsOk.bind fun _ => EndsOk.bind fun _ => EndsOk.proc _

theorem ends_compound (m : Machine) (fn : Fns) (env : Env) (f : Nat) (e : Sig) (creation : Bool) :
    Ends (tCompound m fn env f e creation) ∧ EndsOk (tCompound m fn env f e creation) := by
  cases creation with
  | true =>
    simp only [tCompound]
    exact ⟨Ends.bind (Ends.say _) fun _ => Ends.bind (ends_segLoop ..) fun r => (ends_finish m f r).1,
      EndsOk.bind fun _ => EndsOk.bind fun r => (ends_finish m f r).2⟩
  | false =>
    simp only [tCompound]
    constructor
    · refine Ends.bind (Ends.quiet fun _ _ h => by cases h) fun mem => ?_
      split
      · exact Ends.stop (by simp)
      · refine Ends.bind (ends_searchUp m env e f _) fun r => Ends.bind (Ends.say _) fun _ => ?_
        obtain _ | ⟨v, t⟩ := r
        · exact Ends.fail rfl
        · unfold tTake
          refine Ends.bind (Ends.say _) fun _ => ?_
          split
          · exact Ends.bind (ends_pushAct m _ _) fun _ => Ends.bind (ends_exec e _) fun _ => Ends.bind (Ends.say _) fun _ => Ends.pure _
          · exact Ends.bind (ends_segLoop ..) fun r => (ends_finish m f r).1
    · refine EndsOk.bind fun mem => ?_
      split
      · exact EndsOk.stop _
      · refine EndsOk.bind fun r => EndsOk.bind fun _ => ?_
        obtain _ | ⟨v, t⟩ := r
        · exact EndsOk.bind fun _ => EndsOk.stop _
        · unfold tTake
          refine EndsOk.bind fun _ => ?_
          split
          · exact EndsOk.bind fun _ => EndsOk.bind fun _ => EndsOk.proc _
          · exact EndsOk.bind fun r => (ends_finish m f r).2

theorem ends_passes (m : Machine) (fn : Fns) (env : Env) : ∀ f e creation,
    Ends (tPasses m fn env f e creation) ∧ EndsOk (tPasses m fn env f e creation)
  | 0, _, _ => ⟨Ends.stop (by simp), EndsOk.stop _⟩
  | f + 1, e, creation => by
    have ih := ends_passes m fn env f sigCompletion false
    have hc := ends_compound m fn env f e creation
    unfold tPasses
    constructor
    · refine Ends.bind hc.1 fun c => ?_
      cases c
      · exact Ends.pure _
      · exact ih.1
    · intro s s' a h
      have h : TEng.bind _ _ s = (s', .ok a) := h
      unfold TEng.bind at h
      rcases hx : tCompound m fn env f e creation s with ⟨s1, x | d⟩
      · rw [hx] at h
        cases x
        · have h : (s1, (Ans.ok () : Ans Unit)) = (s', .ok a) := h
          simp only [Prod.mk.injEq] at h
          rw [← h.1]
          exact hc.2 s s1 _ hx
        · exact ih.2 s1 s' a h
      · rw [hx] at h; simp at h

theorem ends_dispatch (m : Machine) (fn : Fns) (env : Env) (f : Nat) (e : Sig) :
    Ends (tDispatch m fn env f e) ∧ EndsOk (tDispatch m fn env f e) := by
  have h := ends_passes m fn env f e (e == sigCreation)
  unfold tDispatch
  cases hb : e == sigCreation
  · rw [hb] at h; exact h
  · rw [hb] at h; exact ⟨Ends.bind (Ends.say _) fun _ => h.1, EndsOk.bind fun _ => h.2⟩

/-! ## The first records of a dispatch -/

/-- From `s` to `s'` only guards were called for `e`, and each that was false left a record. -/
def Guards (env : Env) (e : Sig) (s s' : TMem) : Prop :=
  ∃ g : List Obs, s'.mem.log = s.mem.log ++ g ∧ (∀ o ∈ g, ∃ i log, o = .guard i e (env i e log)) ∧ s'.mem.state = s.mem.state ∧
    s'.trc = s.trc ++ List.replicate (g.countP falseGuard) .grdFalse

theorem Guards.refl (env : Env) (e : Sig) (s : TMem) : Guards env e s s := ⟨[], by simp, by simp, rfl, by simp⟩

theorem Guards.trans {env : Env} {e : Sig} {s1 s2 s3 : TMem} (h1 : Guards env e s1 s2) (h2 : Guards env e s2 s3) :
    Guards env e s1 s3 := by
  obtain ⟨a, a1, a2, a4, a3⟩ := h1
  obtain ⟨b, b1, b2, b4, b3⟩ := h2
  refine ⟨a ++ b, by rw [b1, a1, List.append_assoc], ?_, b4.trans a4, ?_⟩
  · intro o ho
    rcases List.mem_append.1 ho with h | h
    · exact a2 o h
    · exact b2 o h
  · rw [b3, a3, List.append_assoc, List.countP_append, List.replicate_append_replicate]

theorem guards_findTrn (env : Env) (e : Sig) : ∀ l (s s' : TMem) a, tFindTrn env e l s = (s', a) → Guards env e s s'
  | [], s, s', a, h => by
    have h : (s, _) = (s', a) := h
    simp only [Prod.mk.injEq] at h
    rw [← h.1]; exact Guards.refl env e s
  | t :: ts, s, s', a, h => by
    unfold tFindTrn at h
    split at h
    · have h : (s, _) = (s', a) := h
      simp only [Prod.mk.injEq] at h
      rw [← h.1]; exact Guards.refl env e s
    · split at h
      · have h : TEng.bind _ _ s = _ := h
        unfold TEng.bind TEng.quiet at h
        have here : (∃ b, evalGuard env e t.guard s.mem = (s.mem, .ok b) ∧ b = true) ∨
            ∃ i b, evalGuard env e t.guard s.mem = ({ s.mem with log := s.mem.log ++ [.guard i e b] }, .ok b) ∧
              b = env i e s.mem.log := by
          cases t.guard with
          | none => exact Or.inl ⟨true, rfl, rfl⟩
          | some g =>
            cases g with
            | els => exact Or.inl ⟨true, rfl, rfl⟩
            | fn i => exact Or.inr ⟨i, _, rfl, rfl⟩
        rcases here with ⟨b, hb, rfl⟩ | ⟨i, b, hb, hv⟩
        · rw [hb] at h
          have h : (s, _) = (s', a) := h
          simp only [Prod.mk.injEq] at h
          rw [← h.1]; exact Guards.refl env e s
        · rw [hb] at h
          cases b
          · have h : tFindTrn env e ts ⟨{ s.mem with log := s.mem.log ++ [.guard i e false] }, s.trc ++ [.grdFalse]⟩ = (s', a) := h
            refine Guards.trans ?_ (guards_findTrn env e ts _ _ _ h)
            exact ⟨[.guard i e false], rfl, by simp only [List.mem_singleton]; rintro o rfl; exact ⟨i, _, by rw [← hv]⟩, rfl, by simp [falseGuard]⟩
          · have h : ((⟨{ s.mem with log := s.mem.log ++ [.guard i e true] }, s.trc⟩ : TMem), _) = (s', a) := h
            simp only [Prod.mk.injEq] at h
            rw [← h.1]
            exact ⟨[.guard i e true], rfl, by simp only [List.mem_singleton]; rintro o rfl; exact ⟨i, _, by rw [← hv]⟩, rfl, by simp [falseGuard]⟩
      · exact guards_findTrn env e ts s s' a h

theorem guards_searchUp (m : Machine) (env : Env) (e : Sig) : ∀ f v (s s' : TMem) a, tSearchUp m env e f v s = (s', a) →
    Guards env e s s'
  | 0, _, s, s', a, h => by
    have h : (s, _) = (s', a) := h
    simp only [Prod.mk.injEq] at h
    rw [← h.1]; exact Guards.refl env e s
  | f + 1, v, s, s', a, h => by
    unfold tSearchUp at h
    cases ht : m.trtbl v with
    | none =>
      rw [ht] at h
      have h : (s, _) = (s', a) := h
      simp only [Prod.mk.injEq] at h
      rw [← h.1]; exact Guards.refl env e s
    | some tbl =>
      rw [ht] at h
      have h : TEng.bind _ _ s = _ := h
      unfold TEng.bind at h
      rcases hx : tFindTrn env e tbl s with ⟨s1, r | c⟩
      · rw [hx] at h
        have g1 := guards_findTrn env e _ s s1 _ hx
        cases r with
        | some t =>
          have h : (s1, _) = (s', a) := h
          simp only [Prod.mk.injEq] at h
          rw [← h.1]; exact g1
        | none =>
          simp only at h
          cases hp : m.parent v with
          | none =>
            rw [hp] at h
            have h : (s1, _) = (s', a) := h
            simp only [Prod.mk.injEq] at h
            rw [← h.1]; exact g1
          | some p =>
            rw [hp] at h
            cases p with
            | none =>
              have h : (s1, _) = (s', a) := h
              simp only [Prod.mk.injEq] at h
              rw [← h.1]; exact g1
            | some p => exact g1.trans (guards_searchUp m env e f _ s1 s' a h)
      · rw [hx] at h
        simp only [Prod.mk.injEq] at h
        rw [← h.1]
        exact guards_findTrn env e _ s s1 _ hx

/-- The search can only end early because it is undefined or the budget is used up. -/
theorem searchUp_stop (m : Machine) (env : Env) (e : Sig) : ∀ f v {s s' : Mem} {c : Stop},
    searchUp m env e f v s = (s', .stop c) → c = .ub ∨ c = .fuel
  | 0, _, s, s', c, h => by
    have h : (s, (Ans.stop .fuel : Ans (Option (Vid × Tr)))) = (s', .stop c) := h
    simp only [Prod.mk.injEq, Ans.stop.injEq] at h
    exact Or.inr h.2.symm
  | f + 1, v, s, s', c, h => by
    unfold searchUp at h
    cases ht : m.trtbl v with
    | none =>
      rw [ht] at h
      have h : (s, (Ans.stop .ub : Ans (Option (Vid × Tr)))) = (s', .stop c) := h
      simp only [Prod.mk.injEq, Ans.stop.injEq] at h
      exact Or.inl h.2.symm
    | some tbl =>
      rw [ht] at h
      have h : Eng.bind (findTrn env e tbl) _ s = (s', .stop c) := h
      unfold Eng.bind at h
      have hno : ∀ l (s s1 : Mem) d, findTrn env e l s ≠ (s1, .stop d) := by
        intro l
        induction l with
        | nil => intro s s1 d h; cases h
        | cons t ts ih =>
          intro s s1 d h
          unfold findTrn at h
          split at h
          · cases h
          · split at h
            · have h : Eng.bind (evalGuard env e t.guard) _ s = _ := h
              unfold Eng.bind at h
              have hg : ∃ s2 b, evalGuard env e t.guard s = (s2, .ok b) := by
                obtain _ | (_ | g) := t.guard
                · exact ⟨_, _, rfl⟩
                · exact ⟨_, _, rfl⟩
                · exact ⟨_, _, rfl⟩
              obtain ⟨s2, b, hg⟩ := hg
              rw [hg] at h
              cases b
              · exact ih s2 s1 d h
              · cases h
            · exact ih s s1 d h
      rcases hx : findTrn env e tbl s with ⟨s1, x | d⟩
      · rw [hx] at h
        cases x with
        | some t => cases h
        | none =>
          simp only at h
          cases hp : m.parent v with
          | none =>
            rw [hp] at h
            have h : (s1, (Ans.stop .ub : Ans (Option (Vid × Tr)))) = (s', .stop c) := h
            simp only [Prod.mk.injEq, Ans.stop.injEq] at h
            exact Or.inl h.2.symm
          | some p =>
            rw [hp] at h
            cases p with
            | none => cases h
            | some p => exact searchUp_stop m env e f p h
      · exact absurd hx (hno tbl s s1 d)

end Verif.SM.Traced
