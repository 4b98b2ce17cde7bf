import Verif.SM.Model
/-
The behaviour of a state machine depends on its chart only: not on the numbers given to the signals, nor on the addresses of the
states, actions and guards. Which signals a configuration admits, and which of them are ordinary.
-/
namespace Verif.SM.Iso
open Verif.SM Verif.SM.Eng

/-! ### Specification -/

/-- A renaming of signals, vertices, actions and guard functions. -/
structure Ren where
  sig : Sig → Sig
  vid : Vid → Vid
  act : Act → Act
  grd : Nat → Nat

/-- Different signals and vertices stay different, and the three signals RKH keeps for itself stay what they are. -/
structure Ren.Ok (r : Ren) : Prop where
  sig : ∀ a b, r.sig a = r.sig b → a = b
  vid : ∀ a b, r.vid a = r.vid b → a = b
  any : r.sig sigAny = sigAny
  completion : r.sig sigCompletion = sigCompletion
  creation : r.sig sigCreation = sigCreation

/-- A renamed guard. -/
def Ren.guard (r : Ren) : Guard → Guard
  | .els => .els
  | .fn g => .fn (r.grd g)

/-- A renamed transition. -/
def Ren.tr (r : Ren) (t : Tr) : Tr := ⟨r.sig t.event, t.guard.map r.guard, t.action.map r.act, t.target.map r.vid⟩

/-- A renamed vertex. -/
def Ren.vertex (r : Ren) : Vertex → Vertex
  | .basic p t => .basic (p.map r.vid) (t.map r.tr)
  | .composite p t d i h => .composite (p.map r.vid) (t.map r.tr) (r.vid d) (i.map r.act) (h.map r.vid)
  | .final p => .final (p.map r.vid)
  | .cond t => .cond (t.map r.tr)
  | .choice t => .choice (t.map r.tr)
  | .hist d p t => .hist d (p.map r.vid) (r.tr t)
  | .unknown => .unknown

/-- A renamed observation. -/
def Ren.obs (r : Ren) : Obs → Obs
  | .entry v => .entry (r.vid v)
  | .exit v => .exit (r.vid v)
  | .act a e => .act (r.act a) (r.sig e)
  | .guard g e b => .guard (r.grd g) (r.sig e) b
  | .stable v => .stable (r.vid v)
  | .clear h => .clear (r.vid h)

/-- A renamed call. -/
def Ren.op (r : Ren) : Op → Op
  | .dispatch e => .dispatch (r.sig e)
  | .clearHistory h => .clearHistory (r.vid h)

/-- `m'` is the same chart as `m` under other names. -/
structure SameChart (r : Ren) (m m' : Machine) : Prop where
  vert : ∀ v, m'.vert (r.vid v) = (m.vert v).map r.vertex
  istate : m'.istate = r.vid m.istate
  iaction : m'.iaction = m.iaction.map r.act
  depth : m'.maxDepth = m.maxDepth
  segs : m'.maxSegs = m.maxSegs
  en : m'.assertEn = m.assertEn

/-- The guard functions of both applications decide alike. -/
def SameGuards (r : Ren) (env env' : Env) : Prop := ∀ g e log, env' (r.grd g) (r.sig e) (log.map r.obs) = env g e log

/-- Both objects are in the same situation. -/
structure Same (r : Ren) (s s' : Mem) : Prop where
  state : s'.state = s.state.map r.vid
  hist : ∀ v, s'.hist (r.vid v) = (s.hist v).map r.vid
  log : s'.log = s.log.map r.obs

/-! ### Simulation -/

/-- Both answers are alike. -/
def AnsRel {α β : Type} (R : α → β → Prop) : Ans α → Ans β → Prop
  | .ok a, .ok b => R a b
  | .stop a, .stop b => a = b
  | _, _ => False

/-- Both pieces of the engine do the same. -/
def Sim (r : Ren) {α β : Type} (R : α → β → Prop) (x : Eng α) (y : Eng β) : Prop :=
  ∀ s s', Same r s s' → Same r (x s).1 (y s').1 ∧ AnsRel R (x s).2 (y s').2

variable {r : Ren} {m m' : Machine} {env env' : Env}

theorem Sim.pure' {α β : Type} {R : α → β → Prop} {a : α} {b : β} (h : R a b) : Sim r R (pure a) (pure b) := fun _ _ hs => ⟨hs, h⟩

theorem Sim.stop' {α β : Type} {R : α → β → Prop} (c : Stop) : Sim r R (stop c : Eng α) (stop c : Eng β) := fun _ _ hs => ⟨hs, rfl⟩

theorem Sim.lift' {α β : Type} {R : α → β → Prop} {a : Ans α} {b : Ans β} (h : AnsRel R a b) : Sim r R (lift a) (lift b) := fun _ _ hs => ⟨hs, h⟩

theorem Sim.bind' {α β γ δ : Type} {R : α → β → Prop} {Q : γ → δ → Prop} {x : Eng α} {y : Eng β} {f : α → Eng γ} {g : β → Eng δ}
    (h : Sim r R x y) (hf : ∀ a b, R a b → Sim r Q (f a) (g b)) : Sim r Q (x >>= f) (y >>= g) := by
  intro s s' hs
  have hx := h s s' hs
  show Same r (Eng.bind x f s).1 (Eng.bind y g s').1 ∧ AnsRel Q (Eng.bind x f s).2 (Eng.bind y g s').2
  unfold Eng.bind
  rcases h1 : x s with ⟨s1, a | c⟩ <;> rcases h2 : y s' with ⟨s2, b | d⟩ <;> rw [h1, h2] at hx
  · exact hf a b hx.2 s1 s2 hx.1
  · exact hx.2.elim
  · exact hx.2.elim
  · exact hx

theorem Sim.get' : Sim r (Same r) get get := fun _ _ hs => ⟨hs, hs⟩

theorem Sim.emit' {o : Obs} : Sim r (fun _ _ => True) (emit o) (emit (r.obs o)) := by
  intro s s' hs
  exact ⟨⟨hs.state, hs.hist, by show s'.log ++ _ = _; rw [hs.log]; simp [Eng.emit, Eng.modify]⟩, trivial⟩

theorem Sim.modify' {f g : Mem → Mem} (h : ∀ s s', Same r s s' → Same r (f s) (g s')) : Sim r (fun _ _ => True) (modify f) (modify g) :=
  fun s s' hs => ⟨h s s' hs, trivial⟩

theorem Sim.mono {α β : Type} {R Q : α → β → Prop} {x : Eng α} {y : Eng β} (h : Sim r R x y) (hi : ∀ a b, R a b → Q a b) : Sim r Q x y := by
  intro s s' hs
  obtain ⟨h1, h2⟩ := h s s' hs
  refine ⟨h1, ?_⟩
  revert h2
  cases (x s).2 <;> cases (y s').2 <;> simp only [AnsRel] <;> first | exact hi _ _ | exact id

theorem sim_error {α β : Type} {R : α → β → Prop} (h : SameChart r m m') (c : RC) : Sim r R (error m c : Eng α) (error m' c : Eng β) := by
  unfold error; rw [h.en]; exact Sim.stop' _

theorem evalGuard_sim (he : SameGuards r env env') (e : Sig) (g : Option Guard) : Sim r Eq (evalGuard env e g) (evalGuard env' (r.sig e) (g.map r.guard)) := by
  cases g with
  | none => exact Sim.pure' rfl
  | some g =>
    cases g with
    | els => exact Sim.pure' rfl
    | fn g =>
      intro s s' hs
      have h1 : env' (r.grd g) (r.sig e) s'.log = env g e s.log := by rw [hs.log]; exact he g e s.log
      refine ⟨⟨hs.state, hs.hist, ?_⟩, ?_⟩
      · show s'.log ++ _ = List.map r.obs (s.log ++ _)
        rw [h1, hs.log]; simp [Ren.obs]
      · show env g e s.log = env' (r.grd g) (r.sig e) s'.log
        exact h1.symm

theorem sig_any (ok : r.Ok) (e : Sig) : r.sig e = sigAny ↔ e = sigAny :=
  ⟨fun h => ok.sig _ _ (h.trans ok.any.symm), fun h => by rw [h]; exact ok.any⟩

theorem sig_completion (ok : r.Ok) (e : Sig) : r.sig e = sigCompletion ↔ e = sigCompletion :=
  ⟨fun h => ok.sig _ _ (h.trans ok.completion.symm), fun h => by rw [h]; exact ok.completion⟩

theorem sig_creation (ok : r.Ok) (e : Sig) : r.sig e = sigCreation ↔ e = sigCreation :=
  ⟨fun h => ok.sig _ _ (h.trans ok.creation.symm), fun h => by rw [h]; exact ok.creation⟩

theorem findTrn_sim (ok : r.Ok) (he : SameGuards r env env') (e : Sig) (l : List Tr) :
    Sim r (fun a b => b = a.map r.tr) (findTrn env e l) (findTrn env' (r.sig e) (l.map r.tr)) := by
  induction l with
  | nil => exact Sim.pure' rfl
  | cons t l ih =>
    simp only [List.map_cons, findTrn]
    by_cases h1 : t.event = sigAny
    · rw [if_pos h1, if_pos (show (r.tr t).event = sigAny from (sig_any ok _).mpr h1)]; exact Sim.pure' rfl
    · rw [if_neg h1, if_neg (show ¬ (r.tr t).event = sigAny from fun h => h1 ((sig_any ok _).mp h))]
      by_cases h2 : t.event = e
      · rw [if_pos h2, if_pos (show (r.tr t).event = r.sig e from congrArg r.sig h2)]
        refine Sim.bind' (evalGuard_sim he e t.guard) ?_
        rintro a _ rfl
        cases a
        · exact ih
        · exact Sim.pure' rfl
      · rw [if_neg h2, if_neg (show ¬ (r.tr t).event = r.sig e from fun h => h2 (ok.sig _ _ h))]
        exact ih

theorem findBranch_sim (ok : r.Ok) (he : SameGuards r env env') (e : Sig) (l : List Tr) :
    Sim r (fun a b => b = a.map r.tr) (findBranch env e l) (findBranch env' (r.sig e) (l.map r.tr)) := by
  induction l with
  | nil => exact Sim.pure' rfl
  | cons t l ih =>
    simp only [List.map_cons, findBranch]
    by_cases h1 : t.event = sigAny
    · rw [if_pos h1, if_pos (show (r.tr t).event = sigAny from (sig_any ok _).mpr h1)]; exact Sim.pure' rfl
    · rw [if_neg h1, if_neg (show ¬ (r.tr t).event = sigAny from fun h => h1 ((sig_any ok _).mp h))]
      cases hg : t.guard with
      | none => simp only [Ren.tr, hg, Option.map_none]; exact ih
      | some g =>
        simp only [Ren.tr, hg, Option.map_some]
        refine Sim.bind' (evalGuard_sim he e (some g)) ?_
        rintro a _ rfl
        cases a
        · exact ih
        · refine Sim.pure' ?_
          simp [Ren.tr, hg]

theorem exec_sim (e : Sig) (l : List Act) : Sim r (fun _ _ => True) (exec e l) (exec (r.sig e) (l.map r.act)) := by
  induction l with
  | nil => exact Sim.pure' trivial
  | cons a l ih => exact Sim.bind' Sim.emit' (fun _ _ _ => ih)

theorem parent_eq (h : SameChart r m m') (v : Vid) : m'.parent (r.vid v) = (m.parent v).map (Option.map r.vid) := by
  unfold Machine.parent
  rw [h.vert]
  cases m.vert v with
  | none => rfl
  | some x => cases x <;> rfl

theorem trtbl_eq (h : SameChart r m m') (v : Vid) : m'.trtbl (r.vid v) = (m.trtbl v).map (List.map r.tr) := by
  unfold Machine.trtbl
  rw [h.vert]
  cases m.vert v with
  | none => rfl
  | some x => cases x <;> rfl

theorem comp_eq (h : SameChart r m m') (v : Vid) : m'.comp (r.vid v) = (m.comp v).map fun x => (r.vid x.1, x.2.map r.act) := by
  unfold Machine.comp
  rw [h.vert]
  cases m.vert v with
  | none => rfl
  | some x => cases x <;> rfl

theorem searchUp_sim (ok : r.Ok) (h : SameChart r m m') (he : SameGuards r env env') (e : Sig) (f : Nat) (v : Vid) :
    Sim r (fun a b => b = a.map fun x => (r.vid x.1, r.tr x.2)) (searchUp m env e f v) (searchUp m' env' (r.sig e) f (r.vid v)) := by
  induction f generalizing v with
  | zero => exact Sim.stop' _
  | succ f ih =>
    simp only [searchUp, trtbl_eq h]
    cases m.trtbl v with
    | none => exact Sim.stop' _
    | some tbl =>
      simp only [Option.map_some]
      refine Sim.bind' (findTrn_sim ok he e tbl) ?_
      rintro a _ rfl
      cases a with
      | some t => exact Sim.pure' rfl
      | none =>
        simp only [Option.map_none, parent_eq h]
        cases m.parent v with
        | none => exact Sim.stop' _
        | some p =>
          cases p with
          | none => exact Sim.pure' rfl
          | some p => exact ih p

theorem pushAct_sim (h : SameChart r m m') (al : List Act) (a : Option Act) :
    Sim r (fun x y => y = List.map r.act x) (pushAct m al a) (pushAct m' (al.map r.act) (a.map r.act)) := by
  unfold pushAct addAct
  rw [h.segs, List.length_map]
  by_cases hl : al.length ≥ m.maxSegs
  · simp only [hl, if_true]; exact sim_error h _
  · simp only [hl, if_false]
    cases a with
    | none => exact Sim.pure' rfl
    | some a => exact Sim.pure' (by simp)

theorem addTargetLoop_rel (ok : r.Ok) (h : SameChart r m m') (cmp : Option Vid) (f : Nat) (st : Option Vid) (acc : List Vid) :
    AnsRel (fun x y => y = List.map r.vid x) (addTargetLoop m cmp f st acc) (addTargetLoop m' (cmp.map r.vid) f (st.map r.vid) (acc.map r.vid)) := by
  induction f generalizing st acc with
  | zero => exact rfl
  | succ f ih =>
    unfold addTargetLoop
    by_cases hc : st = cmp
    · rw [if_pos hc, if_pos (by rw [hc])]; exact rfl
    · have hc' : ¬ st.map r.vid = cmp.map r.vid := by
        intro hh
        apply hc
        cases st <;> cases cmp <;> simp only [Option.map_some, Option.map_none, reduceCtorEq, Option.some.injEq] at hh ⊢
        exact ok.vid _ _ hh
      rw [if_neg hc, if_neg hc']
      cases st with
      | none => exact rfl
      | some s =>
        simp only [Option.map_some, List.length_map, h.depth, parent_eq h]
        by_cases hl : acc.length < m.maxDepth
        · simp only [hl, if_true]
          cases m.parent s with
          | none => exact rfl
          | some p =>
            have := ih p (acc ++ [s])
            simpa using this
        · simp only [hl, if_false]; exact rfl

theorem addTarget_rel (ok : r.Ok) (h : SameChart r m m') (f : Nat) (t : Vid) (cmp : Option Vid) :
    AnsRel (fun x y => y = List.map r.vid x) (addTarget m f t cmp) (addTarget m' f (r.vid t) (cmp.map r.vid)) := by
  unfold addTarget
  rw [h.vert]
  cases m.vert t with
  | none => exact rfl
  | some x =>
    cases x <;> simp only [Option.map_some, Ren.vertex]
    all_goals first | exact addTargetLoop_rel ok h cmp f (some t) [] | exact rfl

theorem findLca_rel (ok : r.Ok) (h : SameChart r m m') (stx : Vid) (f : Nat) (n : Option Vid) (ent : List Vid) :
    AnsRel (fun x y => y = (x.1, List.map r.vid x.2)) (findLca m stx f n ent) (findLca m' (r.vid stx) f (n.map r.vid) (ent.map r.vid)) := by
  induction f generalizing n ent with
  | zero => exact rfl
  | succ f ih =>
    cases n with
    | none => exact rfl
    | some n =>
      simp only [Option.map_some, findLca, List.length_map, h.depth, h.en, parent_eq h]
      by_cases hn : n = stx
      · rw [if_pos hn, if_pos (by rw [hn])]; exact rfl
      · rw [if_neg hn, if_neg (fun hh => hn (ok.vid _ _ hh))]
        by_cases hl : ent.length < m.maxDepth
        · simp only [hl, if_true]
          cases m.parent n with
          | none => exact rfl
          | some p =>
            have := ih p (ent ++ [n])
            simpa using this
        · simp only [hl, if_false]; exact rfl

theorem shallowTarget_rel (h : SameChart r m m') (s : Vid) :
    AnsRel (fun x y => y = Option.map r.vid x) (shallowTarget m s) (shallowTarget m' (r.vid s)) := by
  unfold shallowTarget
  rw [parent_eq h]
  cases m.parent s with
  | none => exact rfl
  | some p =>
    cases p with
    | none => exact rfl
    | some p =>
      simp only [Option.map_some, h.vert]
      cases m.vert p with
      | none => exact rfl
      | some x =>
        cases x <;> simp only [Option.map_some, Ren.vertex]
        case composite p t d i hh =>
          cases hh with
          | none => exact rfl
          | some k =>
            simp only [Option.map_some, h.vert]
            cases m.vert k with
            | none => exact rfl
            | some y =>
              cases y <;> simp only [Option.map_some, Ren.vertex] <;> try exact rfl
              case hist d _ _ => cases d <;> exact rfl
        all_goals exact rfl

theorem setHist_eq (ok : r.Ok) {h h' : Vid → Option Vid} (hh : ∀ v, h' (r.vid v) = (h v).map r.vid) (k : Vid) (x : Option Vid) (v : Vid) :
    setHist h' (r.vid k) (x.map r.vid) (r.vid v) = (setHist h k x v).map r.vid := by
  unfold setHist
  by_cases hv : v = k
  · rw [if_pos hv, if_pos (by rw [hv])]
  · rw [if_neg hv, if_neg (fun e => hv (ok.vid _ _ e))]; exact hh v

theorem updShallow_sim (ok : r.Ok) (h : SameChart r m m') (s : Vid) : Sim r (fun _ _ => True) (updShallow m s) (updShallow m' (r.vid s)) := by
  unfold updShallow
  refine Sim.bind' (Sim.lift' (shallowTarget_rel h s)) ?_
  rintro a _ rfl
  cases a with
  | none => exact Sim.pure' trivial
  | some k => exact Sim.modify' fun s1 s2 hs => ⟨hs.state, fun v => setHist_eq ok hs.hist k (some s) v, hs.log⟩

theorem exits_sim (ok : r.Ok) (h : SameChart r m m') (ts : Vid) (f ix : Nat) (x : Option Vid) (ent : List Vid) :
    Sim r (fun a b => b = List.map r.vid a) (exits m ts f ix x ent) (exits m' (r.vid ts) f ix (x.map r.vid) (ent.map r.vid)) := by
  induction f generalizing ix x ent with
  | zero => exact Sim.stop' _
  | succ f ih =>
    cases x with
    | none => exact Sim.pure' rfl
    | some x =>
      simp only [Option.map_some, exits]
      refine Sim.bind' (Sim.lift' (findLca_rel ok h x f (some ts) [])) ?_
      rintro ⟨b, ent⟩ _ rfl
      cases b with
      | true =>
        cases ix with
        | zero =>
          refine Sim.bind' Sim.emit' fun _ _ _ => ?_
          refine Sim.bind' (updShallow_sim ok h x) fun _ _ _ => ?_
          simp only [List.length_map, h.depth]
          by_cases hl : ent.length < m.maxDepth
          · simp only [hl, if_true]; exact Sim.pure' (by simp)
          · simp only [hl, if_false]; exact Sim.stop' _
        | succ ix => exact Sim.pure' rfl
      | false =>
        refine Sim.bind' Sim.emit' fun _ _ _ => ?_
        refine Sim.bind' (updShallow_sim ok h x) fun _ _ _ => ?_
        simp only [parent_eq h]
        cases m.parent x with
        | none => exact Sim.stop' _
        | some p => exact ih (ix + 1) p ent

theorem findCompletion_eq (ok : r.Ok) (l : List Tr) : findCompletion (l.map r.tr) = findCompletion l := by
  induction l with
  | nil => rfl
  | cons t l ih =>
    simp only [List.map_cons, findCompletion, ih]
    show (if r.sig t.event = sigAny then false else if r.sig t.event = sigCompletion then true else _) = _
    simp only [sig_any ok, sig_completion ok]

theorem isCompletion_eq (ok : r.Ok) (h : SameChart r m m') (v : Vid) : isCompletion m' (r.vid v) = isCompletion m v := by
  unfold isCompletion
  rw [h.vert]
  cases m.vert v with
  | none => rfl
  | some x =>
    cases x <;> simp only [Option.map_some, Ren.vertex]
    case basic p t => exact findCompletion_eq ok t
    case final p => cases p <;> rfl

theorem enter_sim (ok : r.Ok) (h : SameChart r m m') (l : List Vid) (c : Bool) : Sim r Eq (enter m l c) (enter m' (l.map r.vid) c) := by
  induction l generalizing c with
  | nil => exact Sim.pure' rfl
  | cons s l ih =>
    simp only [List.map_cons, enter]
    refine Sim.bind' Sim.emit' fun _ _ _ => ?_
    rw [isCompletion_eq ok h]
    exact ih _

theorem takeBranch_sim (ok : r.Ok) (h : SameChart r m m') (he : SameGuards r env env') (e : Sig) (tbl : List Tr) (al : List Act) :
    Sim r (fun a b => b = (r.vid a.1, List.map r.act a.2)) (takeBranch m env e tbl al) (takeBranch m' env' (r.sig e) (tbl.map r.tr) (al.map r.act)) := by
  unfold takeBranch
  refine Sim.bind' (findBranch_sim ok he e tbl) ?_
  rintro a _ rfl
  cases a with
  | none => exact Sim.stop' _
  | some t =>
    simp only [Option.map_some]
    refine Sim.bind' (pushAct_sim h al t.action) ?_
    rintro x _ rfl
    simp only [Ren.tr]
    cases t.target with
    | none => exact Sim.stop' _
    | some v => exact Sim.pure' rfl

theorem takeHist_sim (h : SameChart r m m') (he : SameGuards r env env') (e : Sig) (k : Vid) (par : Option Vid) (trn : Tr) (al : List Act) :
    Sim r (fun a b => b = (r.vid a.1, r.vid a.2.1, List.map r.act a.2.2)) (takeHist m env e k par trn al)
      (takeHist m' env' (r.sig e) (r.vid k) (par.map r.vid) (r.tr trn) (al.map r.act)) := by
  unfold takeHist
  cases par with
  | none => simp only [Option.map_none, h.en]; exact Sim.stop' _
  | some p =>
    simp only [Option.map_some, h.vert, h.en]
    cases m.vert p with
    | none => exact Sim.stop' _
    | some x =>
      cases x <;> simp only [Option.map_some, Ren.vertex]
      case composite pp tt d ia hp =>
        by_cases hc : m.assertEn = true ∧ hp = none
        · rw [if_pos hc, if_pos (by simp [hc])]; exact Sim.stop' _
        · rw [if_neg hc, if_neg (by simpa using hc)]
          refine Sim.bind' Sim.get' fun s s' hs => ?_
          rw [hs.hist]
          cases s.hist k with
          | some v => exact Sim.pure' rfl
          | none =>
            simp only [Option.map_none, Ren.tr]
            cases trn.target with
            | none => exact Sim.pure' rfl
            | some v =>
              simp only [Option.map_some]
              refine Sim.bind' (evalGuard_sim he e trn.guard) ?_
              rintro a _ rfl
              cases a with
              | false => exact Sim.stop' _
              | true =>
                refine Sim.bind' (pushAct_sim h al trn.action) ?_
                rintro x _ rfl
                exact Sim.pure' rfl
      all_goals exact Sim.stop' _

theorem precheck_sim (ok : r.Ok) (h : SameChart r m m') (f : Nat) (micro : Bool) (a b : Vid) :
    Sim r (fun _ _ => True) (precheck m f micro a b) (precheck m' f micro (r.vid a) (r.vid b)) := by
  unfold precheck
  cases micro with
  | false => exact Sim.pure' trivial
  | true =>
    refine Sim.bind' (Sim.lift' (addTarget_rel ok h f a (some b))) fun _ _ _ => ?_
    exact Sim.pure' trivial

theorem resolve_sim (ok : r.Ok) (h : SameChart r m m') (he : SameGuards r env env') (e : Sig) (micro : Bool) (f : Nat) (stn ets : Vid) (al : List Act) :
    Sim r (fun a b => b = (r.vid a.1, r.vid a.2.1, List.map r.act a.2.2)) (resolve m env e micro f stn ets al)
      (resolve m' env' (r.sig e) micro f (r.vid stn) (r.vid ets) (al.map r.act)) := by
  induction f generalizing stn ets al with
  | zero => exact Sim.stop' _
  | succ f ih =>
    simp only [resolve, h.vert]
    cases m.vert ets with
    | none => exact Sim.stop' _
    | some x =>
      cases x <;> simp only [Option.map_some, Ren.vertex]
      case unknown => exact sim_error h _
      case choice tbl =>
        refine Sim.bind' (exec_sim e al) fun _ _ _ => ?_
        refine Sim.bind' (takeBranch_sim ok h he e tbl []) ?_
        rintro a _ rfl
        refine Sim.bind' (precheck_sim ok h f micro a.1 stn) fun _ _ _ => ?_
        exact ih _ _ _
      case cond tbl =>
        refine Sim.bind' (takeBranch_sim ok h he e tbl al) ?_
        rintro a _ rfl
        refine Sim.bind' (precheck_sim ok h f micro a.1 stn) fun _ _ _ => ?_
        exact ih _ _ _
      case hist d par trn =>
        refine Sim.bind' (takeHist_sim h he e ets par trn al) ?_
        rintro a _ rfl
        refine Sim.bind' (precheck_sim ok h f micro a.2.1 a.1) fun _ _ _ => ?_
        exact ih _ _ _
      all_goals exact Sim.pure' rfl

theorem stage4_sim (ok : r.Ok) (h : SameChart r m m') (f : Nat) (creation micro : Bool) (cs stn ts : Vid) :
    Sim r (fun a b => b = List.map r.vid a) (stage4 m f creation micro cs stn ts) (stage4 m' f creation micro (r.vid cs) (r.vid stn) (r.vid ts)) := by
  unfold stage4
  cases micro with
  | true => exact Sim.lift' (addTarget_rel ok h f ts (some stn))
  | false =>
    cases creation with
    | true => exact Sim.lift' (addTarget_rel ok h f ts none)
    | false => exact exits_sim ok h ts f 0 (some cs) []

theorem segLoop_sim (ok : r.Ok) (h : SameChart r m m') (he : SameGuards r env env') (e : Sig) (creation : Bool) (cs : Vid) (f : Nat)
    (micro : Bool) (stn ets : Vid) (ta : Option Act) (compl : Bool) :
    Sim r (fun a b => b = (r.vid a.1, a.2)) (segLoop m env e creation cs f micro stn ets ta compl)
      (segLoop m' env' (r.sig e) creation (r.vid cs) f micro (r.vid stn) (r.vid ets) (ta.map r.act) compl) := by
  induction f generalizing micro stn ets ta compl with
  | zero => exact Sim.stop' _
  | succ f ih =>
    simp only [segLoop]
    refine Sim.bind' (pushAct_sim h [] ta) ?_
    rintro al _ rfl
    refine Sim.bind' (resolve_sim ok h he e micro f stn ets al) ?_
    rintro a _ rfl
    refine Sim.bind' (stage4_sim ok h f creation micro cs a.1 a.2.1) ?_
    rintro ent _ rfl
    refine Sim.bind' (exec_sim e a.2.2) fun _ _ _ => ?_
    rw [← List.map_reverse]
    refine Sim.bind' (enter_sim ok h ent.reverse compl) ?_
    rintro c _ rfl
    simp only [comp_eq h]
    cases m.comp a.2.1 with
    | some x => exact ih true a.2.1 x.1 x.2 c
    | none =>
      cases ent with
      | nil => exact Sim.stop' _
      | cons s l => exact Sim.pure' rfl

theorem deepTargets_rel (h : SameChart r m m') (f : Nat) (s : Option Vid) (acc : List Vid) :
    AnsRel (fun x y => y = List.map r.vid x) (deepTargets m f s acc) (deepTargets m' f (s.map r.vid) (acc.map r.vid)) := by
  induction f generalizing s acc with
  | zero => exact rfl
  | succ f ih =>
    cases s with
    | none => exact rfl
    | some s =>
      simp only [Option.map_some, deepTargets, h.vert]
      cases m.vert s with
      | none => exact rfl
      | some x =>
        cases x <;> simp only [Option.map_some, Ren.vertex]
        case composite p t d i hh =>
          cases hh with
          | none => exact ih p acc
          | some k =>
            simp only [Option.map_some, h.vert]
            cases m.vert k with
            | none => exact rfl
            | some y =>
              cases y <;> simp only [Option.map_some, Ren.vertex]
              case hist d _ _ =>
                cases d
                · exact ih p acc
                · have := ih p (acc ++ [k])
                  simpa using this
              all_goals exact ih p acc
        all_goals exact rfl

theorem foldHist_eq (ok : r.Ok) (x : Vid) (ks : List Vid) {h h' : Vid → Option Vid} (hh : ∀ v, h' (r.vid v) = (h v).map r.vid) (v : Vid) :
    (ks.map r.vid).foldl (fun h k => setHist h k (some (r.vid x))) h' (r.vid v) = (ks.foldl (fun h k => setHist h k (some x)) h v).map r.vid := by
  induction ks generalizing h h' with
  | nil => exact hh v
  | cons k ks ih => exact ih fun v => setHist_eq ok hh k (some x) v

theorem finish_sim (ok : r.Ok) (h : SameChart r m m') (f : Nat) (stn : Vid) : Sim r (fun _ _ => True) (finish m f stn) (finish m' f (r.vid stn)) := by
  unfold finish
  rw [parent_eq h]
  cases m.parent stn with
  | none => exact Sim.stop' _
  | some p =>
    refine Sim.bind' (Sim.lift' (deepTargets_rel h f p [])) ?_
    rintro ks _ rfl
    refine Sim.bind' (Sim.modify' fun s1 s2 hs => ⟨rfl, fun v => foldHist_eq ok stn ks hs.hist v, hs.log⟩) fun _ _ _ => ?_
    exact Sim.emit'

theorem compound_sim (ok : r.Ok) (h : SameChart r m m') (he : SameGuards r env env') (f : Nat) (e : Sig) (creation : Bool) :
    Sim r Eq (compound m env f e creation) (compound m' env' f (r.sig e) creation) := by
  unfold compound
  cases creation with
  | true =>
    simp only [h.istate, h.iaction]
    refine Sim.bind' (segLoop_sim ok h he e true m.istate f false m.istate m.istate m.iaction false) ?_
    rintro a _ rfl
    exact Sim.bind' (finish_sim ok h f a.1) fun _ _ _ => Sim.pure' rfl
  | false =>
    refine Sim.bind' Sim.get' fun s s' hs => ?_
    rw [hs.state]
    cases s.state with
    | none => exact Sim.stop' _
    | some cs =>
      simp only [Option.map_some]
      refine Sim.bind' (searchUp_sim ok h he e f cs) ?_
      rintro a _ rfl
      cases a with
      | none => exact Sim.stop' _
      | some x =>
        obtain ⟨v, t⟩ := x
        simp only [Option.map_some, Ren.tr]
        cases t.target with
        | none =>
          refine Sim.bind' (pushAct_sim h [] t.action) ?_
          rintro al _ rfl
          exact Sim.bind' (exec_sim e al) fun _ _ _ => Sim.pure' rfl
        | some w =>
          simp only [Option.map_some]
          refine Sim.bind' (segLoop_sim ok h he e false cs f false v w t.action false) ?_
          rintro a _ rfl
          exact Sim.bind' (finish_sim ok h f a.1) fun _ _ _ => Sim.pure' rfl

theorem passes_sim (ok : r.Ok) (h : SameChart r m m') (he : SameGuards r env env') (f : Nat) (e : Sig) (creation : Bool) :
    Sim r (fun _ _ => True) (passes m env f e creation) (passes m' env' f (r.sig e) creation) := by
  induction f generalizing e creation with
  | zero => exact Sim.stop' _
  | succ f ih =>
    simp only [passes]
    refine Sim.bind' (compound_sim ok h he f e creation) ?_
    rintro c _ rfl
    cases c with
    | false => exact Sim.pure' trivial
    | true =>
      have := ih sigCompletion false
      rwa [ok.completion] at this

theorem op_sim (ok : r.Ok) (h : SameChart r m m') (he : SameGuards r env env') (f : Nat) (o : Op) :
    Sim r (fun _ _ => True) (op m env f o) (op m' env' f (r.op o)) := by
  cases o with
  | dispatch e =>
    have hc : (r.sig e == sigCreation) = (e == sigCreation) := by
      rw [Bool.eq_iff_iff]; simp only [beq_iff_eq]; exact sig_creation ok e
    simp only [op, Ren.op, dispatch, hc]
    exact passes_sim ok h he f e _
  | clearHistory k =>
    simp only [op, Ren.op, clearHistory]
    refine Sim.bind' (Sim.modify' fun s1 s2 hs => ⟨hs.state, fun v => ?_, hs.log⟩) fun _ _ _ => Sim.emit'
    exact setHist_eq ok hs.hist k none v

end Verif.SM.Iso
