import Verif.SM.Model
/-
The engine in the configuration without hierarchy (`RKH_CFG_SMA_HCAL_EN` disabled), source/sm/src/rkhsm.c. In this
configuration states have no entry and exit actions and no parent (rkhsm.h:2072-2090), `RKH_EXEC_EXIT_ACTION` and
`RKH_EXEC_ENTRY_ACTION` only compute the new current state (rkhsm.c:239-262), and no completion event is ever raised (its
flag is set in the hierarchical variant of `RKH_EXEC_ENTRY_ACTION` only). Choice and conditional pseudostates are not
modelled: with them enabled the file does not compile in this configuration (`addTargetSt` and `sentry`, rkhsm.c:574, are
declared for the hierarchical configuration only); histories and final states need the hierarchy (rkhitl.h:1659-1676,
1928-1938).
-/
namespace Verif.SM
open Eng

/-- `rkh_sm_dispatch` (rkhsm.c:389-760) without hierarchy and pseudostates. In `RKH_EXEC_ENTRY_ACTION` (rkhsm.c:254-262) the
working variable `stn` keeps the current state if the target is the current state, and is set to the target otherwise; on
creation it keeps the initial state or is set to it. A composite state is treated like a basic one. -/
def flatDispatch (m : Machine) (env : Env) (e : Sig) : Eng Unit :=
  match e == sigCreation with
  | true => do
    let al ← pushAct m [] m.iaction
    exec e al
    match m.vert m.istate with
    | none => stop .ub
    | some _ => do
      modify fun mem => { mem with state := some m.istate }
      emit (.stable m.istate)
  | false => do
    let mem ← get
    match mem.state with
    | none => stop .ub
    | some cs =>
      match m.trtbl cs with
      | none => stop .ub
      | some tbl => do
        let r ← findTrn env e tbl
        match r with
        | none => stop (.rc .evtNFound)
        | some t => do
          let al ← pushAct m [] t.action
          exec e al
          match t.target with
          | none => pure ()
          | some v =>
            match m.vert v with
            | none => stop .ub
            | some _ => do
              modify fun mem => { mem with state := some (if v = cs then cs else v) }
              emit (.stable (if v = cs then cs else v))

namespace Spec

/-- A machine of basic states only, without nesting; targets exist. -/
structure Flat (m : Machine) : Prop where
  basic : ∀ v x, m.vert v = some x → ∃ tbl, x = .basic none tbl ∧ ∀ t ∈ tbl, ∀ w, t.target = some w → (m.vert w).isSome
  init : (m.vert m.istate).isSome
  depth : 1 ≤ m.maxDepth

/-- No transition is triggered by the completion event. -/
def NoCompletion (m : Machine) : Prop := ∀ v p tbl, m.vert v = some (.basic p tbl) → ∀ t ∈ tbl, t.event ≠ sigCompletion

/-- Is this something else than the entry or exit of a state. -/
def notEnEx : Obs → Bool
  | .entry _ => false
  | .exit _ => false
  | _ => true

/-- What remains of a log if states have no entry and exit actions. -/
def noEnEx (l : List Obs) : List Obs := l.filter notEnEx

/-- A state machine object: creation, then a sequence of events. It goes on after an error code and ends with an assertion. -/
def serve (d : Sig → Eng Unit) : List Sig → Mem → Mem × List (Ans Unit)
  | [], s => (s, [])
  | e :: es, s =>
    match d e s with
    | (s1, .ok ()) => let r := serve d es s1; (r.1, .ok () :: r.2)
    | (s1, .stop (.rc c)) => let r := serve d es s1; (r.1, .stop (.rc c) :: r.2)
    | (s1, .stop c) => (s1, [.stop c])

end Spec
open Spec

/-- Memories of the two configurations that correspond to each other. -/
structure FlatRel (m : Machine) (s t : Mem) : Prop where
  state : s.state = t.state
  hist : s.hist = t.hist
  log : s.log = noEnEx t.log
  valid : ∃ v, s.state = some v ∧ (m.vert v).isSome

/-- Results that correspond to each other. -/
def AnsRel {α β : Type} (A : α → β → Prop) : Ans α → Ans β → Prop
  | .ok a, .ok b => A a b
  | .stop c, .stop d => c = d
  | _, _ => False

/-- Pieces of the two engines that correspond to each other. -/
def FlatCorr (m : Machine) {α β : Type} (A : α → β → Prop) (x : Eng α) (y : Eng β) : Prop :=
  ∀ s t, FlatRel m s t → FlatRel m (x s).1 (y t).1 ∧ AnsRel A (x s).2 (y t).2

theorem FlatCorr.bind {m : Machine} {α β γ δ : Type} {A : α → β → Prop} {B : γ → δ → Prop} {x : Eng α} {y : Eng β} {f : α → Eng γ} {g : β → Eng δ}
    (h : FlatCorr m A x y) (hf : ∀ a b, A a b → FlatCorr m B (f a) (g b)) : FlatCorr m B (x >>= f) (y >>= g) := by
  intro s t hs
  have h1 := h s t hs
  show FlatRel m (Eng.bind x f s).1 (Eng.bind y g t).1 ∧ AnsRel B (Eng.bind x f s).2 (Eng.bind y g t).2
  unfold Eng.bind
  rcases hx : x s with ⟨s1, a | c⟩ <;> rcases hy : y t with ⟨t1, b | d⟩ <;> rw [hx, hy] at h1 <;> simp only [AnsRel] at h1 ⊢
  · exact hf a b h1.2 s1 t1 h1.1
  · exact h1.2.elim
  · exact h1.2.elim
  · exact h1

theorem FlatCorr.mono {m : Machine} {α β : Type} {A B : α → β → Prop} {x : Eng α} {y : Eng β} (h : FlatCorr m A x y)
    (hab : ∀ a b, A a b → B a b) : FlatCorr m B x y := by
  intro s t hs
  have h1 := h s t hs
  rcases hx : x s with ⟨s1, a | c⟩ <;> rcases hy : y t with ⟨t1, b | d⟩ <;> rw [hx, hy] at h1 <;> simp only [AnsRel] at h1 ⊢
  · exact ⟨h1.1, hab a b h1.2⟩
  · exact h1
  · exact h1
  · exact h1

/-- A piece of the hierarchical engine that only enters and leaves states. -/
def OnlyEnEx (m : Machine) {α : Type} (z : Eng α) (a : α) : Prop := ∀ s t, FlatRel m s t → FlatRel m s (z t).1 ∧ (z t).2 = .ok a

theorem OnlyEnEx.bind {m : Machine} {α β : Type} {z : Eng α} {a : α} {g : α → Eng β} {b : β} (h : OnlyEnEx m z a) (hg : OnlyEnEx m (g a) b) :
    OnlyEnEx m (z >>= g) b := by
  intro s t hs
  have h1 := h s t hs
  show FlatRel m s (Eng.bind z g t).1 ∧ (Eng.bind z g t).2 = .ok b
  unfold Eng.bind
  rcases hz : z t with ⟨t1, x⟩
  rw [hz] at h1
  obtain ⟨h1, h2⟩ := h1
  simp only at h1 h2
  subst h2
  exact hg s t1 h1

theorem OnlyEnEx.pure {m : Machine} {α : Type} {a : α} : OnlyEnEx m (Pure.pure a : Eng α) a := fun _ _ hs => ⟨hs, rfl⟩

theorem OnlyEnEx.emit {m : Machine} {o : Obs} (h : notEnEx o = false) : OnlyEnEx m (emit o) () := by
  intro s t hs
  refine ⟨⟨hs.state, hs.hist, ?_, hs.valid⟩, rfl⟩
  show s.log = noEnEx (t.log ++ [o])
  have : noEnEx (t.log ++ [o]) = noEnEx t.log ++ noEnEx [o] := List.filter_append ..
  rw [this, hs.log]
  simp [noEnEx, h]

theorem OnlyEnEx.then {m : Machine} {α β γ : Type} {B : γ → β → Prop} {z : Eng α} {a : α} {x : Eng γ} {g : α → Eng β} (h : OnlyEnEx m z a)
    (hg : FlatCorr m B x (g a)) : FlatCorr m B x (z >>= g) := by
  intro s t hs
  have h1 := h s t hs
  show FlatRel m (x s).1 (Eng.bind z g t).1 ∧ AnsRel B (x s).2 (Eng.bind z g t).2
  unfold Eng.bind
  rcases hz : z t with ⟨t1, y⟩
  rw [hz] at h1
  obtain ⟨h1, h2⟩ := h1
  simp only at h1 h2
  subst h2
  exact hg s t1 h1

theorem FlatCorr.after {m : Machine} {α β γ : Type} {A : α → β → Prop} {x : Eng α} {y : Eng β} {g : β → Eng γ} {c : γ} (h : FlatCorr m A x y)
    (hg : ∀ b, OnlyEnEx m (g b) c) : FlatCorr m (fun _ d => d = c) x (y >>= g) := by
  intro s t hs
  have h1 := h s t hs
  show FlatRel m (x s).1 (Eng.bind y g t).1 ∧ AnsRel _ (x s).2 (Eng.bind y g t).2
  unfold Eng.bind
  rcases hx : x s with ⟨s1, a | c⟩ <;> rcases hy : y t with ⟨t1, b | d⟩ <;> rw [hx, hy] at h1 <;> simp only [AnsRel] at h1 ⊢
  · have h2 := hg b s1 t1 h1.1
    rw [h2.2]
    exact ⟨h2.1, rfl⟩
  · exact h1.2.elim
  · exact h1.2.elim
  · exact h1

theorem FlatCorr.pure {m : Machine} {α β : Type} {A : α → β → Prop} {a : α} {b : β} (h : A a b) :
    FlatCorr m A (Pure.pure a : Eng α) (Pure.pure b : Eng β) := fun _ _ hs => ⟨hs, h⟩

theorem FlatCorr.stop {m : Machine} {α β : Type} {A : α → β → Prop} {c : Stop} : FlatCorr m A (Eng.stop c : Eng α) (Eng.stop c : Eng β) :=
  fun _ _ hs => ⟨hs, rfl⟩

/-- Guards that do not see entries and exits. -/
def noSee (env : Env) : Env := fun g e l => env g e (noEnEx l)

theorem noEnEx_append (a b : List Obs) : noEnEx (a ++ b) = noEnEx a ++ noEnEx b := List.filter_append ..

theorem corr_emit {m : Machine} {o : Obs} (h : notEnEx o = true) : FlatCorr m (fun _ _ => True) (emit o) (emit o) := by
  intro s t hs
  refine ⟨⟨hs.state, hs.hist, ?_, hs.valid⟩, trivial⟩
  show s.log ++ [o] = noEnEx (t.log ++ [o])
  rw [noEnEx_append, hs.log]
  simp [noEnEx, h]

theorem corr_evalGuard {m : Machine} {env : Env} {e : Sig} (g : Option Guard) :
    FlatCorr m (fun a b => a = b) (evalGuard env e g) (evalGuard (noSee env) e g) := by
  cases g with
  | none => exact FlatCorr.pure rfl
  | some g =>
    cases g with
    | els => exact FlatCorr.pure rfl
    | fn g =>
      intro s t hs
      refine ⟨⟨hs.state, hs.hist, ?_, hs.valid⟩, ?_⟩
      · show s.log ++ [.guard g e (env g e s.log)] = noEnEx (t.log ++ [.guard g e (noSee env g e t.log)])
        rw [noEnEx_append, hs.log]
        simp only [noSee, noEnEx]
        rfl
      · show env g e s.log = noSee env g e t.log
        rw [hs.log]; rfl

theorem corr_findTrn {m : Machine} {env : Env} {e : Sig} : ∀ tbl : List Tr,
    FlatCorr m (fun a b => a = b ∧ ∀ x, a = some x → x ∈ tbl) (findTrn env e tbl) (findTrn (noSee env) e tbl) := by
  intro tbl
  induction tbl with
  | nil => exact FlatCorr.pure ⟨rfl, fun x h => by cases h⟩
  | cons t ts ih =>
    have ih' : FlatCorr m (fun a b => a = b ∧ ∀ x, a = some x → x ∈ t :: ts) (findTrn env e ts) (findTrn (noSee env) e ts) :=
      ih.mono fun a b h => ⟨h.1, fun x hx => List.mem_cons_of_mem _ (h.2 x hx)⟩
    unfold findTrn
    by_cases h1 : t.event = sigAny
    · rw [if_pos h1, if_pos h1]; exact FlatCorr.pure ⟨rfl, fun x h => by cases h⟩
    · rw [if_neg h1, if_neg h1]
      by_cases h2 : t.event = e
      · rw [if_pos h2, if_pos h2]
        refine (corr_evalGuard t.guard).bind ?_
        rintro a b rfl
        cases a
        · exact ih'
        · exact FlatCorr.pure ⟨rfl, fun x h => by cases h; simp⟩
      · rw [if_neg h2, if_neg h2]; exact ih'

theorem corr_exec {m : Machine} {e : Sig} : ∀ al : List Act, FlatCorr m (fun _ _ => True) (exec e al) (exec e al) := by
  intro al
  induction al with
  | nil => exact FlatCorr.pure trivial
  | cons a al ih => exact (corr_emit rfl).bind fun _ _ _ => ih

theorem corr_pushAct {m : Machine} {al : List Act} {a : Option Act} :
    FlatCorr m (fun a b => a = b) (pushAct m al a) (pushAct m al a) := by
  unfold pushAct
  cases addAct m al a with
  | none => exact FlatCorr.stop
  | some l => exact FlatCorr.pure rfl

theorem Spec.Flat.parent {m : Machine} (h : Flat m) {v : Vid} (hv : (m.vert v).isSome) : m.parent v = some none := by
  obtain ⟨x, hx⟩ := Option.isSome_iff_exists.mp hv
  obtain ⟨tbl, rfl, _⟩ := h.basic v x hx
  simp [Machine.parent, hx]

theorem silent_shallow {m : Machine} (h : Flat m) {v : Vid} (hv : (m.vert v).isSome) : OnlyEnEx m (updShallow m v) () := by
  unfold updShallow
  refine OnlyEnEx.bind (a := none) ?_ OnlyEnEx.pure
  intro s t hs
  refine ⟨hs, ?_⟩
  show shallowTarget m v = _
  simp [shallowTarget, h.parent hv]

theorem silent_exits {m : Machine} (h : Flat m) {cs v : Vid} (hc : (m.vert cs).isSome) (hv : (m.vert v).isSome) (f : Nat) :
    OnlyEnEx m (exits m v (f + 3) 0 (some cs) []) [v] := by
  have hd := h.depth
  unfold exits
  by_cases hcv : v = cs
  · subst hcv
    refine OnlyEnEx.bind (a := (true, [])) (fun s t hs => ⟨hs, by show findLca m v (f + 2) (some v) [] = _; simp [findLca]⟩) ?_
    refine OnlyEnEx.bind (OnlyEnEx.emit rfl) (OnlyEnEx.bind (silent_shallow h hc) ?_)
    rw [if_pos (by simp only [List.length_nil]; omega)]
    exact OnlyEnEx.pure
  · refine OnlyEnEx.bind (a := (false, [v])) (fun s t hs => ⟨hs, by
      show findLca m cs (f + 2) (some v) [] = _
      simp only [findLca, if_neg hcv, List.length_nil, h.parent hv]
      rw [if_pos (by omega)]; simp⟩) ?_
    refine OnlyEnEx.bind (OnlyEnEx.emit rfl) (OnlyEnEx.bind (silent_shallow h hc) ?_)
    rw [h.parent hc]
    simp only
    unfold exits
    exact OnlyEnEx.pure

theorem findCompletion_false {tbl : List Tr} (h : ∀ t ∈ tbl, t.event ≠ sigCompletion) : findCompletion tbl = false := by
  induction tbl with
  | nil => rfl
  | cons t ts ih =>
    unfold findCompletion
    rw [if_neg (h t (by simp)), ih fun t ht => h t (List.mem_cons_of_mem _ ht)]
    split <;> rfl

theorem isCompletion_false {m : Machine} (h : Flat m) (hn : NoCompletion m) (v : Vid) : isCompletion m v = false := by
  unfold isCompletion
  split
  · rename_i p tbl hx; exact findCompletion_false (hn v p tbl hx)
  · rename_i p hx; obtain ⟨tbl, hx, _⟩ := h.basic v _ hx; cases hx
  · rfl

/-- The hierarchical stages of a transition, for a flat machine: the same as its effects. -/
theorem corr_segLoop {m : Machine} (h : Flat m) (hn : NoCompletion m) {env : Env} {e : Sig} {creation : Bool} {cs s v : Vid}
    (hc : (m.vert cs).isSome) (hv : (m.vert v).isSome) (ta : Option Act) (f : Nat) :
    FlatCorr m (fun _ b => b = (v, false)) (do let al ← pushAct m [] ta; exec e al)
      (segLoop m env e creation cs (f + 4) false s v ta false) := by
  unfold segLoop
  refine corr_pushAct.bind ?_
  rintro al _ rfl
  obtain ⟨x, hx⟩ := Option.isSome_iff_exists.mp hv
  obtain ⟨tbl, rfl, _⟩ := h.basic v x hx
  have hr : resolve m env e false (f + 3) s v al = (Pure.pure (s, v, al) : Eng _) := by
    simp only [resolve, hx]
  have hcomp : m.comp v = none := by simp [Machine.comp, hx]
  rw [hr]
  refine OnlyEnEx.then (a := (s, v, al)) OnlyEnEx.pure ?_
  refine OnlyEnEx.then (a := [v]) ?_ ?_
  · cases creation
    · exact silent_exits h hc hv f
    · intro a b hs
      refine ⟨hs, ?_⟩
      show addTarget m (f + 3) v none = _
      simp only [addTarget, hx, addTargetLoop, h.parent hv]
      simp [Nat.lt_of_lt_of_le Nat.zero_lt_one h.depth]
  simp only [hcomp, List.reverse_singleton]
  refine (corr_exec al).after fun _ => ?_
  refine OnlyEnEx.bind (a := false) ?_ OnlyEnEx.pure
  unfold enter
  refine OnlyEnEx.bind (OnlyEnEx.emit rfl) ?_
  unfold enter
  rw [isCompletion_false h hn v]
  exact OnlyEnEx.pure

theorem corr_finish {m : Machine} (h : Flat m) {v : Vid} (hv : (m.vert v).isSome) (f : Nat) :
    FlatCorr m (fun _ _ => True) (do modify fun mem => { mem with state := some v }; emit (.stable v)) (finish m (f + 1) v) := by
  unfold finish
  rw [h.parent hv]
  refine OnlyEnEx.then (a := []) (fun s t hs => ⟨hs, rfl⟩) ?_
  refine FlatCorr.bind (A := fun _ _ => True) ?_ fun _ _ _ => corr_emit rfl
  intro s t hs
  exact ⟨⟨rfl, hs.hist, hs.log, v, rfl, hv⟩, trivial⟩

theorem FlatCorr.after' {m : Machine} {α β γ : Type} {b0 : β} {x : Eng α} {y : Eng β} {g : β → Eng γ} {c : γ} (h : FlatCorr m (fun _ b => b = b0) x y)
    (hg : OnlyEnEx m (g b0) c) : FlatCorr m (fun _ d => d = c) x (y >>= g) := by
  intro s t hs
  have h1 := h s t hs
  show FlatRel m (x s).1 (Eng.bind y g t).1 ∧ AnsRel _ (x s).2 (Eng.bind y g t).2
  unfold Eng.bind
  rcases hx : x s with ⟨s1, a | c⟩ <;> rcases hy : y t with ⟨t1, b | d⟩ <;> rw [hx, hy] at h1 <;> simp only [AnsRel] at h1 ⊢
  · obtain ⟨h1, rfl⟩ := h1
    have h2 := hg s1 t1 h1
    rw [h2.2]
    exact ⟨h2.1, rfl⟩
  · exact h1.2.elim
  · exact h1.2.elim
  · exact h1

theorem bind_assoc' {α β γ : Type} (x : Eng α) (f : α → Eng β) (g : β → Eng γ) : (x >>= f) >>= g = x >>= fun a => f a >>= g := by
  funext s
  show Eng.bind (Eng.bind x f) g s = Eng.bind x (fun a => Eng.bind (f a) g) s
  unfold Eng.bind
  rcases x s with ⟨s1, a | c⟩ <;> rfl

/-- The search for a transition, for a flat machine. -/
theorem searchUp_flat {m : Machine} (h : Flat m) {env : Env} {e : Sig} {cs : Vid} {tbl : List Tr} (hx : m.vert cs = some (.basic none tbl)) (f : Nat) :
    searchUp m env e (f + 1) cs = (do let r ← findTrn env e tbl; Pure.pure (r.map fun t => (cs, t))) := by
  unfold searchUp
  rw [show m.trtbl cs = some tbl by simp [Machine.trtbl, hx]]
  simp only [h.parent (v := cs) (by simp [hx])]
  congr 1
  funext r
  cases r <;> rfl

/-- Executing the effects, then storing the target. -/
theorem corr_external {m : Machine} (h : Flat m) (hn : NoCompletion m) {env : Env} {e : Sig} {creation : Bool} {cs s v : Vid}
    (hc : (m.vert cs).isSome) (hv : (m.vert v).isSome) (ta : Option Act) (f : Nat) :
    FlatCorr m (fun _ b => b = false)
      (do let al ← pushAct m [] ta
          exec e al
          modify fun mem => { mem with state := some v }
          emit (.stable v))
      (do let r ← segLoop m env e creation cs (f + 4) false s v ta false
          finish m (f + 4) r.1
          Pure.pure r.2) := by
  have h1 := corr_segLoop h hn (env := env) (e := e) (creation := creation) (s := s) hc hv ta f
  have h2 := h1.bind (B := fun _ b => b = false) (f := fun _ => do modify fun mem => { mem with state := some v }; emit (.stable v))
    (g := fun r => do finish m (f + 4) r.1; Pure.pure r.2) (by
      rintro _ _ rfl
      exact (corr_finish h hv (f + 3)).after fun _ => OnlyEnEx.pure)
  rw [bind_assoc'] at h2
  exact h2

/-- One compound transition. -/
theorem corr_compound {m : Machine} (h : Flat m) (hn : NoCompletion m) (env : Env) (e : Sig) (f : Nat) :
    FlatCorr m (fun _ b => b = false) (flatDispatch m env e) (compound m (noSee env) (f + 4) e (e == sigCreation)) := by
  unfold flatDispatch compound
  cases e == sigCreation
  · simp only
    intro s t hs
    obtain ⟨cs, hcs, hcv⟩ := hs.valid
    have hct : t.state = some cs := by rw [← hs.state]; exact hcs
    obtain ⟨x, hx⟩ := Option.isSome_iff_exists.mp hcv
    obtain ⟨tbl, rfl, htg⟩ := h.basic cs x hx
    have htbl : m.trtbl cs = some tbl := by simp [Machine.trtbl, hx]
    -- the body of both engines after the current state has been read
    have key : FlatCorr m (fun _ b => b = false)
        (do let r ← findTrn env e tbl
            match r with
            | none => Eng.stop (.rc .evtNFound)
            | some t => do
              let al ← pushAct m [] t.action
              exec e al
              match t.target with
              | none => Pure.pure ()
              | some v =>
                match m.vert v with
                | none => Eng.stop .ub
                | some _ => do
                  modify fun mem => { mem with state := some (if v = cs then cs else v) }
                  emit (.stable (if v = cs then cs else v)))
        (do let r ← searchUp m (noSee env) e (f + 4) cs
            match r with
            | none => Eng.stop (.rc .evtNFound)
            | some (s, t) =>
              match t.target with
              | none => do
                let al ← pushAct m [] t.action
                exec e al
                Pure.pure false
              | some v => do
                let r ← segLoop m (noSee env) e false cs (f + 4) false s v t.action false
                finish m (f + 4) r.1
                Pure.pure r.2) := by
      rw [searchUp_flat h hx, bind_assoc']
      refine (corr_findTrn tbl).bind ?_
      rintro a _ ⟨rfl, ha⟩
      refine OnlyEnEx.then OnlyEnEx.pure ?_
      cases a with
      | none => exact FlatCorr.stop
      | some tr =>
        simp only [Option.map_some]
        cases htt : tr.target with
        | none =>
          refine corr_pushAct.bind ?_
          rintro al _ rfl
          refine (corr_exec al).bind fun _ _ _ => FlatCorr.pure rfl
        | some v =>
          have hv := htg tr (ha tr rfl) v htt
          have h3 := corr_external h hn (env := noSee env) (e := e) (creation := false) (s := cs) hcv hv tr.action f
          have hiv : (if v = cs then cs else v) = v := by split <;> simp_all
          obtain ⟨y, hy⟩ := Option.isSome_iff_exists.mp hv
          simp only [hy, hiv]
          exact h3
    have hk := key s t hs
    have e1 : (flatDispatch m env e s) = flatDispatch m env e s := rfl
    change FlatRel m (Eng.bind Eng.get _ s).1 (Eng.bind Eng.get _ t).1 ∧ AnsRel _ (Eng.bind Eng.get _ s).2 (Eng.bind Eng.get _ t).2
    simp only [Eng.bind, Eng.get, hcs, hct, htbl]
    exact hk
  · have h3 := corr_external h hn (env := noSee env) (e := e) (creation := true) (s := m.istate) h.init h.init m.iaction f
    obtain ⟨y, hy⟩ := Option.isSome_iff_exists.mp h.init
    simp only [hy]
    exact h3

/-- One dispatch. -/
theorem corr_dispatch {m : Machine} (h : Flat m) (hn : NoCompletion m) (env : Env) (e : Sig) (f : Nat) :
    FlatCorr m (fun _ _ => True) (flatDispatch m env e) (dispatch m (noSee env) (f + 5) e) := by
  unfold dispatch passes
  exact ((corr_compound h hn env e f).after' (c := ()) OnlyEnEx.pure).mono fun _ _ _ => trivial

theorem corr_serve {m : Machine} (h : Flat m) (hn : NoCompletion m) (env : Env) (f : Nat) : ∀ (es : List Sig) (s t : Mem), FlatRel m s t →
    FlatRel m (serve (flatDispatch m env) es s).1 (serve (dispatch m (noSee env) (f + 5)) es t).1 ∧
      (serve (flatDispatch m env) es s).2 = (serve (dispatch m (noSee env) (f + 5)) es t).2 := by
  intro es
  induction es with
  | nil => intro s t hs; exact ⟨hs, rfl⟩
  | cons e es ih =>
    intro s t hs
    have h1 := corr_dispatch h hn env e f s t hs
    unfold serve
    rcases hx : flatDispatch m env e s with ⟨s1, a | c⟩ <;> rcases hy : dispatch m (noSee env) (f + 5) e t with ⟨t1, b | d⟩ <;>
      rw [hx, hy] at h1 <;> simp only [AnsRel] at h1 ⊢
    · have h2 := ih s1 t1 h1.1
      exact ⟨h2.1, by rw [h2.2]⟩
    · exact h1.2.elim
    · exact h1.2.elim
    · obtain ⟨h1, rfl⟩ := h1
      cases c with
      | rc k => have h2 := ih s1 t1 h1; exact ⟨h2.1, by simp only [h2.2]⟩
      | assert => exact ⟨h1, rfl⟩
      | ub => exact ⟨h1, rfl⟩
      | fuel => exact ⟨h1, rfl⟩

end Verif.SM
