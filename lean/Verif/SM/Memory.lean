import Verif.SM.Model
/-
What the future of a state machine depends on: the current state, the histories and what the application's guards can tell of the
past; nothing else of how the machine got where it is.
-/
namespace Verif.SM.Spec
open Verif.SM

/-- The guards cannot tell the pasts `a` and `b` apart, now or later: they return the same whatever happens next. (If the guards
read variables of the application, this holds as soon as the variables have the same values.) -/
def Alike (env : Env) (a b : List Obs) : Prop := ∀ g e d, env g e (a ++ d) = env g e (b ++ d)

/-- Two state machine objects (of the same machine) in the same situation. -/
structure SameSituation (m : Machine) (env : Env) (s t : Mem) : Prop where
  state : s.state = t.state
  hist : ∀ h d p trn, m.vert h = some (.hist d p trn) → s.hist h = t.hist h
  past : Alike env s.log t.log

end Verif.SM.Spec

namespace Verif.SM
open Eng Spec

/-- A piece of the engine that does the same in the same situation. -/
def Unif (m : Machine) (env : Env) {α : Type} (x : Eng α) : Prop := ∀ s t, SameSituation m env s t → (x s).2 = (x t).2 ∧
  SameSituation m env (x s).1 (x t).1 ∧ ∃ d, (x s).1.log = s.log ++ d ∧ (x t).1.log = t.log ++ d

section
variable {m : Machine} {env : Env} {α β : Type}

theorem Unif.still {a : Ans α} : Unif m env (fun s => (s, a) : Eng α) := fun _ _ h => ⟨rfl, h, [], by simp, by simp⟩

theorem Unif.pure (a : α) : Unif m env (pure a : Eng α) := Unif.still
theorem Unif.stop (c : Stop) : Unif m env (Eng.stop c : Eng α) := Unif.still
theorem Unif.lift (a : Ans α) : Unif m env (Eng.lift a : Eng α) := Unif.still

theorem Unif.bind {x : Eng α} {f : α → Eng β} (hx : Unif m env x) (hf : ∀ a, Unif m env (f a)) : Unif m env (x >>= f) := by
  intro s t h
  obtain ⟨h1, h2, d, h3, h4⟩ := hx s t h
  show (Eng.bind x f s).2 = (Eng.bind x f t).2 ∧ SameSituation m env (Eng.bind x f s).1 (Eng.bind x f t).1 ∧
    ∃ d, (Eng.bind x f s).1.log = s.log ++ d ∧ (Eng.bind x f t).1.log = t.log ++ d
  unfold Eng.bind
  rcases e1 : x s with ⟨s1, a⟩
  rcases e2 : x t with ⟨t1, b⟩
  rw [e1, e2] at h1 h2
  rw [e1] at h3
  rw [e2] at h4
  simp only at h1 h2 h3 h4
  subst h1
  cases a with
  | ok a =>
    obtain ⟨g1, g2, d', g3, g4⟩ := hf a s1 t1 h2
    exact ⟨g1, g2, d ++ d', by rw [g3, h3, List.append_assoc], by rw [g4, h4, List.append_assoc]⟩
  | stop c => exact ⟨rfl, h2, d, h3, h4⟩

theorem _root_.Verif.SM.Spec.Alike.app {a b : List Obs} (h : Alike env a b) (d : List Obs) : Alike env (a ++ d) (b ++ d) := by
  intro g e d'
  rw [List.append_assoc, List.append_assoc]
  exact h g e _

theorem Unif.emit (o : Obs) : Unif m env (Eng.emit o) := fun _ _ h => ⟨rfl, ⟨h.state, h.hist, Alike.app h.past [o]⟩, [o], rfl, rfl⟩

theorem Unif.getBind {f : Mem → Eng β} (hf : ∀ s t, SameSituation m env s t → (f s s).2 = (f t t).2 ∧
    SameSituation m env (f s s).1 (f t t).1 ∧ ∃ d, (f s s).1.log = s.log ++ d ∧ (f t t).1.log = t.log ++ d) :
    Unif m env (Eng.get >>= f) := fun s t h => hf s t h

theorem Unif.guard (e : Sig) : ∀ g, Unif m env (evalGuard env e g)
  | none => Unif.pure _
  | some .els => Unif.pure _
  | some (.fn g) => by
    intro s t h
    have hg : env g e s.log = env g e t.log := by simpa using h.past g e []
    refine ⟨by simp [evalGuard, hg], ⟨h.state, h.hist, ?_⟩, [.guard g e (env g e s.log)], rfl, by simp [evalGuard, hg]⟩
    simp only [evalGuard, hg]
    exact Alike.app h.past _

theorem Unif.findTrn (e : Sig) : ∀ l, Unif m env (findTrn env e l)
  | [] => Unif.pure _
  | t :: ts => by
    unfold Verif.SM.findTrn
    split
    · exact Unif.pure _
    · split
      · refine (Unif.guard e _).bind fun b => ?_
        cases b
        · exact Unif.findTrn e ts
        · exact Unif.pure _
      · exact Unif.findTrn e ts

theorem Unif.findBranch (e : Sig) : ∀ l, Unif m env (findBranch env e l)
  | [] => Unif.pure _
  | t :: ts => by
    unfold Verif.SM.findBranch
    split
    · exact Unif.pure _
    · split
      · exact Unif.findBranch e ts
      · refine (Unif.guard e _).bind fun b => ?_
        cases b
        · exact Unif.findBranch e ts
        · exact Unif.pure _

theorem Unif.exec (e : Sig) : ∀ l, Unif m env (exec e l)
  | [] => Unif.pure _
  | _ :: l => (Unif.emit _).bind fun _ => Unif.exec e l

theorem Unif.searchUp (e : Sig) : ∀ f s, Unif m env (searchUp m env e f s)
  | 0, _ => Unif.stop _
  | f + 1, s => by
    unfold Verif.SM.searchUp
    split
    · exact Unif.stop _
    · refine (Unif.findTrn e _).bind fun r => ?_
      split
      · exact Unif.pure _
      · split
        · exact Unif.stop _
        · exact Unif.pure _
        · exact Unif.searchUp e f _

theorem Unif.pushAct (al : List Act) (a : Option Act) : Unif m env (pushAct m al a) := by
  unfold Verif.SM.pushAct
  split
  · exact Unif.stop _
  · exact Unif.pure _

theorem setHist_same {f g : Vid → Option Vid} {k j : Vid} {x : Option Vid} (h : f j = g j) : setHist f k x j = setHist g k x j := by
  unfold setHist; split <;> simp [h]

theorem Unif.updShallow (v : Vid) : Unif m env (updShallow m v) := by
  unfold Verif.SM.updShallow
  refine (Unif.lift _).bind fun r => ?_
  split
  · exact Unif.pure _
  · exact fun _ _ h => ⟨rfl, ⟨h.state, fun _ _ _ _ hv => setHist_same (h.hist _ _ _ _ hv), h.past⟩, [], by simp [Eng.modify], by simp [Eng.modify]⟩

theorem Unif.exits (ts : Vid) : ∀ f ix x ent, Unif m env (exits m ts f ix x ent)
  | 0, _, _, _ => Unif.stop _
  | _ + 1, _, none, _ => Unif.pure _
  | f + 1, ix, some x, _ => by
    unfold Verif.SM.exits
    refine (Unif.lift _).bind fun r => ?_
    split
    · split
      · refine (Unif.emit _).bind fun _ => (Unif.updShallow _).bind fun _ => ?_
        split
        · exact Unif.pure _
        · exact Unif.stop _
      · exact Unif.pure _
    · refine (Unif.emit _).bind fun _ => (Unif.updShallow _).bind fun _ => ?_
      split
      · exact Unif.stop _
      · exact Unif.exits ts f _ _ _

theorem Unif.enter : ∀ l c, Unif m env (enter m l c)
  | [], _ => Unif.pure _
  | _ :: l, _ => (Unif.emit _).bind fun _ => Unif.enter l _

theorem Unif.takeBranch (e : Sig) (tbl : List Tr) (al : List Act) : Unif m env (takeBranch m env e tbl al) := by
  unfold Verif.SM.takeBranch
  refine (Unif.findBranch e _).bind fun r => ?_
  split
  · exact Unif.stop _
  · refine (Unif.pushAct _ _).bind fun _ => ?_
    split
    · exact Unif.stop _
    · exact Unif.pure _

theorem Unif.takeHist (e : Sig) (h : Vid) (par : Option Vid) (trn : Tr) (al : List Act) {d : Bool}
    (hv : m.vert h = some (.hist d par trn)) : Unif m env (takeHist m env e h par trn al) := by
  unfold Verif.SM.takeHist
  cases par with
  | none => exact Unif.stop _
  | some p =>
    simp only
    split
    · split
      · exact Unif.stop _
      · refine Unif.getBind fun s t hst => ?_
        rw [hst.hist _ _ _ _ hv]
        suffices h : ∀ x : Option Vid, Unif m env (match x with
            | some v => Pure.pure (p, v, al)
            | none =>
              match trn.target with
              | none => Pure.pure (p, p, al)
              | some v => do
                let b ← evalGuard env e trn.guard
                match b with
                | false => Eng.stop (.rc .grdFalse)
                | true => do
                  let al ← Verif.SM.pushAct m al trn.action
                  Pure.pure (p, v, al) : Eng (Vid × Vid × List Act)) from h _ s t hst
        intro x
        split
        · exact Unif.pure _
        · split
          · exact Unif.pure _
          · refine (Unif.guard e _).bind fun b => ?_
            cases b
            · exact Unif.stop _
            · exact (Unif.pushAct _ _).bind fun _ => Unif.pure _
    · exact Unif.stop _

theorem Unif.precheck (f : Nat) (micro : Bool) (ets stn : Vid) : Unif m env (precheck m f micro ets stn) := by
  unfold Verif.SM.precheck
  split
  · exact (Unif.lift _).bind fun _ => Unif.pure _
  · exact Unif.pure _

theorem Unif.resolve (e : Sig) (micro : Bool) : ∀ f stn ets al, Unif m env (resolve m env e micro f stn ets al)
  | 0, _, _, _ => Unif.stop _
  | f + 1, stn, ets, al => by
    unfold Verif.SM.resolve
    split
    · exact Unif.stop _
    · exact Unif.pure _
    · exact Unif.pure _
    · exact Unif.pure _
    · exact (Unif.exec e _).bind fun _ => (Unif.takeBranch e _ _).bind fun _ => (Unif.precheck _ _ _ _).bind fun _ =>
        Unif.resolve e micro f _ _ _
    · exact (Unif.takeBranch e _ _).bind fun _ => (Unif.precheck _ _ _ _).bind fun _ => Unif.resolve e micro f _ _ _
    · rename_i hv
      exact (Unif.takeHist e _ _ _ _ hv).bind fun _ => (Unif.precheck _ _ _ _).bind fun _ => Unif.resolve e micro f _ _ _
    · exact Unif.stop _

theorem Unif.stage4 (f : Nat) (creation micro : Bool) (cs stn ts : Vid) : Unif m env (stage4 m f creation micro cs stn ts) := by
  unfold Verif.SM.stage4
  split
  · exact Unif.lift _
  · exact Unif.lift _
  · exact Unif.exits _ _ _ _ _

theorem Unif.segLoop (e : Sig) (creation : Bool) (cs : Vid) : ∀ f micro stn ets ta compl,
    Unif m env (segLoop m env e creation cs f micro stn ets ta compl)
  | 0, _, _, _, _, _ => Unif.stop _
  | f + 1, _, _, _, _, _ => by
    unfold Verif.SM.segLoop
    refine (Unif.pushAct _ _).bind fun _ => (Unif.resolve e _ _ _ _ _).bind fun _ => (Unif.stage4 _ _ _ _ _ _).bind fun _ =>
      (Unif.exec e _).bind fun _ => (Unif.enter _ _).bind fun _ => ?_
    split
    · exact Unif.segLoop e creation cs f _ _ _ _ _
    · split
      · exact Unif.stop _
      · exact Unif.pure _

theorem foldl_same {x : Option Vid} {j : Vid} : ∀ {ks : List Vid} {f g : Vid → Option Vid}, f j = g j →
    ks.foldl (fun h k => setHist h k x) f j = ks.foldl (fun h k => setHist h k x) g j
  | [], _, _, h => h
  | k :: ks, f, g, h => foldl_same (ks := ks) (f := setHist f k x) (g := setHist g k x) (setHist_same h)

theorem Unif.finish (f : Nat) (v : Vid) : Unif m env (finish m f v) := by
  unfold Verif.SM.finish
  split
  · exact Unif.stop _
  · refine (Unif.lift _).bind fun _ => Unif.bind ?_ fun _ => Unif.emit _
    exact fun _ _ h => ⟨rfl, ⟨rfl, fun _ _ _ _ hv => foldl_same (h.hist _ _ _ _ hv), h.past⟩, [], by simp [Eng.modify], by simp [Eng.modify]⟩

theorem Unif.compound (f : Nat) (e : Sig) (creation : Bool) : Unif m env (compound m env f e creation) := by
  unfold Verif.SM.compound
  split
  · exact (Unif.segLoop _ _ _ _ _ _ _ _ _).bind fun _ => (Unif.finish _ _).bind fun _ => Unif.pure _
  · refine Unif.getBind fun s t hst => ?_
    rw [hst.state]
    cases t.state with
    | none => exact Unif.stop (α := Bool) .ub s t hst
    | some cs =>
      refine Unif.bind (α := Option (Vid × Tr)) (β := Bool) (Unif.searchUp e f cs) (fun r => ?_) s t hst
      split
      · exact Unif.stop _
      · split
        · exact (Unif.pushAct _ _).bind fun _ => (Unif.exec _ _).bind fun _ => Unif.pure _
        · exact (Unif.segLoop _ _ _ _ _ _ _ _ _).bind fun _ => (Unif.finish _ _).bind fun _ => Unif.pure _

theorem Unif.passes : ∀ f e creation, Unif m env (passes m env f e creation)
  | 0, _, _ => Unif.stop _
  | f + 1, e, creation => by
    unfold Verif.SM.passes
    refine (Unif.compound f e creation).bind fun c => ?_
    cases c
    · exact Unif.pure _
    · exact Unif.passes f _ _

theorem Unif.op (f : Nat) : ∀ o, Unif m env (op m env f o)
  | .dispatch e => Unif.passes f e _
  | .clearHistory _ => by
    refine Unif.bind ?_ fun _ => Unif.emit _
    exact fun _ _ h => ⟨rfl, ⟨h.state, fun _ _ _ _ hv => setHist_same (h.hist _ _ _ _ hv), h.past⟩, [], by simp [Eng.modify], by simp [Eng.modify]⟩

/-- Guards that read variables of the application, and variables that change with what happens. -/
theorem alike_of_vars {V : Type} {G : Nat → Sig → V → Bool} {upd : V → Obs → V} {v0 : V} {a b : List Obs}
    (h : a.foldl upd v0 = b.foldl upd v0) : Alike (fun g e log => G g e (log.foldl upd v0)) a b := by
  intro g e d
  simp only [List.foldl_append, h]

/-- **C132.** Two state machine objects that are in the same situation answer any further calls alike: the results are the same, the
same actions and guards are called, in the same order and with the same events, the same states are entered and left, and they end
in the same situation. -/
theorem same_situation_same_future {os : List (Op × Nat)} {s t s' t' : Mem} {rs rt : List (Ans Unit)}
    (h : SameSituation m env s t) (hs : calls m env os s = (s', rs)) (ht : calls m env os t = (t', rt)) :
    rs = rt ∧ SameSituation m env s' t' ∧ ∃ d, s'.log = s.log ++ d ∧ t'.log = t.log ++ d := by
  induction os generalizing s t s' t' rs rt with
  | nil => cases hs; cases ht; exact ⟨rfl, h, [], by simp, by simp⟩
  | cons o os ih =>
    obtain ⟨o, f⟩ := o
    obtain ⟨h1, h2, d, h3, h4⟩ := Unif.op (m := m) f o s t h
    unfold calls at hs ht
    rcases e1 : op m env f o s with ⟨s1, a⟩
    rcases e2 : op m env f o t with ⟨t1, b⟩
    rw [e1, e2] at h1 h2
    rw [e1] at h3 hs
    rw [e2] at h4 ht
    simp only at h1 h2 h3 h4
    subst h1
    have go : ∀ a : Ans Unit, ((calls m env os s1).1, a :: (calls m env os s1).2) = (s', rs) →
        ((calls m env os t1).1, a :: (calls m env os t1).2) = (t', rt) →
        rs = rt ∧ SameSituation m env s' t' ∧ ∃ d, s'.log = s.log ++ d ∧ t'.log = t.log ++ d := by
      intro a q1 q2
      cases q1; cases q2
      obtain ⟨g1, g2, d', g3, g4⟩ := ih h2 (Prod.ext rfl rfl) (Prod.ext rfl rfl)
      exact ⟨by rw [g1], g2, d ++ d', by rw [g3, h3, List.append_assoc], by rw [g4, h4, List.append_assoc]⟩
    cases a with
    | ok a => exact go _ hs ht
    | stop c =>
      cases c with
      | rc c => exact go _ hs ht
      | _ => cases hs; cases ht; exact ⟨rfl, h2, d, h3, h4⟩

end

end Verif.SM
