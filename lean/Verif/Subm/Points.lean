import Verif.Subm.DemoProps
/-
Entry and exit points: the order in which the effects of the joined transitions and the entry and exit actions are executed.
-/
namespace Verif.Subm
open Spec
open SM (Vid Sig Act Guard Tr Obs Env RC Stop Ans sigAny sigCompletion sigCreation)

namespace Spec

/-- `e` triggers the transition `t` of the state: it is the first one in its table for the event, and it has no guard. -/
def Triggers (m : Machine) (e : Sig) (cs : Vid) (t : Tr) : Prop :=
  e ≠ sigAny ∧ t.event = e ∧ t.guard = none ∧ ∃ pre post, m.trtbl cs = some (pre ++ t :: post) ∧ ∀ u ∈ pre, u.event ≠ e ∧ u.event ≠ sigAny

/-- Something other than leaving a state. -/
def noExit (o : Obs) : Prop := ∀ x, o ≠ .exit x

/-- The transition `t` of the current state leads to an exit point of the submachine, through which the submachine state `sb` is left: with
the effect `a` of the transition and the effect `b` of the transition that continues it. -/
def LeavesThrough (m : Machine) (s : Mem) (t : Tr) (sb : Vid) (a b : Act) : Prop :=
  t.action = some a ∧ ∃ ep ix M p tt x w, t.target = some ep ∧ m.vert ep = some (.expnt ix M) ∧ s.dyp M = some sb ∧ m.vert sb = some (.subm p tt x M) ∧
    x[ix]? = some (some b, w) ∧ isState m w = true

/-- The transition `t` leads to an entry point of the submachine state `sb`: with the effect `a` of the transition and the effect `b` of the
transition that continues it inside. -/
def EntersThrough (m : Machine) (t : Tr) (sb : Vid) (a b : Act) : Prop :=
  t.action = some a ∧ ∃ ep p tt x M w, t.target = some ep ∧ m.vert ep = some (.enpnt (some b) w sb) ∧ m.vert sb = some (.subm p tt x M) ∧ isState m w = true

end Spec

/-! ## Pieces that leave no state -/

def Calm {α : Type} (x : Eng α) : Prop := ∀ s s' a, x s = (s', .ok a) → ∃ d, s'.log = s.log ++ d ∧ ∀ o ∈ d, noExit o

theorem eng_ok {β γ : Type} {y : Eng β} {g : β → Eng γ} {t t' : Mem} {c : γ} (h : (y >>= g) t = (t', .ok c)) : ∃ t1 b, y t = (t1, .ok b) ∧ g b t1 = (t', .ok c) := by
  change Eng.bind y g t = _ at h
  unfold Eng.bind at h
  cases hy : y t with
  | mk t1 r =>
    rw [hy] at h
    cases r with
    | ok b => exact ⟨t1, b, rfl, h⟩
    | stop q => cases h

section
variable {m : Machine} {env : Env}

theorem Calm.bind {α β : Type} {x : Eng α} {f : α → Eng β} (h : Calm x) (hf : ∀ a, Calm (f a)) : Calm (x >>= f) := by
  intro s s' b hb
  obtain ⟨s1, a, h1, h2⟩ := eng_ok hb
  obtain ⟨d, k1, k2⟩ := h _ _ _ h1
  obtain ⟨d', k3, k4⟩ := hf _ _ _ _ h2
  refine ⟨d ++ d', by rw [k3, k1, List.append_assoc], fun o ho => ?_⟩
  rcases List.mem_append.mp ho with ho | ho
  · exact k2 o ho
  · exact k4 o ho

theorem Calm.pure {α : Type} (a : α) : Calm (pure a : Eng α) := fun s s' a h => by cases h; exact ⟨[], by simp, by simp⟩
theorem Calm.stop {α : Type} (c : Stop) : Calm (Eng.stop c : Eng α) := fun s s' a h => by cases h
theorem Calm.lift {α : Type} (a : Ans α) : Calm (Eng.lift a) := fun s s' b h => by
  simp only [Eng.lift, Prod.mk.injEq] at h; rw [← h.1]; exact ⟨[], by simp, by simp⟩
theorem Calm.get : Calm Eng.get := fun s s' b h => by cases h; exact ⟨[], by simp, by simp⟩
theorem Calm.emit {o : Obs} (h : noExit o) : Calm (Eng.emit o) := fun s s' b hb => by
  cases hb; exact ⟨[o], rfl, fun o' ho => by rw [List.mem_singleton.mp ho]; exact h⟩
theorem Calm.setDyp (k x : Vid) : Calm (Eng.modify fun mem => { mem with dyp := setDyp mem.dyp k x }) := fun s s' b h => by
  cases h; exact ⟨[], by simp, by simp⟩

theorem Calm.guard (e : Sig) : ∀ g, Calm (evalGuard env e g)
  | none => Calm.pure _
  | some .els => Calm.pure _
  | some (.fn g) => fun s s' b h => by
    cases h
    exact ⟨[_], rfl, fun o' ho => by rw [List.mem_singleton.mp ho]; intro x hx; cases hx⟩

theorem Calm.findTrn (e : Sig) : ∀ l, Calm (findTrn env e l)
  | [] => Calm.pure _
  | t :: ts => by
    unfold Subm.findTrn
    split
    · exact Calm.pure _
    · split
      · refine (Calm.guard e _).bind fun b => ?_
        cases b
        · exact Calm.findTrn e ts
        · exact Calm.pure _
      · exact Calm.findTrn e ts

theorem Calm.findBranch (e : Sig) : ∀ l, Calm (findBranch env e l)
  | [] => Calm.pure _
  | t :: ts => by
    unfold Subm.findBranch
    split
    · exact Calm.pure _
    · split
      · exact Calm.findBranch e ts
      · refine (Calm.guard e _).bind fun b => ?_
        cases b
        · exact Calm.findBranch e ts
        · exact Calm.pure _

theorem Calm.exec (e : Sig) : ∀ l, Calm (exec e l)
  | [] => Calm.pure _
  | _ :: l => (Calm.emit (by intro x h; cases h)).bind fun _ => Calm.exec e l

theorem Calm.enter : ∀ l c, Calm (enter m l c)
  | [], _ => Calm.pure _
  | _ :: l, _ => (Calm.emit (by intro x h; cases h)).bind fun _ => Calm.enter l _

theorem Calm.error {α : Type} (c : RC) : Calm (error m c : Eng α) := Calm.stop _

theorem Calm.pushAct (al : List Act) (a : Option Act) : Calm (pushAct m al a) := by
  unfold Subm.pushAct
  split
  · exact Calm.error _
  · exact Calm.pure _

theorem Calm.takeBranch (e : Sig) (tbl : List Tr) (al : List Act) : Calm (takeBranch m env e tbl al) := by
  unfold Subm.takeBranch
  refine (Calm.findBranch e _).bind fun r => ?_
  split
  · exact Calm.stop _
  · refine (Calm.pushAct _ _).bind fun al => ?_
    split
    · exact Calm.stop _
    · exact Calm.pure _

theorem Calm.precheck (f : Nat) (micro : Bool) (ets stn : Vid) : Calm (precheck m f micro ets stn) := by
  unfold Subm.precheck
  split
  · exact (Calm.lift _).bind fun _ => Calm.pure _
  · exact Calm.pure _

theorem Calm.resolve (e : Sig) (micro : Bool) (stn : Vid) : ∀ f ets al, Calm (resolve m env e micro stn f ets al)
  | 0, _, _ => Calm.stop _
  | f + 1, ets, al => by
    unfold Subm.resolve
    split
    · exact Calm.stop _
    · exact Calm.pure _
    · exact Calm.pure _
    · exact Calm.pure _
    · exact Calm.pure _
    · exact (Calm.exec _ _).bind fun _ => (Calm.takeBranch _ _ _).bind fun r => (Calm.precheck _ _ _ _).bind fun _ => Calm.resolve e micro stn f _ _
    · exact (Calm.takeBranch _ _ _).bind fun r => (Calm.precheck _ _ _ _).bind fun _ => Calm.resolve e micro stn f _ _
    · split
      · exact (Calm.setDyp _ _).bind fun _ => (Calm.pushAct _ _).bind fun _ => Calm.resolve e micro stn f _ _
      · exact Calm.stop _
    · split
      · exact (Calm.setDyp _ _).bind fun _ => (Calm.pushAct _ _).bind fun _ => Calm.resolve e micro stn f _ _
      · exact Calm.stop _
    · refine Calm.get.bind fun mem => ?_
      split
      · exact Calm.stop _
      · split
        · split
          · exact Calm.stop _
          · exact (Calm.pushAct _ _).bind fun _ => Calm.resolve e micro stn f _ _
        · exact Calm.stop _
    · exact Calm.error _

theorem Calm.micro (e : Sig) (cr : Bool) (cs : Vid) : ∀ f stn ets ta compl, Calm (segLoop m env e cr cs f true stn ets ta compl)
  | 0, _, _, _, _ => Calm.stop _
  | f + 1, stn, ets, ta, compl => by
    unfold segLoop
    refine (Calm.pushAct _ _).bind fun al => (Calm.resolve _ _ _ _ _ _).bind fun r => Calm.bind ?_ fun ent => (Calm.exec _ _).bind fun _ => (Calm.enter _ _).bind fun c => ?_
    · exact Calm.lift _
    · split
      · exact Calm.micro e cr cs f _ _ _ _
      · split
        · exact Calm.stop _
        · exact Calm.pure _

/-! ## Leaving states -/

theorem exits_log (ts : Vid) : ∀ f ix x ent s s' r, exits m ts f ix x ent s = (s', .ok r) → ∃ X : List Vid, s'.log = s.log ++ X.map .exit := by
  intro f
  induction f with
  | zero => intro ix x ent s s' r h; cases h
  | succ f ih =>
    intro ix x ent s s' r h
    cases x with
    | none => cases h; exact ⟨[], by simp⟩
    | some x =>
      unfold exits at h
      obtain ⟨s1, mem, h1, h⟩ := eng_ok h
      cases h1
      obtain ⟨s2, q, h2, h⟩ := eng_ok h
      have e2 : s2 = s := by simp only [Eng.lift, Prod.mk.injEq] at h2; exact h2.1.symm
      subst e2
      obtain ⟨b, l⟩ := q
      cases b with
      | true =>
        cases ix with
        | zero =>
          simp only at h
          obtain ⟨s3, _, h3, h⟩ := eng_ok h
          cases h3
          split at h
          · cases h; exact ⟨[x], rfl⟩
          · cases h
        | succ ix => cases h; exact ⟨[], by simp⟩
      | false =>
        simp only at h
        obtain ⟨s3, _, h3, h⟩ := eng_ok h
        cases h3
        cases hup : m.up s2.dyp x with
        | none => rw [hup] at h; cases h
        | some p =>
          rw [hup] at h
          obtain ⟨X, hX⟩ := ih _ _ _ _ _ _ h
          exact ⟨x :: X, by rw [hX]; simp⟩

/-! ## Both kinds of points -/

theorem exec_log (e : Sig) : ∀ (l : List Act) (s s' : Mem), exec e l s = (s', .ok ()) → s'.log = s.log ++ l.map (.act · e)
  | [], s, s', h => by cases h; simp
  | a :: l, s, s', h => by
    obtain ⟨s1, _, h1, h⟩ := eng_ok h
    cases h1
    rw [exec_log e l _ _ h]
    simp

theorem findTrn_first {e : Sig} {t : Tr} (he : e ≠ sigAny) (ht : t.event = e) (hg : t.guard = none) (post : List Tr) (s : Mem) : ∀ pre : List Tr,
    (∀ u ∈ pre, u.event ≠ e ∧ u.event ≠ sigAny) → findTrn env e (pre ++ t :: post) s = (s, .ok (some t))
  | [], _ => by
    simp only [List.nil_append]
    unfold findTrn
    rw [if_neg (ht ▸ he), if_pos ht, hg]
    rfl
  | u :: pre, h => by
    simp only [List.cons_append]
    unfold findTrn
    rw [if_neg (h u (List.mem_cons_self ..)).2, if_neg (h u (List.mem_cons_self ..)).1]
    exact findTrn_first he ht hg post s pre fun u hu => h u (List.mem_cons_of_mem _ hu)

/-- It adds to what has happened. -/
def Longer {α : Type} (x : Eng α) : Prop := ∀ s s' a, x s = (s', .ok a) → ∃ d, s'.log = s.log ++ d

theorem Calm.longer {α : Type} {x : Eng α} (h : Calm x) : Longer x := fun s s' a hs => by
  obtain ⟨d, hd, _⟩ := h s s' a hs
  exact ⟨d, hd⟩

theorem Longer.bind {α β : Type} {x : Eng α} {f : α → Eng β} (h : Longer x) (hf : ∀ a, Longer (f a)) : Longer (x >>= f) := by
  intro s s' b hb
  obtain ⟨s1, a, h1, h2⟩ := eng_ok hb
  obtain ⟨d, k1⟩ := h _ _ _ h1
  obtain ⟨d', k3⟩ := hf _ _ _ _ h2
  exact ⟨d ++ d', by rw [k3, k1, List.append_assoc]⟩

theorem Longer.searchUp (e : Sig) : ∀ f v, Longer (searchUp m env e f v)
  | 0, _ => (Calm.stop _).longer
  | f + 1, v => by
    unfold Subm.searchUp
    split
    · exact (Calm.stop _).longer
    · refine (Calm.findTrn e _).longer.bind fun r => ?_
      split
      · exact (Calm.pure _).longer
      · refine Calm.get.longer.bind fun mem => ?_
        split
        · exact (Calm.stop _).longer
        · exact (Calm.pure _).longer
        · exact Longer.searchUp e f _

theorem Longer.segLoop (e : Sig) (cr : Bool) (cs : Vid) : ∀ f micro stn ets ta compl, Longer (segLoop m env e cr cs f micro stn ets ta compl)
  | 0, _, _, _, _, _ => (Calm.stop _).longer
  | f + 1, micro, stn, ets, ta, compl => by
    unfold Subm.segLoop
    refine (Calm.pushAct _ _).longer.bind fun al => (Calm.resolve _ _ _ _ _ _).longer.bind fun r => Longer.bind ?_ fun ent =>
      (Calm.exec _ _).longer.bind fun _ => (Calm.enter _ _).longer.bind fun c => ?_
    · unfold stage4
      split
      · exact (Calm.lift _).longer
      · exact (Calm.lift _).longer
      · intro s s' a h
        obtain ⟨X, hX⟩ := exits_log _ _ _ _ _ _ _ _ h
        exact ⟨_, hX⟩
    · split
      · exact Longer.segLoop e cr cs f _ _ _ _ _
      · split
        · exact (Calm.stop _).longer
        · exact (Calm.pure _).longer

theorem Longer.finish (v : Vid) : Longer (finish v) := fun s s' a h => by cases h; exact ⟨_, rfl⟩

theorem Longer.compound (f : Nat) (e : Sig) (cr : Bool) : Longer (compound m env f e cr) := by
  unfold Subm.compound
  split
  · exact (Longer.segLoop _ _ _ _ _ _ _ _ _).bind fun _ => (Longer.finish _).bind fun _ => (Calm.pure _).longer
  · refine Calm.get.longer.bind fun mem => ?_
    split
    · exact (Calm.stop _).longer
    · refine (Longer.searchUp _ _ _).bind fun r => ?_
      split
      · exact (Calm.stop _).longer
      · split
        · exact (Calm.pushAct _ _).longer.bind fun _ => (Calm.exec _ _).longer.bind fun _ => (Calm.pure _).longer
        · exact (Longer.segLoop _ _ _ _ _ _ _ _ _).bind fun _ => (Longer.finish _).bind fun _ => (Calm.pure _).longer

theorem Longer.passes : ∀ f e cr, Longer (passes m env f e cr)
  | 0, _, _ => (Calm.stop _).longer
  | f + 1, e, cr => by
    unfold Subm.passes
    refine (Longer.compound _ _ _).bind fun c => ?_
    cases c
    · exact (Calm.pure _).longer
    · exact Longer.passes f _ _

/-- What follows stage 3. -/
theorem after_resolve {e : Sig} {s s' : Mem} {cs src v w : Vid} {a b : Act} {f : Nat} {r : Vid × Bool} 
    (hres : ∀ f s1 s2 q, s1.dyp = s.dyp → resolve m env e false src f v [a] s1 = (s2, .ok q) → q = (w, [a, b]) ∧ s2.log = s1.log)
    (h : segLoop m env e false cs f false src v (some a) false s = (s', .ok r)) :
    ∃ (X : List Vid) (Y : List Obs), s'.log = s.log ++ X.map .exit ++ [.act a e, .act b e] ++ Y ∧ ∀ o ∈ Y, noExit o := by
  cases f with
  | zero => cases h
  | succ f =>
    unfold segLoop at h
    obtain ⟨s1, al, h1, h⟩ := eng_ok h
    obtain ⟨s2, q, h2, h⟩ := eng_ok h
    obtain ⟨s3, ent, h3, h⟩ := eng_ok h
    obtain ⟨s4, _, h4, h⟩ := eng_ok h
    obtain ⟨s5, c, h5, h⟩ := eng_ok h
    have e1 : s1 = s ∧ al = [a] := by
      unfold pushAct at h1
      cases hh : addAct m [] (some a) with
      | none => rw [hh] at h1; cases h1
      | some l =>
        rw [hh] at h1
        cases h1
        unfold addAct at hh
        split at hh
        · cases hh
        · simp only [List.nil_append, Option.some.injEq] at hh
          exact ⟨rfl, hh.symm⟩
    obtain ⟨rfl, rfl⟩ := e1
    obtain ⟨rfl, hl2⟩ := hres _ _ _ _ rfl h2
    obtain ⟨X, hX⟩ := exits_log _ _ _ _ _ _ _ _ (show exits m w f 0 (some cs) [] s2 = (s3, .ok ent) from h3)
    have hL := exec_log _ _ _ _ h4
    obtain ⟨d1, k1, k2⟩ := Calm.enter _ _ _ _ _ h5
    have hrest : ∃ d, s'.log = s5.log ++ d ∧ ∀ o ∈ d, noExit o := by
      cases hc : m.comp w with
      | some q =>
        rw [hc] at h
        exact Calm.micro _ _ _ _ _ _ _ _ _ _ _ h
      | none =>
        rw [hc] at h
        cases ent with
        | nil => cases h
        | cons x l => cases h; exact ⟨[], by simp, by simp⟩
    obtain ⟨d2, k3, k4⟩ := hrest
    refine ⟨X, d1 ++ d2, ?_, ?_⟩
    · rw [k3, k1, hL, hX, hl2]; simp
    · intro o ho
      rcases List.mem_append.mp ho with ho | ho
      · exact k2 o ho
      · exact k4 o ho

/-- A dispatch that takes the transition `t`. -/
theorem taken {e : Sig} {s s' : Mem} {cs v w : Vid} {t : Tr} {a b : Act} {f : Nat} (hcr : e ≠ sigCreation) (hst : s.state = some cs) (htr : Triggers m e cs t)
    (ha : t.action = some a) (hv : t.target = some v)
    (hres : ∀ f s1 s2 q, s1.dyp = s.dyp → resolve m env e false cs f v [a] s1 = (s2, .ok q) → q = (w, [a, b]) ∧ s2.log = s1.log)
    (h : dispatch m env f e s = (s', .ok ())) :
    ∃ (X : List Vid) (Y : List Obs) (u : Vid) (Z : List Obs), s'.log = s.log ++ X.map .exit ++ [.act a e, .act b e] ++ Y ++ .stable u :: Z ∧ ∀ o ∈ Y, noExit o := by
  obtain ⟨he, ht, hg, pre, post, htb, hpre⟩ := htr
  have hc : (e == sigCreation) = false := by simpa using hcr
  unfold dispatch at h
  rw [hc] at h
  cases f with
  | zero => cases h
  | succ f =>
    obtain ⟨s1, c, h1, h⟩ := eng_ok h
    have hlast : ∃ d, s'.log = s1.log ++ d := by
      cases c with
      | false => cases h; exact ⟨[], by simp⟩
      | true => exact Longer.passes _ _ _ _ _ _ h
    obtain ⟨Z, hZ⟩ := hlast
    unfold compound at h1
    obtain ⟨s2, mem, h2, h1⟩ := eng_ok h1
    cases h2
    simp only [hst] at h1
    obtain ⟨s3, r, h3, h1⟩ := eng_ok h1
    cases f with
    | zero => cases h3
    | succ f =>
      have hsu : searchUp m env e (f + 1) cs s = (s, .ok (some (cs, t))) := by
        unfold searchUp
        rw [htb]
        simp only
        rw [run_bind (findTrn_first he ht hg post s pre hpre)]
        rfl
      rw [hsu] at h3
      cases h3
      simp only [hv, ha] at h1
      obtain ⟨s4, q, h4, h1⟩ := eng_ok h1
      obtain ⟨s5, _, h5, h1⟩ := eng_ok h1
      cases h5
      cases h1
      obtain ⟨X, Y, k1, k2⟩ := after_resolve hres h4
      exact ⟨X, Y, q.1, Z, by rw [hZ]; show (s4.log ++ [.stable q.1]) ++ Z = _; rw [k1]; simp, k2⟩

theorem pushAct_is {al l : List Act} {x : Option Act} {s s' : Mem} (h : pushAct m al x s = (s', .ok l)) : s' = s ∧ l = al ++ x.toList := by
  unfold pushAct at h
  cases hh : addAct m al x with
  | none => rw [hh] at h; cases h
  | some l' =>
    rw [hh] at h
    cases h
    unfold addAct at hh
    split at hh
    · cases hh
    · cases x <;> simp at hh <;> simp [hh]

theorem resolve_here {e : Sig} {micro : Bool} {stn w : Vid} {al : List Act} {f : Nat} {s s' : Mem} {q : Vid × List Act} (hw : isState m w = true)
    (h : resolve m env e micro stn f w al s = (s', .ok q)) : s' = s ∧ q = (w, al) := by
  cases f with
  | zero => cases h
  | succ f =>
    rw [resolve_state hw] at h
    cases h
    exact ⟨rfl, rfl⟩

/-- **C154**, exit points. Whenever an event takes a transition that leaves a submachine state through one of its exit points, both
effects are executed, each once and in this order, all states having been left before and none being left after.

Missing from the full property: the exit action of the submachine state is to be executed in between (`exit_action_not_in_between`). -/
theorem exit_point_effects_partial {e : Sig} {s s' : Mem} {cs sb : Vid} {t : Tr} {a b : Act} {f : Nat} (hcr : e ≠ sigCreation) (hst : s.state = some cs)
    (htr : Triggers m e cs t) (hl : LeavesThrough m s t sb a b) (h : dispatch m env f e s = (s', .ok ())) :
    ∃ (X : List Vid) (Y : List Obs) (u : Vid) (Z : List Obs), s'.log = s.log ++ X.map .exit ++ [.act a e, .act b e] ++ Y ++ .stable u :: Z ∧ ∀ o ∈ Y, noExit o := by
  obtain ⟨ha, ep, ix, M, p, tt, x, w, hv, h1, h2, h3, h4, h5⟩ := hl
  refine taken hcr hst htr ha hv (w := w) ?_ h
  intro f s1 s2 q hd hr
  cases f with
  | zero => cases hr
  | succ f =>
    unfold resolve at hr
    rw [h1] at hr
    obtain ⟨s3, mem, k1, hr⟩ := eng_ok hr
    cases k1
    rw [hd, h2] at hr
    simp only [h3, h4] at hr
    obtain ⟨s4, al, k2, hr⟩ := eng_ok hr
    obtain ⟨rfl, rfl⟩ := pushAct_is k2
    obtain ⟨rfl, rfl⟩ := resolve_here h5 hr
    exact ⟨rfl, rfl⟩

/-- **C154**, entry points. Whenever an event takes a transition that leads to an entry point of a submachine state, both effects are
executed, each once and in this order, all states having been left before and none being left after.

Missing from the full property: the entry action of the submachine state is to be executed in between (`entry_action_not_in_between`). -/
theorem entry_point_effects_partial {e : Sig} {s s' : Mem} {cs sb : Vid} {t : Tr} {a b : Act} {f : Nat} (hcr : e ≠ sigCreation) (hst : s.state = some cs)
    (htr : Triggers m e cs t) (hl : EntersThrough m t sb a b) (h : dispatch m env f e s = (s', .ok ())) :
    ∃ (X : List Vid) (Y : List Obs) (u : Vid) (Z : List Obs), s'.log = s.log ++ X.map .exit ++ [.act a e, .act b e] ++ Y ++ .stable u :: Z ∧ ∀ o ∈ Y, noExit o := by
  obtain ⟨ha, ep, p, tt, x, M, w, hv, h1, h3, h5⟩ := hl
  refine taken hcr hst htr ha hv (w := w) ?_ h
  intro f s1 s2 q hd hr
  cases f with
  | zero => cases hr
  | succ f =>
    unfold resolve at hr
    rw [h1] at hr
    simp only [h3] at hr
    obtain ⟨s3, _, k1, hr⟩ := eng_ok hr
    obtain ⟨s4, al, k2, hr⟩ := eng_ok hr
    cases k1
    obtain ⟨rfl, rfl⟩ := pushAct_is k2
    obtain ⟨rfl, rfl⟩ := resolve_here h5 hr
    exact ⟨rfl, rfl⟩

end

/-! ## The property fails -/

namespace Bad

/-- I (0) leads with effect 1 (event 2) to the entry point E (1) of the submachine state A (2), which continues with effect 2 to X (4) of the
submachine M (3). X leads with effect 3 (event 5) to the exit point (5), from which A leads with effect 4 to I. -/
def points : Machine := mk [.basic none [⟨2, none, some 1, some 1⟩], .enpnt (some 2) 4 2, .subm none [] [(some 4, 0)] 3, .ref 4 none,
  .basic (some 3) [⟨5, none, some 3, some 5⟩], .expnt 0 3] 0
def pointsHome : Vid → Option Vid := fun v => if v = 4 ∨ v = 5 then some 3 else none

theorem points_proper : Proper points 6 pointsHome rank := mk_proper (by decide +kernel) (by decide +kernel)

def outside : Mem := (run points env [(sigCreation, 20)]).1
def within : Mem := (run points env [(sigCreation, 20), (2, 20)]).1
def entering : Mem × Ans Unit := dispatch points env 20 2 outside
def leaving : Mem × Ans Unit := dispatch points env 20 5 within

theorem triggers_in : Triggers points 2 0 ⟨2, none, some 1, some 1⟩ := ⟨by decide, rfl, rfl, [], [], rfl, by simp⟩
theorem triggers_out : Triggers points 5 4 ⟨5, none, some 3, some 5⟩ := ⟨by decide, rfl, rfl, [], [], rfl, by simp⟩
theorem enters : EntersThrough points ⟨2, none, some 1, some 1⟩ 2 1 2 := ⟨rfl, 1, none, [], [(some 4, 0)], 3, 4, rfl, rfl, rfl, by decide +kernel⟩
theorem leaves : LeavesThrough points within ⟨5, none, some 3, some 5⟩ 2 3 4 :=
  ⟨rfl, 5, 0, 3, none, [], [(some 4, 0)], 0, rfl, rfl, by decide +kernel, rfl, rfl, by decide +kernel⟩

theorem entering_is : outside.state = some 0 ∧ entering.2 = .ok () ∧ entering.1.log = outside.log ++ [.exit 0, .act 1 2, .act 2 2, .entry 2, .entry 4, .stable 4] := by decide +kernel
theorem leaving_is : within.state = some 4 ∧ leaving.2 = .ok () ∧ leaving.1.log = within.log ++ [.exit 4, .exit 2, .act 3 5, .act 4 5, .entry 0, .stable 0] := by decide +kernel

theorem mem_after (a x : Obs) : ∀ (A rest : List Obs), x ∈ rest → x ∈ (A ++ a :: rest).dropWhile (fun o => decide (o ≠ a))
  | [], rest, h => by simp [List.dropWhile, h]
  | b :: A, rest, h => by
    simp only [List.cons_append, List.dropWhile]
    split
    · exact mem_after a x A rest h
    · exact List.mem_cons_of_mem _ (List.mem_append.mpr (.inr (List.mem_cons_of_mem _ h)))

end Bad
open Bad

/-- Leaving through an exit point does not execute the exit action of the submachine state between the effects of the joined transitions:
it comes before both. -/
theorem exit_action_not_in_between : ¬ ∀ (m : Machine) (N : Nat) (home : Vid → Option Vid) (rank : Option Vid → Nat) (env : Env) (e : Sig) (s s' : Mem) (cs sb : Vid) (t : Tr)
      (a b : Act) (f : Nat), Proper m N home rank → s.state = some cs → Triggers m e cs t → LeavesThrough m s t sb a b → dispatch m env f e s = (s', .ok ()) →
      ∃ A B C D, s'.log = s.log ++ A ++ [.act a e] ++ B ++ [.exit sb] ++ C ++ [.act b e] ++ D := by
  intro h
  obtain ⟨A, B, C, D, hl⟩ := h points 6 pointsHome rank env 5 within leaving.1 4 2 _ 3 4 20 points_proper leaving_is.1 triggers_out leaves (Prod.ext rfl leaving_is.2.1)
  rw [leaving_is.2.2] at hl
  have hl' : [Obs.exit 4, .exit 2, .act 3 5, .act 4 5, .entry 0, .stable 0] = A ++ .act 3 5 :: (B ++ .exit 2 :: (C ++ .act 4 5 :: D)) := by
    apply List.append_cancel_left (as := within.log)
    rw [hl]
    simp
  have := mem_after (.act 3 5) (.exit 2) A (B ++ .exit 2 :: (C ++ .act 4 5 :: D)) (by simp)
  rw [← hl'] at this
  exact absurd this (by decide)

/-- Entering through an entry point does not execute the entry action of the submachine state between the effects of the joined
transitions: it comes after both. -/
theorem entry_action_not_in_between : ¬ ∀ (m : Machine) (N : Nat) (home : Vid → Option Vid) (rank : Option Vid → Nat) (env : Env) (e : Sig) (s s' : Mem) (cs sb : Vid) (t : Tr)
      (a b : Act) (f : Nat), Proper m N home rank → s.state = some cs → Triggers m e cs t → EntersThrough m t sb a b → dispatch m env f e s = (s', .ok ()) →
      ∃ A B C D, s'.log = s.log ++ A ++ [.act a e] ++ B ++ [.entry sb] ++ C ++ [.act b e] ++ D := by
  intro h
  obtain ⟨A, B, C, D, hl⟩ := h points 6 pointsHome rank env 2 outside entering.1 0 2 _ 1 2 20 points_proper entering_is.1 triggers_in enters (Prod.ext rfl entering_is.2.1)
  rw [entering_is.2.2] at hl
  have hl' : [Obs.exit 0, .act 1 2, .act 2 2, .entry 2, .entry 4, .stable 4] = (A ++ .act 1 2 :: B) ++ .entry 2 :: (C ++ .act 2 2 :: D) := by
    apply List.append_cancel_left (as := outside.log)
    rw [hl]
    simp
  have := mem_after (.entry 2) (.act 2 2) (A ++ .act 1 2 :: B) (C ++ .act 2 2 :: D) (by simp)
  rw [← hl'] at this
  exact absurd this (by decide)

/-- The conditions of both theorems are met. -/
example : ∃ (X : List Vid) (Y : List Obs) (u : Vid) (Z : List Obs), leaving.1.log = within.log ++ X.map .exit ++ [.act 3 5, .act 4 5] ++ Y ++ .stable u :: Z ∧ ∀ o ∈ Y, noExit o :=
  exit_point_effects_partial (env := Bad.env) (f := 20) (by decide) leaving_is.1 triggers_out leaves (Prod.ext rfl leaving_is.2.1)

example : ∃ (X : List Vid) (Y : List Obs) (u : Vid) (Z : List Obs), entering.1.log = outside.log ++ X.map .exit ++ [.act 1 2, .act 2 2] ++ Y ++ .stable u :: Z ∧ ∀ o ∈ Y, noExit o :=
  entry_point_effects_partial (env := Bad.env) (f := 20) (by decide) entering_is.1 triggers_in enters (Prod.ext rfl entering_is.2.1)

end Verif.Subm
