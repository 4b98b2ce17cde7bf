import Verif.SM.Iso
import Verif.SM.Demo
/-
C172: the behaviour of a state machine depends on its chart only. C173: which signals are ordinary signals.
-/
namespace Verif.SM
open Eng Iso Spec

/-- **C172.** Two state machines that are the same chart under different names (other numbers for the signals, other addresses of states, actions and
guards) and whose guards decide alike: every sequence of calls has the same results, step for step, and the same observable effects, under the
respective names. -/
theorem same_chart_same_behaviour {r : Ren} {m m' : Machine} {env env' : Env} (ok : r.Ok) (h : SameChart r m m') (he : SameGuards r env env')
    {s s' : Mem} (hs : Same r s s') (os : List (Op × Nat)) :
    (calls m' env' (os.map fun x => (r.op x.1, x.2)) s').2 = (calls m env os s).2 ∧
    Same r (calls m env os s).1 (calls m' env' (os.map fun x => (r.op x.1, x.2)) s').1 := by
  induction os generalizing s s' with
  | nil => exact ⟨rfl, hs⟩
  | cons x os ih =>
    obtain ⟨o, f⟩ := x
    have h1 := op_sim ok h he f o s s' hs
    simp only [List.map_cons, calls]
    rcases ha : op m env f o s with ⟨s1, a | c⟩ <;> rcases hb : op m' env' f (r.op o) s' with ⟨s2, b | d⟩ <;> rw [ha, hb] at h1 <;>
      simp only [AnsRel, and_false] at h1
    · obtain ⟨h2, h3⟩ := ih h1.1
      exact ⟨by simp only [h2], h3⟩
    · obtain ⟨h1, rfl⟩ := h1
      cases c with
      | rc c =>
        obtain ⟨h2, h3⟩ := ih h1
        exact ⟨by simp only [h2], h3⟩
      | _ => exact ⟨rfl, h1⟩

/-- **C172**, from the creation of the objects on. -/
theorem same_chart_same_life {r : Ren} {m m' : Machine} {env env' : Env} (ok : r.Ok) (h : SameChart r m m') (he : SameGuards r env env') (f0 : Nat)
    (os : List (Op × Nat)) :
    (life m' env' f0 (os.map fun x => (r.op x.1, x.2))).2 = (life m env f0 os).2 ∧
    (life m' env' f0 (os.map fun x => (r.op x.1, x.2))).1.log = (life m env f0 os).1.log.map r.obs ∧
    (life m' env' f0 (os.map fun x => (r.op x.1, x.2))).1.state = (life m env f0 os).1.state.map r.vid := by
  have h0 : Same r (mem0 m) (mem0 m') := ⟨by simp [mem0, h.istate], fun v => rfl, rfl⟩
  have h1 := same_chart_same_behaviour ok h he h0 ((.dispatch sigCreation, f0) :: os)
  have e : ((Op.dispatch sigCreation, f0) :: os).map (fun x => (r.op x.1, x.2)) = (Op.dispatch sigCreation, f0) :: os.map fun x => (r.op x.1, x.2) := by
    simp [Ren.op, ok.creation]
  rw [e] at h1
  exact ⟨h1.1, h1.2.log, h1.2.state⟩

/-! ### C173 -/

/-- The check of `RKH_CFG_FWK_MAX_SIGNALS` at compile time (rkhitl.h:1303-1313) with `RKH_CFG_FWK_SIZEOF_EVT` = 16. -/
def maxSignalsAccepted (n : Nat) : Bool := !(n == 0 || decide (n > 1 <<< 16))

/-- Exchange two signals. -/
def swapSig (a b : Sig) (x : Sig) : Sig := if x = a then b else if x = b then a else x

/-- Exchange two signals everywhere in a chart. -/
def swapRen (a b : Sig) : Ren := ⟨swapSig a b, id, id, id⟩

/-- The chart with the two signals exchanged. -/
def swapped (a b : Sig) (m : Machine) : Machine := { m with vert := fun v => (m.vert v).map (swapRen a b).vertex }

theorem swapSig_inv (a b x : Sig) : swapSig a b (swapSig a b x) = x := by
  unfold swapSig
  by_cases h1 : x = a <;> by_cases h2 : x = b <;> by_cases h3 : a = b <;> simp_all

theorem obs_swap_inv (a b : Sig) (l : List Obs) : (l.map (swapRen a b).obs).map (swapRen a b).obs = l := by
  rw [List.map_map]
  conv => rhs; rw [← List.map_id l]
  apply List.map_congr_left
  intro o _
  cases o <;> simp [Ren.obs, swapRen, swapSig_inv]

/-- **C173, what remains true.** All signals below the three largest are alike: with two of them exchanged in the chart, in the guards and in the events
sent, every life of the state machine is the same up to this exchange. -/
theorem ordinary_signals_partial {a b : Sig} (ha : a < 65533) (hb : b < 65533) (m : Machine) (env : Env) (f0 : Nat) (os : List (Op × Nat)) :
    (life (swapped a b m) (fun g e log => env g (swapSig a b e) (log.map (swapRen a b).obs)) f0 (os.map fun x => ((swapRen a b).op x.1, x.2))).2 =
      (life m env f0 os).2 ∧
    (life (swapped a b m) (fun g e log => env g (swapSig a b e) (log.map (swapRen a b).obs)) f0 (os.map fun x => ((swapRen a b).op x.1, x.2))).1.log =
      (life m env f0 os).1.log.map (swapRen a b).obs := by
  have hfix : ∀ x : Sig, 65533 ≤ x → swapSig a b x = x := by
    intro x hx
    have h1 : x ≠ a := by intro h; subst h; exact absurd ha (Nat.not_lt.mpr hx)
    have h2 : x ≠ b := by intro h; subst h; exact absurd hb (Nat.not_lt.mpr hx)
    simp [swapSig, h1, h2]
  have ok : (swapRen a b).Ok := by
    refine ⟨fun x y h => ?_, fun x y h => h, hfix _ (by decide), hfix _ (by decide), hfix _ (by decide)⟩
    have := congrArg (swapSig a b) h
    simp only [swapRen, swapSig_inv] at this
    exact this
  have hc : SameChart (swapRen a b) m (swapped a b m) :=
    ⟨fun v => rfl, rfl, (by show m.iaction = m.iaction.map id; simp), rfl, rfl, rfl⟩
  have he : SameGuards (swapRen a b) env (fun g e log => env g (swapSig a b e) (log.map (swapRen a b).obs)) := by
    intro g e log
    show env g (swapSig a b (swapSig a b e)) ((log.map (swapRen a b).obs).map (swapRen a b).obs) = env g e log
    rw [swapSig_inv, obs_swap_inv]
  obtain ⟨h1, h2, _⟩ := same_chart_same_life ok hc he f0 os
  exact ⟨h1, h2⟩

theorem findTrn_any (env : Env) (l : List Tr) : findTrn env sigAny l = pure none := by
  induction l with
  | nil => rfl
  | cons t l ih =>
    simp only [findTrn]
    by_cases h : t.event = sigAny
    · rw [if_pos h]
    · rw [if_neg h, if_neg h, ih]

theorem searchUp_any (m : Machine) (env : Env) (f : Nat) (v : Vid) (s : Mem) :
    ∃ c, searchUp m env sigAny f v s = (s, c) ∧ ∀ x, c ≠ .ok (some x) := by
  induction f generalizing v with
  | zero => exact ⟨_, rfl, by simp⟩
  | succ f ih =>
    simp only [searchUp]
    cases m.trtbl v with
    | none => exact ⟨_, rfl, by simp⟩
    | some tbl =>
      simp only [findTrn_any]
      cases hp : m.parent v with
      | none => exact ⟨_, rfl, by simp⟩
      | some p =>
        cases p with
        | none => exact ⟨_, rfl, by simp⟩
        | some p => exact ih p

theorem stops_bind {α β : Type} {x : Eng α} {g : α → Eng β} {s s1 s2 : Mem} {a : α} (hx : x s = (s1, .ok a)) (hg : ∃ c, g a s1 = (s2, .stop c)) :
    ∃ c, (x >>= g) s = (s2, .stop c) := by
  obtain ⟨c, hc⟩ := hg
  refine ⟨c, ?_⟩
  show Eng.bind x g s = _
  unfold Eng.bind
  rw [hx]
  exact hc

/-- **C173 refuted (1).** An event with the largest signal that the configuration admits is handled by no state machine in no state: whatever is written in
the transition tables for it. -/
theorem largest_signal_never_handled (m : Machine) (env : Env) (f : Nat) (s : Mem) :
    maxSignalsAccepted 65536 = true ∧ (dispatch m env f 65535 s).1 = s ∧ (dispatch m env f 65535 s).2 ≠ .ok () := by
  refine ⟨by decide, ?_⟩
  show (passes m env f sigAny false s).1 = s ∧ (passes m env f sigAny false s).2 ≠ .ok ()
  cases f with
  | zero => exact ⟨rfl, by simp [passes, stop]⟩
  | succ f =>
    show (Eng.bind (compound m env f sigAny false) _ s).1 = s ∧ (Eng.bind (compound m env f sigAny false) _ s).2 ≠ .ok ()
    have hc : ∃ c, compound m env f sigAny false s = (s, .stop c) := by
      unfold compound
      refine stops_bind (s1 := s) (a := s) rfl ?_
      cases s.state with
      | none => exact ⟨_, rfl⟩
      | some cs =>
        obtain ⟨c, h1, h2⟩ := searchUp_any m env f cs s
        cases c with
        | stop c => exact ⟨c, by show Eng.bind _ _ s = _; unfold Eng.bind; rw [h1]⟩
        | ok x =>
          refine stops_bind h1 ?_
          cases x with
          | none => exact ⟨_, rfl⟩
          | some x => exact absurd rfl (h2 x)
    obtain ⟨c, hc⟩ := hc
    unfold Eng.bind
    rw [hc]
    exact ⟨rfl, by simp⟩

/-- **C173 refuted (1), continued.** A row for this signal also hides every row that follows it in the table. -/
theorem largest_signal_hides_rows (env : Env) (e : Sig) (l l2 : List Tr) (t : Tr) (ht : t.event = 65535) :
    findTrn env e (l ++ t :: l2) = findTrn env e l := by
  induction l with
  | nil => simp only [List.nil_append, findTrn]; rw [if_pos (show t.event = sigAny from ht)]
  | cons x l ih => simp only [List.cons_append, findTrn, ih]

/-- **C173 refuted (2).** A transition for the second largest signal is taken although no such event was sent: a signal 1 takes the machine from state 0
to state 1, where a transition for the signal 65534 leads on to state 2. -/
theorem completion_signal_taken_unsent : ∃ (m : Machine), WellFormed m ∧ maxSignalsAccepted 65535 = true ∧ ∀ env : Env,
    (life m env 9 [(.dispatch 1, 9)]).1.state = some 2 ∧ (life m env 9 [(.dispatch 1, 9)]).2 = [.ok (), .ok ()] := by
  refine ⟨ofList [.basic none [⟨1, none, none, some 1⟩], .basic none [⟨65534, none, none, some 2⟩], .basic none []] 0 none 2 2 true,
    (ofList_sound (by decide +kernel)).1, by decide, fun env => ⟨rfl, rfl⟩⟩

/-- **C173 refuted (3).** An event with the third largest signal does what `rkh_sm_init` does, in every state of every machine: it enters the initial state
without leaving the current one. -/
theorem creation_signal_restarts (m : Machine) (env : Env) (f : Nat) (s : Mem) :
    maxSignalsAccepted 65534 = true ∧ dispatch m env f 65533 s = init m env f s := ⟨by decide, rfl⟩

/-- **C173 refuted (3), continued.** So the states of the machine are entered twice without being left. -/
theorem creation_signal_enters_twice : ∃ (m : Machine) (env : Env), WellFormed m ∧ (life m env 50 [(.dispatch 65533, 50)]).2 = [.ok (), .ok ()] ∧
    (life m env 50 [(.dispatch 65533, 50)]).1.log.filter (fun o => o == .entry 0 || o == .exit 0) = [.entry 0, .entry 0] :=
  ⟨Demo.m, Demo.env, Demo.wf, by decide +kernel, by decide +kernel⟩

/-! ### Concrete cases -/

/-- C172: the demonstration machine, its vertices stored elsewhere, signals 1 and 2 exchanged. -/
def demoRen : Ren := ⟨swapSig 1 2, (· + 100), (· + 7), id⟩

/-- The renamed machine. -/
def demoM : Machine where
  vert v := if v < 100 then none else (Demo.m.vert (v - 100)).map demoRen.vertex
  istate := 100
  iaction := some 47
  maxDepth := 4
  maxSegs := 3
  assertEn := false

theorem demoRen_ok : demoRen.Ok := by
  refine ⟨fun x y h => ?_, fun x y h => ?_, by decide, by decide, by decide⟩
  · have := congrArg (swapSig 1 2) h
    simp only [demoRen, swapSig_inv] at this
    exact this
  · exact Nat.add_right_cancel h

example : demoRen.Ok ∧ SameChart demoRen Demo.m demoM ∧ SameGuards demoRen (fun g e _ => e == 2 && g != 1) (fun g e _ => e == 1 && g != 1) := by
  refine ⟨demoRen_ok, ⟨fun v => ?_, rfl, rfl, rfl, rfl, rfl⟩, fun g e log => ?_⟩
  · show (if v + 100 < 100 then none else (Demo.m.vert (v + 100 - 100)).map demoRen.vertex) = _
    rw [if_neg (Nat.not_lt.mpr (Nat.le_add_left 100 v)), Nat.add_sub_cancel]
  · show (swapSig 1 2 e == 1 && g != 1) = (e == 2 && g != 1)
    congr 1
    unfold swapSig
    by_cases h1 : e = 1
    · subst h1; rfl
    · by_cases h2 : e = 2
      · subst h2; rfl
      · simp [h1, h2, beq_eq_false_iff_ne.mpr h1, beq_eq_false_iff_ne.mpr h2]

/-- What C172 says there: the signals 2 and 1 take one machine to state 4, the signals 1 and 2 take the other to state 104. -/
example : (life Demo.m (fun g e _ => e == 2 && g != 1) 50 [(.dispatch 2, 50), (.dispatch 1, 50)]).1.state = some 4 ∧
    (life demoM (fun g e _ => e == 1 && g != 1) 50 [(.dispatch 1, 50), (.dispatch 2, 50)]).1.state = some 104 := by decide +kernel

/-- C173: `ordinary_signals_partial` on the same machine; signal 1 and the largest ordinary signal are exchanged. -/
example : (life (swapped 1 65532 Demo.m) Demo.env0 50 [(.dispatch 65532, 50)]).1.state = (life Demo.m Demo.env0 50 [(.dispatch 1, 50)]).1.state ∧
    (life Demo.m Demo.env0 50 [(.dispatch 1, 50)]).1.state = some 2 ∧ (life Demo.m Demo.env0 50 [(.dispatch 65532, 50)]).1.state = some 1 := by decide +kernel

end Verif.SM
