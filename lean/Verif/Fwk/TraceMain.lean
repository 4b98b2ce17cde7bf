import Verif.Fwk.TraceSteps
/-
Whole traced histories.
-/
namespace Verif.Fwk.Trace
open Verif Verif.Fwk Verif.Fwk.Spec

variable {c : Cfg} {slots : List MemPool.Pool} {hdr : Nat → Evt} {w : World} {a : Abs} {h : Host}

/-- The records of a history, in the order in which they are written. -/
def records (os : List (Out × List Rec)) : List Rec := os.flatMap (·.2)

/-- The results of the framework operations of a traced history. -/
def outsOf : List TOp → List (Out × List Rec) → List Out
  | .act _ :: ts, o :: os => o.1 :: outsOf ts os
  | .emit _ :: ts, _ :: os => outsOf ts os
  | _, _ => []

/-- A traced history: operations that respect the contract, interleaved with the writing of pending records. -/
structure TRun (c : Cfg) (slots : List MemPool.Pool) (hdr : Nat → Evt) (tops : List TOp) (os : List (Out × List Rec)) (t : TWorld) : Prop where
  env : Env c slots hdr
  legal : LegalRun c (Spec.init fun e => (hdr e).sig) (opsOf tops)
  run : runOps (tstep c) ⟨initW c slots hdr, []⟩ tops = (os, .ok t)

theorem T1_init (f : Nat → Nat) : T1 Host.init [] (Spec.init f) :=
  ⟨rfl, by simp [getsOf], by simp [getsOf], by intro ao x hx; simp [Spec.init] at hx⟩

theorem T2_init (f : Nat → Nat) : T2 Host.init [] (Spec.init f) :=
  ⟨by simp, by intro i; simp [Host.init, aeCount, putCount, usedLen, Spec.init]⟩

theorem run_follow (wf : Wf c) : ∀ (tops : List TOp) (t : TWorld) (a : Abs) (h : Host) (os : List (Out × List Rec)) (t' : TWorld),
    R c t.w a → T1 h t.pend a → T2 h t.pend a → LegalRun c a (opsOf tops) → runOps (tstep c) t tops = (os, .ok t') →
    runOps (step c) t.w (opsOf tops) = (outsOf tops os, .ok t'.w) ∧
    ∃ a', runOps (Spec.step c) a (opsOf tops) = (outsOf tops os, .ok a') ∧ R c t'.w a' ∧ Follows h t'.pend (records os) a' := by
  intro tops
  induction tops with
  | nil =>
    intro t a h os t' hR t1 t2 _ hr
    simp only [runOps, Prod.mk.injEq, Res.ok.injEq] at hr
    obtain ⟨rfl, rfl⟩ := hr
    exact ⟨rfl, a, rfl, hR, h, rfl, t1, t2⟩
  | cons top tops ih =>
    intro t a h os t' hR t1 t2 hl hr
    simp only [runOps] at hr
    rcases hx : tstep c t top with ⟨t1', o, rs⟩ | _ | _ <;> rw [hx] at hr <;> simp only [Prod.mk.injEq, reduceCtorEq, and_false] at hr
    obtain ⟨hos, hr⟩ := hr
    have hrest : runOps (tstep c) t1' tops = ((runOps (tstep c) t1' tops).1, .ok t') := by rw [← hr]
    generalize (runOps (tstep c) t1' tops).1 = os' at hos hrest
    subst hos
    cases top with
    | act op =>
      obtain ⟨hl1, hl2⟩ := hl
      obtain ⟨h1, a1, h2, hR1, h', hrd, t1a, t2a⟩ := follow_act wf hR t1 t2 hl1 hx
      obtain ⟨k1, a', k2, k3, h'', k4, k5, k6⟩ := ih t1' a1 h' os' t' hR1 t1a t2a (hl2 a1 o h2) hrest
      refine ⟨?_, a', ?_, k3, h'', ?_, k5, k6⟩
      · simp only [opsOf, runOps, h1, k1, outsOf]
      · simp only [opsOf, runOps, h2, k2, outsOf]
      · simp only [records, List.flatMap_cons]
        rw [readAll_append, hrd]
        exact k4
    | emit k =>
      obtain ⟨hw, h', hrd, t1a, t2a⟩ := follow_emit wf hR t1 t2 hx
      obtain ⟨k1, a', k2, k3, h'', k4, k5, k6⟩ := ih t1' a h' os' t' (by rw [hw]; exact hR) t1a t2a hl hrest
      refine ⟨?_, a', k2, k3, h'', ?_, k5, k6⟩
      · rw [← hw]; exact k1
      · simp only [records, List.flatMap_cons]
        rw [readAll_append, hrd]
        exact k4

/-- Tracing does not change what the framework does. -/
theorem TRun.erase {tops : List TOp} {os : List (Out × List Rec)} {t : TWorld} (h : TRun c slots hdr tops os t) :
    Run c slots hdr (opsOf tops) (outsOf tops os) t.w :=
  ⟨h.env, h.legal, (run_follow h.env.wf _ _ _ _ _ _ (R_init h.env) (T1_init _) (T2_init _) h.legal h.run).1⟩

theorem TRun.host {tops : List TOp} {os : List (Out × List Rec)} {t : TWorld} (h : TRun c slots hdr tops os t) :
    ∃ v a, Host.init.readAll (records os) = some v ∧ R c t.w a ∧ T1 v t.pend a ∧ T2 v t.pend a := by
  obtain ⟨_, a, _, hR, v, h1, h2, h3⟩ := run_follow h.env.wf _ _ _ _ _ _ (R_init h.env) (T1_init _) (T2_init _) h.legal h.run
  exact ⟨v, a, h1, hR, h2, h3⟩

/-- Blocks in use, as the observer sees them. -/
theorem used_eq (hR : R c w a) {i : Nat} {p : MemPool.Pool} (hp : (Obs.pools w)[i]? = some p) :
    p.nfree + usedLen a i = p.nblocks ∧ p.nblocks < 256 → numUsed p = usedLen a i := by
  rintro ⟨h1, h2⟩
  unfold numUsed
  omega

theorem used_len (hR : R c w a) {i : Nat} {p : MemPool.Pool} (hp : (Obs.pools w)[i]? = some p) :
    p.nfree + usedLen a i = p.nblocks := by
  have hil : i < a.pools.length := by
    rw [← pools_length hR]; exact (List.getElem?_eq_some_iff.mp hp).1
  obtain ⟨p', n, hp', _, hg, hinv⟩ := pool_get hR (List.getElem?_eq_getElem hil)
  rw [hp] at hp'; cases hp'
  have := MemPool.length_sum hinv
  unfold usedLen
  rw [List.getElem?_eq_getElem hil, hinv.nblocks, hinv.nfree]
  simp only [Option.map_some, Option.getD_some]
  omega

end Verif.Fwk.Trace
