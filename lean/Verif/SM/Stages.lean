import Verif.SM.Lemmas
/-
Helper lemmas: the effect of each stage of the engine.
-/
namespace Verif.SM
open Eng Spec

/-! ### Guards and transition search -/

/-- Of the elements of `l`, guarded by `g`, `x` is the first enabled one. -/
def First {α : Type} (env : Env) (e : Sig) (g : α → Option Guard) (l : List α) (log : List Obs) (x : α)
    (log' : List Obs) : Prop :=
  ∃ pre post log1, l = pre ++ x :: post ∧ GuardsFalse env e (pre.map g) log log1 ∧ GuardTrue env e (g x) log1 log'

theorem Spec.GuardsFalse.append {env : Env} {e : Sig} {a b : List (Option Guard)} {l l1 l2 : List Obs}
    (h : GuardsFalse env e a l l1) (h' : GuardsFalse env e b l1 l2) : GuardsFalse env e (a ++ b) l l2 := by
  induction h with
  | nil => exact h'
  | cons hg _ ih => exact .cons hg (ih h')

section
variable {α : Type} {env : Env} {e : Sig} {g : α → Option Guard} {l l2 : List α} {log log1 log' : List Obs} {x : α}

theorem First.right (h : First env e g l log x log') (l2 : List α) : First env e g (l ++ l2) log x log' := by
  obtain ⟨pre, post, log1, rfl, h1, h2⟩ := h
  exact ⟨pre, post ++ l2, log1, by simp, h1, h2⟩

theorem First.left (h0 : GuardsFalse env e (l.map g) log log1) (h : First env e g l2 log1 x log') :
    First env e g (l ++ l2) log x log' := by
  obtain ⟨pre, post, log2, rfl, h1, h2⟩ := h
  exact ⟨l ++ pre, post, log2, by simp, by rw [List.map_append]; exact h0.append h1, h2⟩

theorem First.head (h : GuardTrue env e (g x) log log') : First env e g (x :: l) log x log' :=
  ⟨[], l, log, rfl, .nil, h⟩
end

theorem evalGuard_wp {env : Env} {e : Sig} {g : Option Guard} {Q : Bool → Mem → Prop} {R : Stop → Mem → Prop} {s : Mem}
    (ht : ∀ l, GuardTrue env e g s.log l → Q true { s with log := l })
    (hf : ∀ l, GuardsFalse env e [g] s.log l → Q false { s with log := l }) : wp (evalGuard env e g) Q R s := by
  rcases g with _ | _ | g
  · exact ht s.log .none
  · exact ht s.log .els
  · show Q (env g e s.log) _
    cases h : env g e s.log with
    | true => exact ht _ (.fn h)
    | false => exact hf _ (.cons h .nil)

/-- The rows of a table triggered by `e`. -/
def trig (e : Sig) (tbl : List Tr) : List Tr := (rows tbl).filter fun t => t.event == e

theorem findTrn_wp {env : Env} {e : Sig} {R : Stop → Mem → Prop} : ∀ {tbl : List Tr} {Q : Option Tr → Mem → Prop}
    {s : Mem}, (∀ t l, First env e Tr.guard (trig e tbl) s.log t l → Q (some t) { s with log := l }) →
    (∀ l, GuardsFalse env e ((trig e tbl).map Tr.guard) s.log l → Q none { s with log := l }) →
    wp (findTrn env e tbl) Q R s := by
  intro tbl
  induction tbl with
  | nil => intro Q s _ hn; exact hn s.log .nil
  | cons t ts ih =>
    intro Q s hs hn
    unfold findTrn
    by_cases ha : t.event = sigAny
    · rw [if_pos ha]
      exact hn s.log (by simp [trig, rows, ha]; exact .nil)
    · rw [if_neg ha]
      by_cases he : t.event = e
      · rw [if_pos he]
        have ht : trig e (t :: ts) = t :: trig e ts := by
          subst he
          simp only [trig, rows, List.takeWhile_cons]
          simp [ha]
        rw [ht] at hs hn
        rw [wp_bind]
        refine evalGuard_wp (fun l hl => ?_) (fun l hl => ?_)
        · exact hs t l (First.head hl)
        · refine ih (fun t' l' h' => ?_) (fun l' h' => ?_)
          · exact hs t' l' (First.left (l := [t]) (by simpa using hl) h')
          · exact hn l' (by
              rw [List.map_cons]
              exact hl.append h')
      · rw [if_neg he]
        have ht : trig e (t :: ts) = trig e ts := by
          simp only [trig, rows, List.takeWhile_cons]
          simp [ha, he]
        rw [ht] at hs hn
        exact ih hs hn

theorem findBranch_wp {env : Env} {e : Sig} {R : Stop → Mem → Prop} : ∀ {tbl : List Tr} {Q : Option Tr → Mem → Prop}
    {s : Mem}, (∀ t l, Branch env e tbl s.log t l → Q (some t) { s with log := l }) →
    (∀ l, GuardsFalse env e ((branches tbl).map Tr.guard) s.log l → Q none { s with log := l }) →
    wp (findBranch env e tbl) Q R s := by
  intro tbl
  induction tbl with
  | nil => intro Q s _ hn; exact hn s.log .nil
  | cons t ts ih =>
    intro Q s hs hn
    unfold findBranch
    by_cases ha : t.event = sigAny
    · rw [if_pos ha]
      exact hn s.log (by simp [branches, rows, ha]; exact .nil)
    · rw [if_neg ha]
      rcases hg : t.guard with _ | g
      · have ht : branches (t :: ts) = branches ts := by
          simp only [branches, rows, List.takeWhile_cons]
          simp [ha, hg]
        unfold Branch at hs
        rw [ht] at hs hn
        exact ih hs hn
      · have ht : branches (t :: ts) = t :: branches ts := by
          simp only [branches, rows, List.takeWhile_cons]
          simp [ha, hg]
        unfold Branch at hs
        rw [ht] at hs hn
        simp only
        rw [wp_bind]
        rw [← hg]
        refine evalGuard_wp (fun l hl => ?_) (fun l hl => ?_)
        · exact hs t l (First.head (g := Tr.guard) hl)
        · refine ih (fun t' l' h' => ?_) (fun l' h' => ?_)
          · exact hs t' l' (First.left (g := Tr.guard) (l := [t]) (by simpa using hl) h')
          · exact hn l' (by
              rw [List.map_cons]
              exact hl.append h')

theorem candidates_cons {m : Machine} {e : Sig} {s : Vid} {l : List Vid} {tbl : List Tr} (h : m.trtbl s = some tbl) :
    candidates m e (s :: l) = (trig e tbl).map (fun t => (s, t)) ++ candidates m e l := by
  simp [candidates, h, trig]

theorem trtbl_of_parent {m : Machine} {s : Vid} {p : Option Vid} (h : m.parent s = some p) :
    ∃ tbl, m.trtbl s = some tbl := by
  unfold Machine.parent at h
  unfold Machine.trtbl
  split at h <;> simp_all

theorem searchUp_wp {m : Machine} {env : Env} {e : Sig} {R : Stop → Mem → Prop} {Q : Option (Vid × Tr) → Mem → Prop} :
    ∀ {f : Nat} {c : Vid} {l : List Vid} {s : Mem}, Path m c l →
    (∀ v t log, Selected m env e l s.log v t log → Q (some (v, t)) { s with log := log }) →
    (∀ log, NoneEnabled m env e l s.log log → Q none { s with log := log }) →
    (∀ log, R .fuel { s with log := log }) →
    wp (searchUp m env e f c) Q R s := by
  intro f
  induction f with
  | zero => intro c l s _ _ _ hf; exact hf s.log
  | succ f ih =>
    intro c l s hp hs hn hf
    obtain ⟨r, rfl⟩ := hp.cons
    have hpar := hp.parent_head
    obtain ⟨tbl, ht⟩ := trtbl_of_parent hpar
    have hc := candidates_cons (e := e) (l := r) ht
    unfold searchUp
    rw [ht]
    simp only
    rw [wp_bind]
    refine findTrn_wp (fun t l hl => ?_) (fun l hl => ?_)
    · simp only [wp_pure]
      apply hs
      show First env e (fun x : Vid × Tr => x.2.guard) _ _ _ _
      rw [hc]
      apply First.right
      obtain ⟨pre, post, l1, he, h1, h2⟩ := hl
      exact ⟨pre.map fun t => (c, t), post.map fun t => (c, t), l1, by rw [he]; simp, by
        rw [List.map_map]; exact h1, h2⟩
    · simp only
      rw [hpar]
      have hl' : GuardsFalse env e (((trig e tbl).map (fun t => (c, t))).map fun x : Vid × Tr => x.2.guard) s.log l := by
        rw [List.map_map]; exact hl
      cases r with
      | nil =>
        simp only [List.head?_nil, wp_pure]
        apply hn
        show GuardsFalse _ _ _ _ _
        rw [hc]
        simpa [candidates] using hl'
      | cons p r =>
        simp only [List.head?_cons]
        have hp2 : Path m p (p :: r) := hp.suffix (a := [c]) rfl
        refine ih (s := { s with log := l }) hp2 (fun v t log h => ?_) (fun log h => ?_) (fun log => hf log)
        · apply hs
          show First env e (fun x : Vid × Tr => x.2.guard) _ _ _ _
          rw [hc]
          exact First.left hl' h
        · apply hn
          show GuardsFalse _ _ _ _ _
          rw [hc, List.map_append]
          exact hl'.append h

/-! ### Actions -/

theorem exec_wp {e : Sig} {R : Stop → Mem → Prop} {Q : Unit → Mem → Prop} : ∀ {as : List Act} {s : Mem},
    wp (exec e as) Q R s ↔ Q () { s with log := s.log ++ acts e as } := by
  intro as
  induction as with
  | nil => intro s; simp [exec, acts]
  | cons a as ih =>
    intro s
    unfold exec
    rw [wp_bind, wp_emit, ih]
    simp [acts]

/-- The completion flag after entering states in order. -/
def lastFlag (m : Machine) (l : List Vid) (c : Bool) : Bool := (l.getLast?.map (isCompletion m)).getD c

theorem enter_wp {m : Machine} {R : Stop → Mem → Prop} {Q : Bool → Mem → Prop} : ∀ {l : List Vid} {c : Bool} {s : Mem},
    wp (enter m l c) Q R s ↔ Q (lastFlag m l c) { s with log := s.log ++ l.map .entry } := by
  intro l
  induction l with
  | nil => intro c s; simp [enter, lastFlag]
  | cons v l ih =>
    intro c s
    unfold enter
    rw [wp_bind, wp_emit, ih]
    cases l with
    | nil => simp [lastFlag]
    | cons w l => 
      have : lastFlag m (w :: l) (isCompletion m v) = lastFlag m (v :: w :: l) c := by
        simp [lastFlag, List.getLast?_cons]
      rw [this]
      simp

theorem pushAct_wp {m : Machine} {al : List Act} {a : Option Act} {R : Stop → Mem → Prop} {Q : List Act → Mem → Prop}
    {s : Mem} : wp (pushAct m al a) Q R s ↔
      if al.length < m.maxSegs then Q (al ++ a.toList) s else R (if m.assertEn then .assert else .rc .exTseg) s := by
  unfold pushAct addAct
  by_cases h : al.length < m.maxSegs
  · rw [if_neg (by omega), if_pos h]
    cases a <;> simp
  · rw [if_pos (by omega), if_neg h]
    simp

/-! ### Leaving states -/

theorem findLca_path {m : Machine} {x : Vid} : ∀ {l : List Vid} {t : Vid} {f : Nat} {ent : List Vid}, Path m t l →
    ent.length ≤ m.maxDepth →
    findLca m x f (some t) ent = .stop .fuel ∨
    (ent.length + l.length ≤ m.maxDepth ∧ x ∉ l ∧ findLca m x f (some t) ent = .ok (false, ent ++ l)) ∨
    (∃ a b, l = a ++ x :: b ∧ ent.length + a.length ≤ m.maxDepth ∧ x ∉ a ∧
      findLca m x f (some t) ent = .ok (true, ent ++ a)) ∨
    (m.maxDepth < ent.length + l.length ∧
      findLca m x f (some t) ent = .stop (if m.assertEn then .assert else .rc .exHlevel)) := by
  intro l
  induction l with
  | nil => intro t f ent h; obtain ⟨r, hr⟩ := h.cons; simp at hr
  | cons y r ih =>
    intro t f ent h hd
    have hy : t = y := by obtain ⟨r', hr⟩ := h.cons; simp at hr; exact hr.1.symm
    subst hy
    cases f with
    | zero => exact .inl rfl
    | succ f =>
      unfold findLca
      by_cases hx : t = x
      · subst hx
        exact .inr (.inr (.inl ⟨[], r, rfl, by simpa using hd, by simp, by simp⟩))
      · rw [if_neg hx]
        by_cases hlt : ent.length < m.maxDepth
        · rw [if_pos hlt, h.parent_head]
          simp only
          cases r with
          | nil =>
            cases f with
            | zero => exact .inl rfl
            | succ f =>
              refine .inr (.inl ⟨by simp; omega, by simpa using fun e => hx e.symm, ?_⟩)
              simp [findLca]
          | cons p r =>
            have hp2 : Path m p (p :: r) := h.suffix (a := [t]) rfl
            rcases ih (f := f) (ent := ent ++ [t]) hp2 (by simp; omega) with h1 | ⟨h1, h2, h3⟩ | ⟨a, b, h1, h2, h3, h4⟩ | ⟨h1, h2⟩
            · exact .inl h1
            · refine .inr (.inl ⟨by simp at h1 ⊢; omega, ?_, by simpa using h3⟩)
              intro hm
              rcases List.mem_cons.1 hm with rfl | hm
              · exact hx rfl
              · exact h2 hm
            · refine .inr (.inr (.inl ⟨t :: a, b, by rw [h1]; rfl, by simp at h2 ⊢; omega, ?_, by simpa using h4⟩))
              intro hm
              rcases List.mem_cons.1 hm with rfl | hm
              · exact hx rfl
              · exact h3 hm
            · exact .inr (.inr (.inr ⟨by simp at h1 ⊢; omega, by simpa using h2⟩))
        · rw [if_neg hlt]
          exact .inr (.inr (.inr ⟨by simp; omega, rfl⟩))

/-! ### Histories -/

/-- The history variables hold what the log says. -/
def HistInv (m : Machine) (hist : Vid → Option Vid) (log : List Obs) : Prop :=
  ∀ h d p trn, m.vert h = some (.hist d (some p) trn) →
    hist h = if d then lastLeaf m h p log none else lastChild m h p log none

theorem lastChild_append {m : Machine} {h c : Vid} (a b : List Obs) (r : Option Vid) :
    lastChild m h c (a ++ b) r = lastChild m h c b (lastChild m h c a r) := by
  induction a generalizing r with
  | nil => rfl
  | cons o a ih => cases o <;> simp only [List.cons_append, lastChild] <;> exact ih _

theorem lastLeaf_append {m : Machine} {h c : Vid} (a b : List Obs) (r : Option Vid) :
    lastLeaf m h c (a ++ b) r = lastLeaf m h c b (lastLeaf m h c a r) := by
  induction a generalizing r with
  | nil => rfl
  | cons o a ih => cases o <;> simp only [List.cons_append, lastLeaf] <;> exact ih _

/-- Observations that do not concern any history. -/
def NoHist : Obs → Prop
  | .exit _ => False
  | .stable _ => False
  | .clear _ => False
  | _ => True

theorem HistInv.append {m : Machine} {hist : Vid → Option Vid} {log l : List Obs} (h : HistInv m hist log)
    (hl : ∀ o ∈ l, NoHist o) : HistInv m hist (log ++ l) := by
  have h1 : ∀ k c r, lastChild m k c l r = r := by
    intro k c
    induction l with
    | nil => intro r; rfl
    | cons o l ih =>
      intro r
      have ho := hl o (by simp)
      have := ih (fun o ho => hl o (by simp [ho]))
      cases o <;> simp_all [NoHist, lastChild]
  have h2 : ∀ k c r, lastLeaf m k c l r = r := by
    intro k c
    induction l with
    | nil => intro r; rfl
    | cons o l ih =>
      intro r
      have ho := hl o (by simp)
      have := ih (fun o ho => hl o (by simp [ho])) (fun k c r => by
        have := h1 k c r
        cases o <;> simp_all [NoHist, lastChild])
      cases o <;> simp_all [NoHist, lastLeaf]
  intro k d p trn hk
  rw [lastChild_append, lastLeaf_append, h1, h2]
  exact h k d p trn hk

/-- A stored history is a state inside the composite. -/
theorem lastChild_some {m : Machine} {h c v : Vid} : ∀ {l : List Obs} {r : Option Vid},
    (∀ x, r = some x → Below m c x) → lastChild m h c l r = some v → Below m c v := by
  intro l
  induction l with
  | nil => intro r hr hv; exact hr v hv
  | cons o l ih =>
    intro r hr hv
    cases o with
    | exit x =>
      refine ih ?_ hv
      intro y hy
      split at hy
      · simp only [Option.some.injEq] at hy; subst hy; exact .child (by assumption)
      · exact hr y hy
    | clear k =>
      refine ih ?_ hv
      intro y hy
      split at hy
      · simp at hy
      · exact hr y hy
    | entry x => exact ih hr hv
    | act a e => exact ih hr hv
    | guard g e b => exact ih hr hv
    | stable x => exact ih hr hv

theorem lastLeaf_some {m : Machine} {h c v : Vid} : ∀ {l : List Obs} {r : Option Vid},
    (∀ x, r = some x → Below m c x) → lastLeaf m h c l r = some v → Below m c v := by
  intro l
  induction l with
  | nil => intro r hr hv; exact hr v hv
  | cons o l ih =>
    intro r hr hv
    cases o with
    | stable x =>
      refine ih ?_ hv
      intro y hy
      split at hy
      · simp only [Option.some.injEq] at hy; subst hy; assumption
      · exact hr y hy
    | clear k =>
      refine ih ?_ hv
      intro y hy
      split at hy
      · simp at hy
      · exact hr y hy
    | entry x => exact ih hr hv
    | act a e => exact ih hr hv
    | guard g e b => exact ih hr hv
    | exit x => exact ih hr hv

theorem HistInv.below {m : Machine} {hist : Vid → Option Vid} {log : List Obs} (h : HistInv m hist log) {k : Vid}
    {d : Bool} {p v : Vid} {trn : Tr} (hk : m.vert k = some (.hist d (some p) trn)) (hv : hist k = some v) :
    Below m p v := by
  have := h k d p trn hk
  rw [hv] at this
  cases d with
  | true => exact lastLeaf_some (by simp) this.symm
  | false => exact lastChild_some (by simp) this.symm

/-- Leaving a state updates the shallow history of its parent. -/
theorem shallow_step {m : Machine} (wf : WellFormed m) {x : Vid} {q : Option Vid} (hx : m.parent x = some q)
    {hist : Vid → Option Vid} {log : List Obs} (h : HistInv m hist log) :
    ∃ r, shallowTarget m x = .ok r ∧
      HistInv m (match r with | none => hist | some k => setHist hist k (some x)) (log ++ [.exit x]) := by
  have key : ∀ k d p trn, m.vert k = some (.hist d (some p) trn) →
      (if d then lastLeaf m k p (log ++ [.exit x]) none else lastChild m k p (log ++ [.exit x]) none) =
      if d = false ∧ q = some p then some x else hist k := by
    intro k d p trn hk
    have := h k d p trn hk
    cases d with
    | true => simp only [if_true] at this ⊢; rw [lastLeaf_append]; simp [lastLeaf, this]
    | false =>
      simp only [Bool.false_eq_true, if_false] at this ⊢
      rw [lastChild_append]
      simp only [lastChild, hx, Option.some.injEq, true_and, this]
  unfold shallowTarget
  rw [hx]
  rcases q with _ | c
  · exact ⟨none, rfl, fun k d p trn hk => by rw [key k d p trn hk]; simp⟩
  · obtain ⟨cp, ct, cd, ci, ch, hc⟩ := wf.parent x c hx
    simp only [hc]
    have notowner : ∀ k d p trn, m.vert k = some (.hist d (some p) trn) → ch ≠ some k → p ≠ c := by
      intro k d p trn hk hne hpc
      subst hpc
      obtain ⟨c', hc', ⟨q', t', d', i', hcomp⟩, _⟩ := wf.hist k d (some p) trn hk
      simp only [Option.some.injEq] at hc'
      subst hc'
      rw [hc] at hcomp
      simp only [Option.some.injEq, Vertex.composite.injEq] at hcomp
      exact hne hcomp.2.2.2.2
    rcases ch with _ | k0
    · refine ⟨none, rfl, fun k d p trn hk => ?_⟩
      rw [key k d p trn hk]
      have := notowner k d p trn hk (by simp)
      rw [if_neg]
      rintro ⟨_, h2⟩
      simp only [Option.some.injEq] at h2
      exact this h2.symm
    · rcases wf.owned c cp ct cd ci k0 hc with hu | ⟨kk, trn0, hk0⟩
      · simp only [hu]
        refine ⟨none, rfl, fun k d p trn hk => ?_⟩
        rw [key k d p trn hk]
        have hne : k0 ≠ k := by rintro rfl; rw [hu] at hk; simp at hk
        have := notowner k d p trn hk (by simpa using hne)
        rw [if_neg]
        rintro ⟨_, h2⟩
        simp only [Option.some.injEq] at h2
        exact this h2.symm
      · simp only [hk0]
        cases kk with
        | true =>
          refine ⟨none, rfl, fun k d p trn hk => ?_⟩
          rw [key k d p trn hk, if_neg]
          rintro ⟨h1, h2⟩
          subst h1
          simp only [Option.some.injEq] at h2
          have hne : k0 ≠ k := by rintro rfl; rw [hk0] at hk; simp at hk
          exact notowner k false p trn hk (by simpa using hne) h2.symm
        | false =>
          refine ⟨some k0, rfl, fun k d p trn hk => ?_⟩
          rw [key k d p trn hk]
          simp only [setHist]
          by_cases hkk : k = k0
          · subst hkk
            rw [hk0] at hk
            simp only [Option.some.injEq, Vertex.hist.injEq] at hk
            obtain ⟨rfl, hp, _⟩ := hk
            simp [hp]
          · rw [if_neg hkk, if_neg]
            rintro ⟨_, h2⟩
            simp only [Option.some.injEq] at h2
            exact notowner k d p trn hk (by simpa using fun e => hkk e.symm) h2.symm

theorem updShallow_wp {m : Machine} (wf : WellFormed m) {x : Vid} {q : Option Vid} (hx : m.parent x = some q) {s : Mem}
    {Q : Unit → Mem → Prop} {R : Stop → Mem → Prop} {log : List Obs} (hl : s.log = log ++ [.exit x])
    (h : HistInv m s.hist log) (hQ : ∀ k, HistInv m k s.log → Q () { s with hist := k }) :
    wp (updShallow m x) Q R s := by
  obtain ⟨r, hr, hi⟩ := shallow_step wf hx h
  unfold updShallow
  rw [hr, wp_bind, wp_lift_ok]
  rw [← hl] at hi
  cases r with
  | none => exact hQ _ hi
  | some k => exact hQ _ hi

/-- Leaving states up to the common ancestor, after the first state. -/
theorem exits_wp {m : Machine} (wf : WellFormed m) {ts : Vid} {lt : List Vid} (hts : Path m ts lt)
    (hd : lt.length ≤ m.maxDepth) {R : Stop → Mem → Prop} {Q : List Vid → Mem → Prop} {c b : List Vid}
    (hb : lt = b ++ c) : ∀ {a : List Vid} {f ix : Nat} {stx : Option Vid} {ent : List Vid} {s : Mem},
    (∀ x ∈ a, x ∉ lt) →
    (stx = none ∧ a = [] ∧ c = [] ∧ ent = lt ∨ ∃ x, stx = some x ∧ Path m x (a ++ c)) → (ix = 0 → a ≠ []) →
    HistInv m s.hist s.log →
    (∀ s', R .fuel s') →
    (∀ k, HistInv m k (s.log ++ a.map .exit) → Q b { s with log := s.log ++ a.map .exit, hist := k }) →
    wp (exits m ts f ix stx ent) Q R s := by
  intro a f
  induction f generalizing a with
  | zero =>
    intro ix stx ent s _ _ _ hi hR _
    exact hR _
  | succ f ih =>
    intro ix stx ent s ha hstx hix hi hR hQ
    rcases hstx with ⟨rfl, rfl, rfl, rfl⟩ | ⟨x, rfl, hx⟩
    · have := hQ s.hist (by simpa using hi)
      simp only [List.append_nil] at hb
      subst hb
      simpa [exits] using this
    · unfold exits
      rw [wp_bind]
      rcases findLca_path (x := x) (f := f) (ent := []) hts (by simp) with h1 | ⟨_, h2, h3⟩ | ⟨a1, b1, h1, _, h3, h4⟩ | ⟨h1, _⟩
      · rw [h1]
        exact hR _
      · rw [h3]
        simp only [wp_lift_ok, List.nil_append, wp_bind, wp_emit]
        cases a with
        | nil =>
          obtain ⟨r, hr⟩ := hx.cons
          simp only [List.nil_append] at hr
          subst hr
          exact absurd (by rw [hb]; simp) h2
        | cons x' a =>
          obtain ⟨r, hr⟩ := hx.cons
          simp only [List.cons_append, List.cons.injEq] at hr
          obtain ⟨rfl, hr⟩ := hr
          have hpar := hx.parent_head
          refine updShallow_wp wf hpar rfl hi fun k hk => ?_
          rw [hpar]
          simp only
          refine ih (a := a) (fun y hy => ha y (by simp [hy])) ?_ (by simp) hk hR ?_
          · cases a with
            | nil =>
              cases c with
              | nil => exact .inl ⟨rfl, rfl, rfl, rfl⟩
              | cons p r => exact .inr ⟨p, by simp, hx.suffix (a := [x']) rfl⟩
            | cons p r => exact .inr ⟨p, by simp, hx.suffix (a := [x']) rfl⟩
          · intro k' hk'
            have := hQ k' (by simpa using hk')
            simpa using this
      · rw [h4]
        simp only [wp_lift_ok, List.nil_append]
        have haE : a = [] := by
          cases a with
          | nil => rfl
          | cons x' a =>
            obtain ⟨r, hr⟩ := hx.cons
            simp only [List.cons_append, List.cons.injEq] at hr
            obtain ⟨rfl, hr⟩ := hr
            exact absurd (by rw [h1]; simp) (ha x' (by simp))
        subst haE
        cases ix with
        | zero => exact absurd rfl (hix rfl)
        | succ ix =>
          simp only [wp_pure]
          obtain ⟨r, hr⟩ := hx.cons
          simp only [List.nil_append] at hr
          subst hr
          have hxb : x ∉ b := by
            have := hts.nodup
            rw [hb, List.nodup_append] at this
            intro hxb
            exact this.2.2 x hxb x (by simp) rfl
          have : a1 = b := by
            have h5 : b ++ x :: r = a1 ++ x :: b1 := by rw [← hb, h1]
            rcases List.append_eq_append_iff.1 h5 with ⟨u, hu1, hu2⟩ | ⟨u, hu1, hu2⟩
            · cases u with
              | nil => simpa using hu1
              | cons y u =>
                simp only [List.cons_append, List.cons.injEq] at hu2
                obtain ⟨rfl, _⟩ := hu2
                exact absurd (by rw [hu1]; simp) h3
            · cases u with
              | nil => simpa using hu1.symm
              | cons y u =>
                simp only [List.cons_append, List.cons.injEq] at hu2
                obtain ⟨rfl, _⟩ := hu2
                exact absurd (by rw [hu1]; simp) hxb
          subst this
          have := hQ s.hist (by simpa using hi)
          simpa using this
      · simp at h1; omega

/-- Leaving and re-entering the current state. -/
theorem exits_self_wp {m : Machine} (wf : WellFormed m) {ts : Vid} {lt : List Vid} (hts : Path m ts lt)
    (hd : lt.length ≤ m.maxDepth) {R : Stop → Mem → Prop} {Q : List Vid → Mem → Prop} {f : Nat} {s : Mem}
    (hi : HistInv m s.hist s.log) (hR : ∀ s', R .fuel s')
    (hQ : ∀ k, HistInv m k (s.log ++ [.exit ts]) → Q [ts] { s with log := s.log ++ [.exit ts], hist := k }) :
    wp (exits m ts f 0 (some ts) []) Q R s := by
  cases f with
  | zero => exact hR _
  | succ f =>
    unfold exits
    rw [wp_bind]
    obtain ⟨r, rfl⟩ := hts.cons
    cases f with
    | zero => exact hR _
    | succ f =>
      simp only [findLca, if_true, wp_lift_ok, wp_bind, wp_emit]
      refine updShallow_wp wf hts.parent_head rfl hi fun k hk => ?_
      rw [if_pos (by simp at hd ⊢; omega)]
      exact hQ k hk

end Verif.SM
