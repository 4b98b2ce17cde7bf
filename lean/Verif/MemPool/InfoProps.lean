import Verif.MemPool.Info
/-
C138, C139: the performance counters of the memory pools.
-/
namespace Verif.MemPool
open Verif

namespace Spec

/-- Number of initialisations among calls. -/
def inits (l : List OpI) : Nat := l.countP fun | .init _ _ _ _ => true | _ => false

/-- Number of requests for a block. -/
def gets (l : List OpI) : Nat := l.countP fun | .get => true | _ => false

/-- Number of blocks given back. -/
def puts (l : List OpI) : Nat := l.countP fun | .put _ => true | _ => false

/-- Number of requests for a block that returned none. -/
def failures (outs : List OutI) : Nat := outs.countP fun | .blk b => b == 0 | _ => false

/-- `i` is what the counters ought to report after the calls `l`, which gave `outs`, since they were cleared (8 bits each). The header
does not say clearly enough what `full` counts; nothing is asked of it. -/
def Counts (i : MInfo) (l : List OpI) (outs : List OutI) : Prop :=
  i.inits = inits l % 256 ∧ i.gets = gets l % 256 ∧ i.puts = puts l % 256 ∧ i.free = failures outs % 256

/-- The call is not one that clears the counters. -/
def notClear : OpI → Bool
  | .clearInfo => false
  | _ => true

end Spec
open Spec

theorem runI_cons_ok {c : Cfg} {x : PoolI} {o : OpI} {l : List OpI} {r : PoolI × List OutI} (h : runI c x (o :: l) = .ok r) :
    ∃ y q, stepI c x o = .ok y ∧ runI c y.1 l = .ok q ∧ r = (q.1, y.2 :: q.2) := by
  simp only [runI] at h
  cases hs : stepI c x o with
  | ok y =>
    rw [hs] at h
    simp only [Res.bind] at h
    cases hr : runI c y.1 l with
    | ok q => rw [hr] at h; simp only [Res.ok.injEq] at h; exact ⟨y, q, rfl, hr, h.symm⟩
    | assert => rw [hr] at h; cases h
    | ub => rw [hr] at h; cases h
  | assert => rw [hs] at h; cases h
  | ub => rw [hs] at h; cases h

theorem runI_append_ok {c : Cfg} : ∀ (l m : List OpI) {x : PoolI} {r : PoolI × List OutI}, runI c x (l ++ m) = .ok r →
    ∃ q p, runI c x l = .ok q ∧ runI c q.1 m = .ok p ∧ r = (p.1, q.2 ++ p.2) := by
  intro l
  induction l with
  | nil => intro m x r h; exact ⟨(x, []), r, rfl, h, rfl⟩
  | cons o l ih =>
    intro m x r h
    obtain ⟨y, q, h1, h2, h3⟩ := runI_cons_ok h
    obtain ⟨q', p, h4, h5, h6⟩ := ih m h2
    refine ⟨(q'.1, y.2 :: q'.2), p, ?_, h5, ?_⟩
    · simp only [runI, h1, Res.bind, h4]
    · rw [h3, h6]; rfl

theorem runI_append_mk {c : Cfg} : ∀ {l m : List OpI} {x : PoolI} {q p : PoolI × List OutI}, runI c x l = .ok q → runI c q.1 m = .ok p →
    runI c x (l ++ m) = .ok (p.1, q.2 ++ p.2) := by
  intro l
  induction l with
  | nil => intro m x q p h1 h2; simp only [runI, Res.ok.injEq] at h1; subst h1; exact h2
  | cons o l ih =>
    intro m x q p h1 h2
    obtain ⟨y, q', h3, h4, rfl⟩ := runI_cons_ok h1
    have := ih h4 h2
    simp only [List.cons_append, runI, h3, Res.bind, this]

theorem stepI_info {c : Cfg} {x : PoolI} {o : OpI} {y : PoolI × OutI} (h : stepI c x o = .ok y) (hn : notClear o = true) :
    y.1.mpi = x.mpi := by
  cases o with
  | clearInfo => cases hn
  | init m s n b => simp only [stepI] at h; obtain ⟨a, _, rfl⟩ := Res.map'_eq_ok.1 h; rfl
  | get => simp only [stepI] at h; obtain ⟨a, _, rfl⟩ := Res.map'_eq_ok.1 h; rfl
  | put b => simp only [stepI] at h; obtain ⟨a, _, rfl⟩ := Res.map'_eq_ok.1 h; rfl
  | write a v => simp only [stepI, Res.ok.injEq] at h; rw [← h]
  | getInfo => simp only [stepI, Res.ok.injEq] at h; rw [← h]

theorem runI_info_zero {c : Cfg} : ∀ (l : List OpI) {x : PoolI} {r : PoolI × List OutI}, runI c x l = .ok r →
    x.mpi = ⟨0, 0, 0, 0, 0⟩ → r.1.mpi = ⟨0, 0, 0, 0, 0⟩ := by
  intro l
  induction l with
  | nil => intro x r h hz; simp only [runI, Res.ok.injEq] at h; rw [← h]; exact hz
  | cons o l ih =>
    intro x r h hz
    obtain ⟨y, q, h1, h2, h3⟩ := runI_cons_ok h
    rw [h3]
    show q.1.mpi = _
    refine ih h2 ?_
    by_cases ho : notClear o = true
    · rw [stepI_info h1 ho]; exact hz
    · cases o <;> first | exact absurd rfl ho | skip
      simp only [stepI, Res.ok.injEq] at h1; rw [← h1]; rfl

/-! ## C139 -/

/-- **C139** Once cleared, the counters of a pool report zero for ever: whatever blocks are taken, given back or refused. -/
theorem pool_counters_stay_zero {c : Cfg} {x : PoolI} (h rest : List OpI) {r : PoolI × List OutI}
    (hr : runI c x (h ++ .clearInfo :: rest) = .ok r) : getInfo r.1 = ⟨0, 0, 0, 0, 0⟩ := by
  obtain ⟨q, p, _, h2, rfl⟩ := runI_append_ok _ _ hr
  obtain ⟨y, q', h3, h4, rfl⟩ := runI_cons_ok h2
  show q'.1.mpi = _
  refine runI_info_zero rest h4 ?_
  simp only [stepI, Res.ok.injEq] at h3
  rw [← h3]; rfl

/-- **C139** Until its counters are cleared, a pool reports whatever its structure held before it was initialised. -/
theorem pool_counters_initially_garbage {c : Cfg} : ∀ (l : List OpI) {x : PoolI} {r : PoolI × List OutI},
    (∀ o ∈ l, notClear o = true) → runI c x l = .ok r → getInfo r.1 = x.mpi := by
  intro l
  induction l with
  | nil => intro x r _ h; simp only [runI, Res.ok.injEq] at h; rw [← h]; rfl
  | cons o l ih =>
    intro x r hn h
    obtain ⟨y, q, h1, h2, rfl⟩ := runI_cons_ok h
    have := ih (fun o ho => hn o (List.mem_cons_of_mem _ ho)) h2
    rw [stepI_info h1 (hn o (List.mem_cons_self ..))] at this
    exact this

/-- **C139** Reading and clearing the counters changes nothing in the pool and hands out or takes back no block. -/
theorem pool_counter_calls_do_not_disturb {c : Cfg} (x : PoolI) :
    (∃ i, stepI c x .getInfo = .ok (x, .info i)) ∧ ∃ y, stepI c x .clearInfo = .ok (y, .unit) ∧ y.p = x.p :=
  ⟨⟨x.mpi, rfl⟩, ⟨clearInfo x, rfl, rfl⟩⟩

/-! ## C138 -/

/-- **C138** (part) The counters of a pool, cleared at some moment, report the numbers of initialisations, requests, refusals and blocks
given back since then exactly when these numbers are all zero (modulo 2^8). Missing: that they do so always, which is false. -/
theorem pool_counters_count_partial {c : Cfg} {x : PoolI} (h rest : List OpI) {q r : PoolI × List OutI}
    (hq : runI c x (h ++ [.clearInfo]) = .ok q) (hr : runI c q.1 rest = .ok r) :
    Counts (getInfo r.1) rest r.2 ↔
      (inits rest % 256 = 0 ∧ gets rest % 256 = 0 ∧ puts rest % 256 = 0 ∧ failures r.2 % 256 = 0) := by
  obtain ⟨a, p, _, h2, rfl⟩ := runI_append_ok _ _ hq
  have hz : (p.1 : PoolI).mpi = ⟨0, 0, 0, 0, 0⟩ := by
    simp only [runI, stepI, Res.bind, Res.ok.injEq] at h2
    rw [← h2]; rfl
  have hg : getInfo r.1 = ⟨0, 0, 0, 0, 0⟩ := runI_info_zero rest hr hz
  rw [hg]
  constructor
  · rintro ⟨h1, h2, h3, h4⟩; exact ⟨h1.symm, h2.symm, h3.symm, h4.symm⟩
  · rintro ⟨h1, h2, h3, h4⟩; exact ⟨h1.symm, h2.symm, h3.symm, h4.symm⟩

/-- The demo: a pool of two blocks; three requests, one block given back. -/
def infoDemo : List OpI := [.get, .get, .get, .put 0x2000]

/-- The demo, after initialising the pool and clearing its counters. -/
def infoRun : Res (PoolI × List OutI) :=
  runI ⟨4, 256, 256, true⟩ ⟨⟨0, 0, 0, 0, 0, 0, 0, fun _ => 0, 0, 0⟩, ⟨9, 9, 9, 9, 9⟩⟩
    ([.init (fun _ => 0) 0x2000 16 8, .clearInfo] ++ infoDemo ++ [.getInfo])

/-- The results of the demo. -/
def infoOuts : List OutI :=
  match infoRun with
  | .ok r => r.2
  | _ => []

/-- **C138** fails: a pool hands out two blocks, refuses a third request and takes one block back, and still reports no request, no
refusal and no block given back. -/
theorem pool_counters_do_not_count :
    (∃ r, infoRun = .ok r ∧ r.2 = infoOuts) ∧
    infoOuts = [.unit, .unit, .blk 0x2000, .blk 0x2008, .blk 0, .unit, .info ⟨0, 0, 0, 0, 0⟩] ∧
      gets infoDemo = 3 ∧ puts infoDemo = 1 ∧ failures infoOuts = 1 := by
  have ho : infoOuts = [.unit, .unit, .blk 0x2000, .blk 0x2008, .blk 0, .unit, .info ⟨0, 0, 0, 0, 0⟩] := by decide +kernel
  refine ⟨?_, ho, by decide, by decide, by rw [ho]; decide⟩
  cases h : infoRun with
  | ok r => exact ⟨r, rfl, by simp only [infoOuts, h]⟩
  | assert => simp only [infoOuts, h] at ho; cases ho
  | ub => simp only [infoOuts, h] at ho; cases ho

/-- The hypotheses of the theorems above are met. -/
example : ∃ q r, runI ⟨4, 256, 256, true⟩ ⟨⟨0, 0, 0, 0, 0, 0, 0, fun _ => 0, 0, 0⟩, ⟨9, 9, 9, 9, 9⟩⟩
    ([.init (fun _ => 0) 0x2000 16 8] ++ [.clearInfo]) = .ok q ∧ runI ⟨4, 256, 256, true⟩ q.1 infoDemo = .ok r ∧
    getInfo r.1 = ⟨0, 0, 0, 0, 0⟩ := by
  obtain ⟨r, hr, _⟩ := pool_counters_do_not_count.1
  unfold infoRun at hr
  rw [show ([.init (fun _ => 0) 0x2000 16 8, .clearInfo] ++ infoDemo ++ [.getInfo] : List OpI)
    = ([.init (fun _ => 0) 0x2000 16 8] ++ [.clearInfo]) ++ (infoDemo ++ [.getInfo]) from rfl] at hr
  obtain ⟨q, p, h1, h2, _⟩ := runI_append_ok _ _ hr
  obtain ⟨q', p', h3, h4, _⟩ := runI_append_ok _ _ h2
  refine ⟨q, q', h1, h3, ?_⟩
  have := pool_counters_stay_zero (c := ⟨4, 256, 256, true⟩) (x := ⟨⟨0, 0, 0, 0, 0, 0, 0, fun _ => 0, 0, 0⟩, ⟨9, 9, 9, 9, 9⟩⟩)
    [.init (fun _ => 0) 0x2000 16 8] infoDemo (r := (q'.1, q.2 ++ q'.2)) ?_
  · exact this
  · rw [show ([.init (fun _ => 0) 0x2000 16 8] ++ .clearInfo :: infoDemo : List OpI) = ([.init (fun _ => 0) 0x2000 16 8] ++ [.clearInfo]) ++ infoDemo from rfl]
    exact runI_append_mk h1 h3

end Verif.MemPool
