import Verif.MemPool.Trace
import Verif.MemPool.Props
/-
Property C107: what the trace records of the memory pools tell, for any number of pools and every history.
-/
namespace Verif.MemPool
open Verif

/-- How a pool was created. -/
structure Args where
  c : Cfg
  m : Mem
  start : Nat
  size : Nat
  bsize : Nat

/-- The arguments pass the checks and give representable counts. -/
structure Args.Ok (a : Args) : Prop where
  acc : Accepted a.c a.start a.size a.bsize
  rep : Representable a.c a.size a.bsize

/-- A pool in use: how it was created, the pool and its clients, and how many requests of its clients failed. -/
structure Used where
  args : Args
  w : World
  failed : Nat

/-- All pools that exist. -/
abbrev Pools := Nat → Option Used

def Pools.set (ps : Pools) (id : Nat) (u : Used) : Pools := fun i => if i = id then some u else ps i

/-- Histories of any number of pools, with the records they leave: pools are created (also again), blocks are requested, held blocks
are returned, and clients write into blocks they hold. -/
inductive THist : List MRec → Pools → Prop
  | start : THist [] fun _ => none
  | init (rs : List MRec) (ps : Pools) (h : THist rs ps) (id : Nat) (a : Args) (ha : a.Ok) (p : Pool) (l : List MRec)
      (hi : tInit a.c id a.m a.start a.size a.bsize = .ok (p, l)) : THist (rs ++ l) (ps.set id ⟨a, ⟨p, [], [0]⟩, 0⟩)
  | got (rs : List MRec) (ps : Pools) (h : THist rs ps) (id : Nat) (u : Used) (hu : ps id = some u) (p' : Pool) (b : Nat) (l : List MRec)
      (hg : tGet u.args.c id u.w.pool = .ok ((p', b), l)) (hb : b ≠ 0) :
      THist (rs ++ l) (ps.set id ⟨u.args, ⟨p', b :: u.w.held, (u.w.held.length + 1) :: u.w.outstanding⟩, u.failed⟩)
  | failed (rs : List MRec) (ps : Pools) (h : THist rs ps) (id : Nat) (u : Used) (hu : ps id = some u) (p' : Pool) (l : List MRec)
      (hg : tGet u.args.c id u.w.pool = .ok ((p', 0), l)) :
      THist (rs ++ l) (ps.set id ⟨u.args, ⟨p', u.w.held, u.w.held.length :: u.w.outstanding⟩, u.failed + 1⟩)
  | put (rs : List MRec) (ps : Pools) (h : THist rs ps) (id : Nat) (u : Used) (hu : ps id = some u) (p' : Pool) (b : Nat) (l : List MRec)
      (hb : b ∈ u.w.held) (hp : tPut u.args.c id u.w.pool b = .ok (p', l)) :
      THist (rs ++ l) (ps.set id ⟨u.args, ⟨p', u.w.held.erase b, (u.w.held.length - 1) :: u.w.outstanding⟩, u.failed⟩)
  | write (rs : List MRec) (ps : Pools) (h : THist rs ps) (id : Nat) (u : Used) (hu : ps id = some u) (b a : Nat) (v : BitVec 8)
      (hb : b ∈ u.w.held) (ha : b ≤ a ∧ a < b + getBsize u.w.pool) :
      THist rs (ps.set id ⟨u.args, { u.w with pool := poke u.w.pool a v }, u.failed⟩)

/-- What the host should know about a pool. -/
def known (u : Used) : Known := ⟨u.w.pool.nblocks, getBsize u.w.pool, getNfree u.w.pool, getLowWmark u.w.pool, u.failed⟩

theorem pset_same (ps : Pools) (id : Nat) (u : Used) : ps.set id u id = some u := by simp [Pools.set]
theorem pset_ne (ps : Pools) {id i : Nat} (u : Used) (h : i ≠ id) : ps.set id u i = ps i := by simp [Pools.set, h]
theorem hset_same (h : Host) (q : Nat) (k : Known) : h.set q k q = some k := by simp [Host.set]
theorem hset_ne (h : Host) {q i : Nat} (k : Known) (hi : i ≠ q) : h.set q k i = h i := by simp [Host.set, hi]

theorem readAll_append (h : Host) (l l' : List MRec) : h.readAll (l ++ l') = (h.readAll l).bind fun h => h.readAll l' := by
  induction l generalizing h with
  | nil => rfl
  | cons r l ih => simp only [List.cons_append, Host.readAll]; cases h.read r <;> simp [ih]

/-- Every pool of a history is in a state its own history reaches. -/
theorem THist.reach {rs : List MRec} {ps : Pools} (h : THist rs ps) :
    ∀ id u, ps id = some u → u.args.Ok ∧ Reach u.args.c u.args.m u.args.start u.args.size u.args.bsize u.w := by
  have upd : ∀ {ps : Pools} {id : Nat} {u' : Used},
      (∀ id u, ps id = some u → u.args.Ok ∧ Reach u.args.c u.args.m u.args.start u.args.size u.args.bsize u.w) →
      (u'.args.Ok ∧ Reach u'.args.c u'.args.m u'.args.start u'.args.size u'.args.bsize u'.w) →
      ∀ i u, ps.set id u' i = some u → u.args.Ok ∧ Reach u.args.c u.args.m u.args.start u.args.size u.args.bsize u.w := by
    intro ps id u' h1 h2 i u hu
    by_cases hi : i = id
    · subst hi; rw [pset_same] at hu; cases hu; exact h2
    · rw [pset_ne _ _ hi] at hu; exact h1 i u hu
  induction h with
  | start => intro _ _ h; cases h
  | init rs ps _ id a ha p l hi ih =>
    simp only [tInit, Res.map'_eq_ok, Prod.mk.injEq] at hi
    obtain ⟨p1, h1, rfl, _⟩ := hi
    exact upd ih ⟨ha, .start p1 h1⟩
  | got rs ps _ id u hu p' b l hg hb ih =>
    simp only [tGet, Res.map'_eq_ok, Prod.mk.injEq] at hg
    obtain ⟨p1, h1, rfl, _⟩ := hg
    have := Reach.get _ _ _ (ih id u hu).2 h1
    rw [if_neg hb] at this
    exact upd ih ⟨(ih id u hu).1, this⟩
  | failed rs ps _ id u hu p' l hg ih =>
    simp only [tGet, Res.map'_eq_ok, Prod.mk.injEq] at hg
    obtain ⟨p1, h1, rfl, _⟩ := hg
    have := Reach.get _ _ _ (ih id u hu).2 h1
    rw [if_pos rfl] at this
    exact upd ih ⟨(ih id u hu).1, this⟩
  | put rs ps _ id u hu p' b l hb hp ih =>
    simp only [tPut, Res.map'_eq_ok, Prod.mk.injEq] at hp
    obtain ⟨p1, h1, rfl, _⟩ := hp
    exact upd ih ⟨(ih id u hu).1, .put _ _ _ (ih id u hu).2 hb h1⟩
  | write rs ps _ id u hu b a v hb ha ih =>
    exact upd ih ⟨(ih id u hu).1, .write _ _ _ _ (ih id u hu).2 hb ha⟩

/-- **C107.** For any number of pools and every history of their use: a host that reads the trace is never contradicted, and it knows
of every pool the number and size of its blocks, how many are free, the smallest number of free blocks there has ever been, and how
many requests found no block. -/
theorem host_knows_the_pools {rs : List MRec} {ps : Pools} (h : THist rs ps) :
    ∃ v, Host.readAll (fun _ => none) rs = some v ∧ ∀ id, v id = (ps id).map known := by
  have upd : ∀ {ps : Pools} {id : Nat} {u' : Used} {v : Host}, (∀ id, v id = (ps id).map known) →
      ∀ i, v.set id (known u') i = (ps.set id u' i).map known := by
    intro ps id u' v h1 i
    by_cases hi : i = id
    · subst hi; rw [pset_same, hset_same]; rfl
    · rw [pset_ne _ _ hi, hset_ne _ _ hi]; exact h1 i
  induction h with
  | start => exact ⟨_, rfl, fun _ => rfl⟩
  | init rs ps _ id a ha p l hi ih =>
    obtain ⟨v, h1, h2⟩ := ih
    simp only [tInit, Res.map'_eq_ok, Prod.mk.injEq] at hi
    obtain ⟨p1, hp, rfl, rfl⟩ := hi
    obtain ⟨p2, hp2, _, hI, hm⟩ := init_ok ha.acc ha.rep a.m
    rw [hp] at hp2
    cases hp2
    refine ⟨_, ?_, upd h2⟩
    rw [readAll_append, h1]
    have e1 : p1.nfree = p1.nblocks := by rw [hI.nfree, hI.nblocks]; simp [blocks]
    have e2 : p1.nmin = p1.nblocks := by rw [hm, hI.nblocks]
    simp [Host.readAll, Host.read, known, getBsize, getNfree, getLowWmark, e1, e2]
  | got rs ps h0 id u hu p' b l hg hb ih =>
    obtain ⟨v, h1, h2⟩ := ih
    obtain ⟨hok, hre⟩ := h0.reach id u hu
    simp only [tGet, Res.map'_eq_ok, Prod.mk.injEq] at hg
    obtain ⟨r, hr, rfl, rfl⟩ := hg
    obtain ⟨geo, L, hI, _⟩ := reach_inv hok.acc hok.rep hre
    refine ⟨_, ?_, upd h2⟩
    rw [readAll_append, h1]
    have hv := h2 id
    rw [hu] at hv
    cases L with
    | nil => rw [get_nil geo hI, Res.ok.injEq, Prod.mk.injEq] at hr; exact absurd hr.2.symm hb
    | cons x L =>
      obtain ⟨p2, hp2, hI2, hmin, _⟩ := get_cons geo hI
      rw [hp2, Res.ok.injEq, Prod.mk.injEq] at hr
      obtain ⟨rfl, rfl⟩ := hr
      have e1 : u.w.pool.nfree = p2.nfree + 1 := by rw [hI.nfree, hI2.nfree]; rfl
      have e2 : p2.nmin = min u.w.pool.nmin p2.nfree := by rw [hmin, hI2.nfree]
      have e3 : p2.nblocks = u.w.pool.nblocks := by rw [hI.nblocks, hI2.nblocks]
      have e4 : p2.bsize = u.w.pool.bsize := by rw [hI.bsize, hI2.bsize]
      simp [Host.readAll, Host.read, hv, known, getBsize, getNfree, getLowWmark, e1, e2, e3, e4]
  | failed rs ps h0 id u hu p' l hg ih =>
    obtain ⟨v, h1, h2⟩ := ih
    obtain ⟨hok, hre⟩ := h0.reach id u hu
    simp only [tGet, Res.map'_eq_ok, Prod.mk.injEq] at hg
    obtain ⟨r, hr, rfl, rfl⟩ := hg
    obtain ⟨geo, L, hI, _⟩ := reach_inv hok.acc hok.rep hre
    refine ⟨_, ?_, upd h2⟩
    rw [readAll_append, h1]
    have hv := h2 id
    rw [hu] at hv
    cases L with
    | nil =>
      rw [get_nil geo hI, Res.ok.injEq, Prod.mk.injEq] at hr
      obtain ⟨rfl, _⟩ := hr
      have e1 : u.w.pool.nfree = 0 := hI.nfree
      simp [Host.readAll, Host.read, hv, known, getBsize, getNfree, getLowWmark, e1]
    | cons x L =>
      obtain ⟨p2, hp2, _⟩ := get_cons geo hI
      rw [hp2, Res.ok.injEq, Prod.mk.injEq] at hr
      exact absurd hr.2 hI.chain.2.1
  | put rs ps h0 id u hu p' b l hb hp ih =>
    obtain ⟨v, h1, h2⟩ := ih
    obtain ⟨hok, hre⟩ := h0.reach id u hu
    simp only [tPut, Res.map'_eq_ok, Prod.mk.injEq] at hp
    obtain ⟨r, hr, rfl, rfl⟩ := hp
    obtain ⟨geo, L, hI, _⟩ := reach_inv hok.acc hok.rep hre
    obtain ⟨p2, hp2, hI2, hmin⟩ := put_held geo hI hb
    rw [hr, Res.ok.injEq] at hp2
    subst hp2
    refine ⟨_, ?_, upd h2⟩
    rw [readAll_append, h1]
    have hv := h2 id
    rw [hu] at hv
    have e1 : r.nfree = u.w.pool.nfree + 1 := by rw [hI.nfree, hI2.nfree]; rfl
    have e3 : r.nblocks = u.w.pool.nblocks := by rw [hI.nblocks, hI2.nblocks]
    have e4 : r.bsize = u.w.pool.bsize := by rw [hI.bsize, hI2.bsize]
    have e5 : u.w.pool.nfree + 1 ≤ u.w.pool.nblocks := by
      have := length_sum hI
      have : 0 < u.w.held.length := List.length_pos_of_mem hb
      rw [hI.nfree, hI.nblocks]; omega
    simp [Host.readAll, Host.read, hv, known, getBsize, getNfree, getLowWmark, e1, e3, e4, e5, hmin]
  | write rs ps h0 id u hu b a x hb ha ih =>
    obtain ⟨v, h1, h2⟩ := ih
    refine ⟨v, h1, fun i => ?_⟩
    by_cases hi : i = id
    · subst hi; rw [pset_same, h2 i, hu]; rfl
    · rw [pset_ne _ _ hi]; exact h2 i

/-- Tracing changes nothing. -/
theorem pool_tracing_changes_nothing (c : Cfg) (id : Nat) (p : Pool) (m : Mem) (a b d blk : Nat) :
    (tInit c id m a b d).map' Prod.fst = init c m a b d ∧ (tGet c id p).map' Prod.fst = get c p ∧
    (tPut c id p blk).map' Prod.fst = put c p blk := by
  refine ⟨?_, ?_, ?_⟩
  · simp only [tInit]; cases init c m a b d <;> rfl
  · simp only [tGet]; cases get c p <;> rfl
  · simp only [tPut]; cases put c p blk <;> rfl

/-- **C107.** In every history, the record of a request tells the client's fortune: it shows the number of free blocks after the request, which is one
less than before if a block was handed out and 0, as before, if not; the record of a return shows one more. The number of free blocks
shown is always the number of blocks minus those the clients hold. -/
theorem pool_records {rs : List MRec} {ps : Pools} (h : THist rs ps) {id : Nat} {u : Used} (hu : ps id = some u) :
    (∀ p' b l, tGet u.args.c id u.w.pool = .ok ((p', b), l) →
      (b ≠ 0 ∧ ∃ m, l = [.get id (u.w.pool.nblocks - u.w.held.length - 1) m] ∧ u.w.held.length < u.w.pool.nblocks) ∨
      (b = 0 ∧ ∃ m, l = [.get id 0 m] ∧ u.w.held.length = u.w.pool.nblocks)) ∧
    (∀ b ∈ u.w.held, ∃ p', tPut u.args.c id u.w.pool b = .ok (p', [.put id (u.w.pool.nblocks - u.w.held.length + 1)])) := by
  obtain ⟨hok, hre⟩ := h.reach id u hu
  obtain ⟨geo, L, hI, _⟩ := reach_inv hok.acc hok.rep hre
  have hlen := length_sum hI
  have hnb := hI.nblocks
  refine ⟨fun p' b l hg => ?_, fun b hb => ?_⟩
  · simp only [tGet, Res.map'_eq_ok, Prod.mk.injEq] at hg
    obtain ⟨r, hr, rfl, rfl⟩ := hg
    cases L with
    | nil =>
      rw [get_nil geo hI, Res.ok.injEq, Prod.mk.injEq] at hr
      obtain ⟨rfl, rfl⟩ := hr
      simp only [List.length_nil] at hlen
      exact .inr ⟨rfl, u.w.pool.nmin, by rw [hI.nfree]; rfl, by omega⟩
    | cons x L =>
      obtain ⟨p2, hp2, hI2, _⟩ := get_cons geo hI
      rw [hp2, Res.ok.injEq, Prod.mk.injEq] at hr
      obtain ⟨rfl, rfl⟩ := hr
      simp only [List.length_cons] at hlen
      refine .inl ⟨hI.chain.2.1, p2.nmin, ?_, by omega⟩
      have : p2.nfree = u.w.pool.nblocks - u.w.held.length - 1 := by rw [hI2.nfree]; omega
      rw [this]
  · obtain ⟨p2, hp2, hI2, _⟩ := put_held geo hI hb
    refine ⟨p2, ?_⟩
    have : p2.nfree = u.w.pool.nblocks - u.w.held.length + 1 := by rw [hI2.nfree, List.length_cons]; omega
    simp [tPut, hp2, Res.map', this]

/-! ### A concrete history -/

/-- Arguments of a pool of two blocks of 12 bytes. -/
def demoArgs : Args := ⟨⟨4, 256, 256, true⟩, fun _ => 0xAA, 0x2000, 30, 10⟩
theorem demoArgs_ok : demoArgs.Ok :=
  ⟨⟨by decide, by decide, by decide, by decide, by decide, by decide, by decide, by decide, by decide⟩, by decide, by decide⟩

/-- One block is requested and returned, then all are requested, and one request too many. -/
example : ∃ rs ps u, THist rs ps ∧ ps 7 = some u ∧ u.w.held = [0x200c, 0x2000] ∧ u.failed = 1 ∧
    rs = [.init 7 2 12, .get 7 1 1, .put 7 2, .get 7 1 1, .get 7 0 0, .get 7 0 0] := by
  obtain ⟨p0, e0, geo, hI0, m0⟩ := init_ok demoArgs_ok.acc demoArgs_ok.rep demoArgs.m
  have hb : blocks demoArgs.start (roundUp demoArgs.c.psz demoArgs.bsize) (demoArgs.size / roundUp demoArgs.c.psz demoArgs.bsize) =
      [0x2000, 0x200c] := by decide
  have hn : demoArgs.size / roundUp demoArgs.c.psz demoArgs.bsize = 2 := by decide
  rw [hb] at hI0
  rw [hn] at hI0 geo m0
  have b0 : p0.bsize = 12 := hI0.bsize
  have n0 : p0.nblocks = 2 := hI0.nblocks
  obtain ⟨p1, e1, hI1, m1, _⟩ := get_cons geo hI0
  obtain ⟨p2, e2, hI2, m2⟩ := put_held geo hI1 (b := 0x2000) (by simp)
  obtain ⟨p3, e3, hI3, m3, _⟩ := get_cons geo hI2
  simp only [List.erase_cons_head] at hI3
  obtain ⟨p4, e4, hI4, m4, _⟩ := get_cons geo hI3
  have e5 := get_nil geo hI4
  have f1 : p1.nfree = 1 := hI1.nfree
  have f2 : p2.nfree = 2 := hI2.nfree
  have f3 : p3.nfree = 1 := hI3.nfree
  have f4 : p4.nfree = 0 := hI4.nfree
  have m1 : p1.nmin = 1 := by rw [m1, m0]; rfl
  have m3 : p3.nmin = 1 := by rw [m3, m2, m1]; rfl
  have m4 : p4.nmin = 0 := by rw [m4, m3]; rfl
  have h0 := THist.init _ _ THist.start 7 demoArgs demoArgs_ok p0 [.init 7 2 12] (by simp only [tInit, e0, Res.map', n0, b0])
  have h1 := THist.got _ _ h0 7 _ (pset_same _ _ _) p1 0x2000 [.get 7 1 1] (by simp only [tGet, e1, Res.map', f1, m1]) (by decide)
  have h2 := THist.put _ _ h1 7 _ (pset_same _ _ _) p2 0x2000 [.put 7 2] (by simp) (by simp only [tPut, e2, Res.map', f2])
  have h3 := THist.got _ _ h2 7 _ (pset_same _ _ _) p3 0x2000 [.get 7 1 1] (by simp only [tGet, e3, Res.map', f3, m3]) (by decide)
  have h4 := THist.got _ _ h3 7 _ (pset_same _ _ _) p4 0x200c [.get 7 0 0] (by simp only [tGet, e4, Res.map', f4, m4]) (by decide)
  have h5 := THist.failed _ _ h4 7 _ (pset_same _ _ _) p4 [.get 7 0 0] (by simp only [tGet, e5, Res.map', f4, m4])
  exact ⟨_, _, _, h5, pset_same _ _ _, rfl, rfl, rfl⟩

end Verif.MemPool
