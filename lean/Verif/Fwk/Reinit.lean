import Verif.Fwk.PoolSize
/-
C140: starting the dynamic events over (`rkh_dynEvt_init`, `rkh_evtPool_init`).
-/
namespace Verif.Fwk.Reinit
open Verif

/-- `rkh_dynEvt_init` (rkhfwk_dynevt.c:171-182): no pool is registered. The loop stores NULL in the first entry of the list over and
over; the entries from `nextFreeEvtPool` on are never read, so the list is simply empty. -/
def dynEvtInit (w : World) : World := { w with regs := [] }

/-- `rkh_evtPool_init` (rkhfwk_evtpool.c:79-89): every slot becomes unused. -/
def evtPoolInit (w : World) : World := { w with slots := w.slots.map fun p => { p with nblocks := 0 } }

end Verif.Fwk.Reinit

namespace Verif.Fwk.Reinit.Spec
open Verif

/-- The arguments of a registration: the storage (with its contents), its size, the size of the events. -/
structure Args where
  m : MemPool.Mem
  start : Nat
  size : Nat
  esize : Nat

/-- The arguments describe storage for at least one event, and no more events than can be counted. -/
structure Args.Good (c : Cfg) (a : Args) : Prop where
  acc : MemPool.Accepted c.mp a.start a.size a.esize
  rep : MemPool.Representable c.mp a.size a.esize

/-- Registering pools one after the other. -/
def registerAll (c : Cfg) : World → List Args → Res World
  | w, [] => .ok w
  | w, a :: l => (registerPool c w a.m a.start a.size a.esize).bind fun w => registerAll c w l

/-- Number of unused slots. -/
def unused (w : World) : Nat := w.slots.countP fun p => p.nblocks == 0

end Verif.Fwk.Reinit.Spec

namespace Verif.Fwk.Reinit
open Verif Spec

theorem countP_set_used : ∀ (l : List MemPool.Pool) (j : Nat) (q p : MemPool.Pool), l[j]? = some q → q.nblocks = 0 → p.nblocks ≠ 0 →
    (l.set j p).countP (fun p => p.nblocks == 0) + 1 = l.countP fun p => p.nblocks == 0 := by
  intro l
  induction l with
  | nil => intro j q p h; cases h
  | cons x l ih =>
    intro j q p h hq hp
    cases j with
    | zero =>
      simp only [List.getElem?_cons_zero, Option.some.injEq] at h
      subst h
      simp [List.countP_cons, hq, hp]
    | succ j =>
      have := ih j q p (by simpa using h) hq hp
      simp only [List.set_cons_succ, List.countP_cons]
      omega

theorem getPool_none (c : Cfg) (m : MemPool.Mem) (a n b : Nat) : ∀ (slots : List MemPool.Pool) (i : Nat),
    (slots.countP fun p => p.nblocks == 0) = 0 → getPool c m a n b i slots = .ok none := by
  intro slots
  induction slots with
  | nil => intro i _; rfl
  | cons x slots ih =>
    intro i h
    rw [List.countP_cons] at h
    have hx : x.nblocks ≠ 0 := by
      intro hx; simp [hx] at h
    unfold getPool
    rw [if_neg hx]
    exact ih (i + 1) (by omega)

/-- One registration with good arguments. -/
theorem register_good {c : Cfg} (w : World) (a : Args) (hg : a.Good c) (hr : w.regs.length < c.maxPool) (hu : 0 < unused w) :
    ∃ w' j, registerPool c w a.m a.start a.size a.esize = .ok w' ∧ w'.regs = w.regs ++ [j] ∧ unused w' + 1 = unused w ∧
      w'.slots.length = w.slots.length := by
  obtain ⟨p, hp, _, _, hpos, _⟩ := MemPool.mempool_init_partitions hg.acc hg.rep a.m
  have hpos : 0 < p.nblocks := by
    obtain ⟨p', hp', _, _, h, _⟩ := MemPool.mempool_init_partitions hg.acc hg.rep a.m
    rw [hp] at hp'; cases hp'; exact h
  have hes : a.esize % c.mpc.bsW = a.esize := Nat.mod_eq_of_lt hg.acc.bsArg
  have hsz : a.size % 65536 = a.size := Nat.mod_eq_of_lt hg.acc.szArg
  have hex : ∃ q ∈ w.slots, q.nblocks = 0 := by
    unfold unused at hu
    rw [List.countP_pos_iff] at hu
    obtain ⟨q, h1, h2⟩ := hu
    exact ⟨q, h1, by simpa using h2⟩
  obtain ⟨j, q, h1, h2, h3⟩ := PoolSize.getPool_first (c := c) (m := a.m) (a := a.start) (sz := a.size) (b := a.esize) (p := p)
    (by rw [hes]; exact hp) w.slots 0 hex
  refine ⟨{ w with slots := w.slots.set j p, regs := w.regs ++ [j] }, j, ?_, rfl, countP_set_used _ _ _ _ h2 h3 (by omega), by simp⟩
  unfold registerPool
  rw [hsz, h1]
  simp only [Nat.zero_add, Option.isSome_some, assertIf_true, Res.bind'_ok, show decide (w.regs.length + 1 ≤ c.maxPool) = true by simp; omega, hr, if_true]

/-- A registration without an unused slot stops the program. -/
theorem register_none {c : Cfg} (w : World) (a : Args) (hen : c.assertEn = true) (hu : unused w = 0) :
    registerPool c w a.m a.start a.size a.esize = .assert := by
  unfold registerPool
  rw [getPool_none c a.m a.start (a.size % 65536) a.esize w.slots 0 hu, hen]
  by_cases h : w.regs.length + 1 ≤ c.maxPool
  · simp [assertIf, h, Res.bind]
  · simp [assertIf, h, Res.bind]

theorem registerAll_good {c : Cfg} : ∀ (l : List Args) (w : World), (∀ a ∈ l, a.Good c) → w.regs.length + l.length ≤ c.maxPool →
    l.length ≤ unused w → ∃ w', registerAll c w l = .ok w' ∧ w'.regs.length = w.regs.length + l.length ∧ unused w' + l.length = unused w ∧
      w'.slots.length = w.slots.length := by
  intro l
  induction l with
  | nil => intro w _ _ _; exact ⟨w, rfl, rfl, rfl, rfl⟩
  | cons a l ih =>
    intro w hg hr hu
    simp only [List.length_cons] at hr hu
    obtain ⟨w1, j, h1, h2, h3, h4⟩ := register_good w a (hg a (by simp)) (by omega) (by omega)
    obtain ⟨w', h5, h6, h7, h8⟩ := ih w1 (fun a ha => hg a (by simp [ha])) (by rw [h2]; simp; omega) (by omega)
    refine ⟨w', by simp only [registerAll, h1, Res.bind'_ok, h5], ?_, ?_, h8.trans h4⟩
    · rw [h6, h2]; simp; omega
    · simp only [List.length_cons]; omega

theorem registerAll_too_many {c : Cfg} (hen : c.assertEn = true) : ∀ (l : List Args) (w : World), (∀ a ∈ l, a.Good c) →
    w.regs.length + unused w ≤ c.maxPool → unused w < l.length → registerAll c w l = .assert := by
  intro l
  induction l with
  | nil => intro w _ _ h; simp at h
  | cons a l ih =>
    intro w hg hr hu
    by_cases h0 : unused w = 0
    · simp only [registerAll, register_none w a hen h0, Res.bind]
    · obtain ⟨w1, j, h1, h2, h3, _⟩ := register_good w a (hg a (by simp)) (by omega) (by omega)
      simp only [registerAll, h1, Res.bind'_ok]
      refine ih w1 (fun a ha => hg a (by simp [ha])) (by rw [h2]; simp; omega) ?_
      simp only [List.length_cons] at hu; omega

theorem unused_le (w : World) : unused w ≤ w.slots.length := List.countP_le_length

theorem unused_evtPoolInit (w : World) : unused (evtPoolInit w) = w.slots.length := by
  unfold unused evtPoolInit
  rw [List.countP_eq_length.2 (by
    intro p hp
    simp only [List.mem_map] at hp
    obtain ⟨q, _, rfl⟩ := hp
    rfl)]
  simp

/-! ## C140 -/

/-- **C140** (part) After `rkh_dynEvt_init` and `rkh_evtPool_init` together, the full number of pools can be registered again, whatever
was registered before. Missing: that `rkh_dynEvt_init` alone is enough, which is false. -/
theorem pools_can_be_registered_again_partial {c : Cfg} (w : World) (hw : w.slots.length = c.maxPool) (l : List Args)
    (hg : ∀ a ∈ l, a.Good c) (hl : l.length ≤ c.maxPool) :
    ∃ w', registerAll c (evtPoolInit (dynEvtInit w)) l = .ok w' ∧ w'.regs.length = l.length := by
  obtain ⟨w', h1, h2, _⟩ := registerAll_good l (evtPoolInit (dynEvtInit w)) hg (by simpa [dynEvtInit, evtPoolInit] using hl)
    (by rw [unused_evtPoolInit]; simp only [dynEvtInit]; omega)
  exact ⟨w', h1, by rw [h2]; simp [dynEvtInit, evtPoolInit]⟩

/-- **C140** fails for `rkh_dynEvt_init` alone: every pool registered before stays lost. If `l` was registered at start-up, after
`rkh_dynEvt_init` exactly `RKH_CFG_FWK_MAX_EVT_POOL - l.length` more registrations succeed; one more stops the program, although
the framework then has fewer pools than it supports. -/
theorem pools_cannot_be_registered_again {c : Cfg} (hen : c.assertEn = true) (slots : List MemPool.Pool) (hs : slots.length = c.maxPool)
    (hdr : Nat → Evt) (l : List Args) (hg : ∀ a ∈ l, a.Good c) (w : World) (hw : registerAll c (initW c slots hdr) l = .ok w)
    (l' : List Args) (hg' : ∀ a ∈ l', a.Good c) :
    (l'.length + l.length ≤ c.maxPool → ∃ w', registerAll c (dynEvtInit w) l' = .ok w') ∧
    (c.maxPool < l'.length + l.length → registerAll c (dynEvtInit w) l' = .assert) := by
  have hu0 : unused (initW c slots hdr) = c.maxPool := by
    have := unused_evtPoolInit { initW c slots hdr with slots := slots }
    rw [show unused (initW c slots hdr) = slots.length from this, hs]
  have hfit : l.length ≤ c.maxPool := by
    refine Classical.byContradiction fun hn => ?_
    rw [registerAll_too_many hen l (initW c slots hdr) hg (by rw [hu0]; simp [initW]) (by omega)] at hw
    cases hw
  obtain ⟨w1, h1, _, h3, h4⟩ := registerAll_good l (initW c slots hdr) hg (by simpa [initW] using hfit) (by omega)
  rw [h1] at hw
  cases hw
  have hu : unused (dynEvtInit w) = unused w := rfl
  constructor
  · intro hle
    obtain ⟨w', h5, _⟩ := registerAll_good l' (dynEvtInit w) hg' (by simp only [dynEvtInit, List.length_nil]; omega) (by omega)
    exact ⟨w', h5⟩
  · intro hlt
    exact registerAll_too_many hen l' (dynEvtInit w) hg' (by simp only [dynEvtInit, List.length_nil]; show 0 + unused w ≤ c.maxPool; omega) (by omega)

/-- **C140** An event that was in use when the dynamic events were started over cannot be given back: until another pool takes the place of
its own, dropping its last reference stops the program. -/
theorem old_event_stops_the_program {c : Cfg} (hen : c.assertEn = true) (w : World) (e : Nat) (he : (w.hdr e).nref = 1) :
    gcSection c (evtPoolInit (dynEvtInit w)) e = .assert ∧ gcSection c (dynEvtInit w) e = .assert := by
  constructor <;> simp [gcSection, dynEvtInit, evtPoolInit, he, hen, assertIf, Res.bind]

/-! ## A concrete case -/

/-- The demo: two pools at most; 4-byte pointers. -/
def cfg : Cfg :=
  { assertEn := true, maxSma := 4, maxPool := 2, maxChan := 1, qW := 256, mpc := ⟨4, 256, 65536, true⟩, static := fun _ => false,
    junk := fun _ => ⟨77, 13, 99⟩ }

/-- Uninitialised slots. -/
def slots : List MemPool.Pool := [⟨5, 6, 7, 8, 9, 10, 11, fun _ => 0xAA#8, 3, 4⟩, ⟨5, 6, 7, 8, 9, 10, 11, fun _ => 0x55#8, 3, 4⟩]

/-- Storage of 32 bytes for events of 8 bytes. -/
def args : Args := ⟨fun _ => 0, 0x2000, 32, 8⟩

theorem args_good : args.Good cfg where
  acc := { psz := by decide, pszW := by decide, bsArg := by decide, szArg := by decide, nonNull := by decide,
           addr := by decide, check1 := by decide, check2 := by decide, check3 := by decide }
  rep := ⟨by decide, by decide⟩

/-- Start-up with one pool, twice: after the second start only one registration succeeds, although two pools are supported. -/
example : ∃ w, registerAll cfg (initW cfg slots fun _ => ⟨0, 0, 0⟩) [args] = .ok w ∧ (∃ w', registerAll cfg (dynEvtInit w) [args] = .ok w') ∧
    registerAll cfg (dynEvtInit w) [args, args] = .assert ∧ ∃ w', registerAll cfg (evtPoolInit (dynEvtInit w)) [args, args] = .ok w' := by
  have hg : ∀ l : List Args, (∀ a ∈ l, a = args) → ∀ a ∈ l, a.Good cfg := fun l h a ha => h a ha ▸ args_good
  obtain ⟨w, hw, _⟩ := registerAll_good [args] (initW cfg slots fun _ => ⟨0, 0, 0⟩) (hg _ (by simp)) (by decide) (by decide)
  have hsl : w.slots.length = 2 := by
    obtain ⟨w', h1, _, _, h4⟩ := registerAll_good [args] (initW cfg slots fun _ => ⟨0, 0, 0⟩) (hg _ (by simp)) (by decide) (by decide)
    rw [hw] at h1; cases h1; rw [h4]; rfl
  refine ⟨w, hw, ?_, ?_, ?_⟩
  · exact (pools_cannot_be_registered_again rfl slots rfl _ [args] (hg _ (by simp)) w hw [args] (hg _ (by simp))).1 (by decide)
  · exact (pools_cannot_be_registered_again rfl slots rfl _ [args] (hg _ (by simp)) w hw [args, args] (hg _ (by simp))).2 (by decide)
  · obtain ⟨w', h, _⟩ := pools_can_be_registered_again_partial (c := cfg) w hsl [args, args] (hg _ (by simp)) (by decide)
    exact ⟨w', h⟩

/-- The demo: an event is allocated, everything is started over with the same storage, and another event is allocated. -/
def twice : Res (Nat × Nat) :=
  (registerAll cfg (initW cfg slots fun _ => ⟨0, 0, 0⟩) [args]).bind fun w =>
  (ae cfg w 8 3).bind fun r =>
  (registerAll cfg (evtPoolInit (dynEvtInit r.1)) [args]).bind fun w =>
  (ae cfg w 8 4).map' fun q => (r.2, q.2)

/-- **C140** An event in use when everything is started over with the same storage is handed out a second time. -/
theorem event_in_use_is_handed_out_again : twice = .ok (0x2000, 0x2000) := by decide +kernel

end Verif.Fwk.Reinit
