import Verif.Fwk.Sim2
import Verif.Fwk.Obs
/-
From the step-by-step simulation to whole histories, and from the abstract state to what an observer sees.
-/
namespace Verif.Fwk
open Verif Verif.Fwk.Spec

/-- The initial situation: assertions enabled, the supported sizes, an array of event pool records with arbitrary
contents, and statically initialised events (rkhevt.h: RKH_ROM_STATIC_EVENT and friends set `nref = pool = 0`). -/
structure Env (c : Cfg) (slots : List MemPool.Pool) (hdr : Nat → Evt) : Prop where
  en : c.assertEn = true
  sma : c.maxSma ≤ 64
  pool : c.maxPool ≤ 255
  slots : slots.length = c.maxPool
  static : ∀ e, c.static e = true → (hdr e).nref = 0 ∧ (hdr e).pool = 0

/-- A history `ops` that respects the contract, started on the initialised framework, returned `outs` and led
to `w`. -/
structure Run (c : Cfg) (slots : List MemPool.Pool) (hdr : Nat → Evt) (ops : List Op) (outs : List Out) (w : World) : Prop where
  env : Env c slots hdr
  legal : LegalRun c (Spec.init fun e => (hdr e).sig) ops
  run : runOps (step c) (initW c slots hdr) ops = (outs, .ok w)

variable {c : Cfg} {slots : List MemPool.Pool} {hdr : Nat → Evt} {w : World} {a : Abs}

theorem Env.wf (h : Env c slots hdr) : Wf c := ⟨h.en, h.sma, h.pool⟩

theorem R_init (h : Env c slots hdr) : R c (initW c slots hdr) (Spec.init fun e => (hdr e).sig) := by
  have hg := RdyGrp.inv_init c.maxSma
  constructor
  · constructor
    · simp [initW]
    · intro p hp; simp [initW, Spec.init, hp]
    · intro p i hi; simp [Spec.init] at hi
    · intro x hx; simp [Spec.init] at hx
    · exact ⟨rfl, by simp [initW]⟩
    · exact hg
    · intro p; simp [initW, RdyGrp.bit_init, Spec.init]
  · exact ⟨rfl, by simp [initW]⟩
  · simp [initW]
  · intro k g hk
    simp only [initW] at hk
    have := List.mem_of_getElem? hk
    rw [List.mem_replicate] at this
    obtain ⟨_, rfl⟩ := this
    exact ⟨hg, fun p => by simp [RdyGrp.bit_init, Spec.init]⟩
  · constructor
    · simp [initW, h.slots]
    · simp [initW, Spec.init]
    · simp [Spec.init]
    · intro i P hP; simp [Spec.init] at hP
    · intro i p _ hp
      simp only [initW, List.getElem?_map, Option.map_eq_some_iff] at hp
      obtain ⟨q, _, rfl⟩ := hp
      rfl
  · have hH : holders (Spec.init fun e => (hdr e).sig) = [] := rfl
    rw [hH]
    have hU : ∀ i e, ¬ InUse (Spec.init fun e => (hdr e).sig).pools i e := by
      rintro i e ⟨P, hP, _⟩; simp [Spec.init] at hP
    have hF : ∀ i e, ¬ InFree (Spec.init fun e => (hdr e).sig).pools i e := by
      rintro i e ⟨P, hP, _⟩; simp [Spec.init] at hP
    constructor
    · simp
    · simp [Spec.init]
    · simp [Spec.init]
    · intro i e hi; exact absurd hi (hU i e)
    · intro i e hi; simp [putsOf, Spec.init] at hi
    · intro i e hi; exact absurd hi (hU i e)
    · intro i e hi; exact absurd hi (by simp [hU, hF])
    · intro i j e hi; exact absurd hi (by simp [hU, hF])
    · intro i e hi; exact absurd hi (by simp [hU, hF])
    · intro i P hP; simp [Spec.init] at hP
    · intro e he
      obtain ⟨h1, h2⟩ := h.static e he
      simp only [initW, Spec.init]
      cases hh : hdr e
      simp_all
    · intro i e hi; exact absurd hi (hU i e)
  · rfl
  · rfl
  · intro ao hao; simp [Spec.init] at hao
  · intro ao e he; simp [Spec.init] at he
  · intro e he; simp [Spec.init] at he

theorem legalRun_sim (wf : Wf c) : ∀ (ops : List Op) (w : World) (a : Abs), R c w a → LegalRun c a ops →
    (runOps (step c) w ops).1 = (runOps (Spec.step c) a ops).1 ∧
    FinRel (R c) (runOps (step c) w ops).2 (runOps (Spec.step c) a ops).2 ∧
    (runOps (Spec.step c) a ops).2 ≠ .ub := by
  intro ops
  induction ops with
  | nil => intro w a h _; exact ⟨rfl, h, by simp [runOps]⟩
  | cons op ops ih =>
    intro w a h hl
    obtain ⟨h1, h2⟩ := sim_step wf h op hl.1
    have hl2 := hl.2
    simp only [runOps]
    rcases hf : step c w op with ⟨s', o⟩ | _ | _ <;> rcases hg : Spec.step c a op with ⟨t', o'⟩ | _ | _ <;>
      rw [hf, hg] at h1 <;> simp only [StepRel] at h1
    · obtain ⟨hr, rfl⟩ := h1
      obtain ⟨k1, k2, k3⟩ := ih s' t' hr (hl2 t' o hg)
      exact ⟨by simp [k1], k2, k3⟩
    · exact ⟨rfl, trivial, by simp⟩
    · exact absurd hg h2

/-- **Refinement.** Every history that respects the contract behaves, on the code, exactly as the specification says: the
same results, the same assertion failures, never undefined behaviour. -/
theorem fwk_refines (h : Env c slots hdr) {ops : List Op} (hl : LegalRun c (Spec.init fun e => (hdr e).sig) ops) :
    (runOps (step c) (initW c slots hdr) ops).1 = (runOps (Spec.step c) (Spec.init fun e => (hdr e).sig) ops).1 ∧
    FinRel (R c) (runOps (step c) (initW c slots hdr) ops).2 (runOps (Spec.step c) (Spec.init fun e => (hdr e).sig) ops).2 ∧
    (runOps (step c) (initW c slots hdr) ops).2 ≠ .ub := by
  obtain ⟨h1, h2, h3⟩ := legalRun_sim h.wf ops _ _ (R_init h) hl
  refine ⟨h1, h2, ?_⟩
  intro hu
  rw [hu] at h2
  revert h2
  cases hx : (runOps (Spec.step c) (Spec.init fun e => (hdr e).sig) ops).2 <;> simp_all [FinRel]

theorem Run.abs {ops : List Op} {outs : List Out} {w : World} (h : Run c slots hdr ops outs w) :
    ∃ a, runOps (Spec.step c) (Spec.init fun e => (hdr e).sig) ops = (outs, .ok a) ∧ R c w a := by
  obtain ⟨h1, h2, _⟩ := fwk_refines h.env h.legal
  rw [h.run] at h1 h2
  simp only at h1 h2
  rcases hx : runOps (Spec.step c) (Spec.init fun e => (hdr e).sig) ops with ⟨o, r⟩
  rw [hx] at h1 h2
  simp only at h1 h2
  subst h1
  cases r with
  | ok a => exact ⟨a, rfl, h2⟩
  | assert => exact h2.elim
  | ub => exact h2.elim

/-! ### The observer's view of a related pair of states -/

theorem contents_eq {s : Bool} {q : Queue.Queue} {y : AQ} (h : QRep c s q y) : Obs.contents q = y.items := by
  obtain ⟨qa, hr, hi⟩ := h
  rw [← hi]
  unfold Obs.contents
  have hle := hr.le
  have hcells := hr.cells
  rw [hr.qty, hr.nel]
  have key : ∀ i, i < qa.items.length → q.mem[(q.pout + i) % y.cap]? = qa.items[i]? := by
    intro i hi
    rw [← hcells i hi]
    congr 1
    have : q.pout < y.cap := by have := hr.pout; omega
    unfold Queue.idx
    split
    · exact Nat.mod_eq_of_lt ‹_›
    · rw [Nat.mod_eq_sub_mod (by omega), Nat.mod_eq_of_lt (by omega)]
  have : ∀ (l : List Nat) (f : Nat → Option Nat), (∀ i, i < l.length → f i = l[i]?) →
      (List.range l.length).filterMap f = l := by
    intro l
    induction l with
    | nil => intro f _; rfl
    | cons x l ih =>
      intro f hf
      rw [List.length_cons, List.range_succ_eq_map, List.filterMap_cons]
      rw [hf 0 (by simp)]
      simp only [List.getElem?_cons_zero, List.filterMap_map]
      congr 1
      exact ih _ (fun i hi => by simpa using hf (i + 1) (by simpa using hi))
  exact this _ _ key

theorem walk_eq {psz : Nat} {m : MemPool.Mem} {p : Nat} {L : List Nat} (h : MemPool.Chain psz m p L) :
    Obs.walk psz m p L.length = L := by
  induction L generalizing p with
  | nil => rfl
  | cons b L ih =>
    obtain ⟨rfl, _, h3⟩ := h
    simp [Obs.walk, ih h3]

theorem rel2_flatMap {α β : Type} {P : α → β → Prop} {f : α → List Nat} {g : β → List Nat} (hfg : ∀ x y, P x y → f x = g y) :
    ∀ {l : List α} {m : List β}, Rel2 P l m → l.flatMap f = m.flatMap g := by
  intro l
  induction l with
  | nil =>
    intro m h
    have := h.1
    have : m = [] := List.length_eq_zero_iff.mp (by simpa using this.symm)
    subst this; rfl
  | cons x l ih =>
    intro m h
    cases m with
    | nil => simp [Rel2] at h
    | cons y m =>
      have h1 := h.2 0 x y rfl rfl
      have h2 : Rel2 P l m := ⟨by simpa using h.1, fun i u v hu hv => h.2 (i + 1) u v (by simpa using hu) (by simpa using hv)⟩
      simp only [List.flatMap_cons, hfg x y h1, ih h2]

theorem contents_aos (h : R c w a) : w.aos.flatMap (fun x => Obs.contents x.q) = a.aos.flatMap (·.q.items) :=
  rel2_flatMap (fun _ _ hp => contents_eq hp.2) h.ao.aos

theorem contents_dqs (h : R c w a) : w.dqs.flatMap Obs.contents = a.dqs.flatMap (·.items) :=
  rel2_flatMap (fun _ _ hp => contents_eq hp) h.dq

/-- The observer counts the same references. -/
theorem references_eq (h : R c w a) : Obs.references w a.resv = holders a := by
  unfold Obs.references holders
  rw [contents_aos h, contents_dqs h, h.ph, h.conts]
  cases a.ph <;> rfl

theorem pools_eq (h : R c w a) : Obs.pools w = w.slots.take a.pools.length := by
  have hk : ∀ k, k ≤ a.pools.length → (List.range k).filterMap (fun s => w.slots[s]?) = w.slots.take k := by
    intro k hk
    induction k with
    | zero => rfl
    | succ k ih =>
      have hlt : k < w.slots.length := by have := h.pl.le; have := h.pl.slen; omega
      rw [List.range_succ, List.filterMap_append, ih (by omega), List.take_succ]
      simp [List.getElem?_eq_getElem hlt]
  unfold Obs.pools
  rw [h.pl.regs, hk _ (Nat.le_refl _)]

theorem pool_get (h : R c w a) {i : Nat} {P : APool} (hP : a.pools[i]? = some P) :
    ∃ p n, (Obs.pools w)[i]? = some p ∧ w.slots[i]? = some p ∧ MemPool.Geo c.mp P.start P.size P.bsize n ∧
      MemPool.Inv c.mp P.start P.size P.bsize n p P.free P.used := by
  obtain ⟨p, n, h1, h2, h3⟩ := h.pl.pool i P hP
  refine ⟨p, n, ?_, h1, h2, h3⟩
  rw [pools_eq h, List.getElem?_take_of_lt (List.getElem?_eq_some_iff.mp hP).1, h1]

theorem pools_length (h : R c w a) : (Obs.pools w).length = a.pools.length := by
  have := h.pl.le
  have := h.pl.slen
  rw [pools_eq h, List.length_take]
  omega

theorem free_eq {P : APool} {p : MemPool.Pool} {n : Nat} (h : MemPool.Inv c.mp P.start P.size P.bsize n p P.free P.used) :
    Obs.freeBlocks c p = P.free := by
  unfold Obs.freeBlocks
  rw [h.nfree]
  exact walk_eq h.chain

theorem all_eq {P : APool} {p : MemPool.Pool} {n : Nat} (h : MemPool.Inv c.mp P.start P.size P.bsize n p P.free P.used) :
    Obs.allBlocks p = MemPool.blocks P.start P.bsize n := by
  unfold Obs.allBlocks MemPool.blocks
  rw [h.nblocks, h.pstart, h.bsize]
  rfl

/-- Allocated blocks are the used ones. -/
theorem allocated_iff (h : R c w a) (i e : Nat) : Obs.Allocated c w i e ↔ InUse a.pools i e := by
  unfold Obs.Allocated InUse
  constructor
  · rintro ⟨p, hp, h1, h2⟩
    have hil : i < a.pools.length := by
      rw [← pools_length h]; exact (List.getElem?_eq_some_iff.mp hp).1
    obtain ⟨p', n, hp', _, hg, hinv⟩ := pool_get h (List.getElem?_eq_getElem hil)
    rw [hp] at hp'; cases hp'
    rw [all_eq hinv] at h1
    rw [free_eq hinv] at h2
    refine ⟨_, List.getElem?_eq_getElem hil, ?_⟩
    have := hinv.perm.symm.subset h1
    rcases List.mem_append.mp this with h3 | h3
    · exact absurd h3 h2
    · exact h3
  · rintro ⟨P, hP, hu⟩
    obtain ⟨p, n, hp, _, hg, hinv⟩ := pool_get h hP
    refine ⟨p, hp, ?_, ?_⟩
    · rw [all_eq hinv]; exact hinv.perm.subset (by simp [hu])
    · rw [free_eq hinv]
      intro hf
      have := h.ev.poolND i P hP
      rw [List.nodup_append] at this
      exact this.2.2 e hf e hu rfl

theorem registered_eq (h : R c w a) (p : Nat) :
    (∀ x, Obs.registered w p = some x → ∃ i y, a.reg p = some i ∧ a.aos[i]? = some y ∧ x.prio = y.prio ∧ Obs.contents x.q = y.q.items) ∧
    (∀ i, a.reg p = some i → ∃ x y, Obs.registered w p = some x ∧ a.aos[i]? = some y ∧ x.prio = y.prio ∧ Obs.contents x.q = y.q.items) := by
  constructor
  · intro x hx
    unfold Obs.registered at hx
    by_cases hp : p < c.maxSma
    · rw [h.ao.tbl p hp] at hx
      simp only [Option.join_some] at hx
      cases hr : a.reg p with
      | none => simp [hr] at hx
      | some i =>
        obtain ⟨_, y, hy, hyp⟩ := h.ao.regOk p i hr
        simp only [hr, Option.bind_some] at hx
        have := h.ao.aos.2 i x y hx hy
        exact ⟨i, y, rfl, hy, this.1, contents_eq this.2⟩
    · have : w.sptbl[p]? = none := List.getElem?_eq_none (by rw [h.ao.len]; omega)
      simp [this] at hx
  · intro i hi
    obtain ⟨hp, y, hy, hyp⟩ := h.ao.regOk p i hi
    obtain ⟨x, hx, h1, h2⟩ := h.ao.aos.get hy
    refine ⟨x, y, ?_, hy, h1, contents_eq h2⟩
    unfold Obs.registered
    rw [h.ao.tbl p hp, hi]
    simp [hx]

/-! ### History facts of the specification -/

/-- Bookkeeping that an observer can do from the calls alone. -/
structure Books (op : Op) (o : Out) (a a' : Abs) : Prop where
  resv : a'.resv = Obs.reservations [op] a.resv
  fresh : a'.fresh = Obs.fresh [(op, o)] a.fresh
  sig : a'.sig = Obs.signal [(op, o)] a.sig
  prio : a'.aos.map (·.prio) = a.aos.map (·.prio) ++ Obs.activations [op]
  reg : a'.reg = Obs.registry [op] (a.aos.map (·.prio)) a.reg
  sub : ∀ ch p, a'.sub ch p = Obs.subscribed ch p [op] (a.aos.map (·.prio)) (a.sub ch p)

theorem map_prio_set {l : List AAo} {i : Nat} {x : AAo} (h : l[i]? = some x) (q : AQ) :
    (l.set i { x with q := q }).map (·.prio) = l.map (·.prio) := by
  rw [List.map_set]
  apply List.ext_getElem?
  intro j
  rw [List.getElem?_set]
  split
  · subst_vars
    obtain ⟨h1, h2⟩ := List.getElem?_eq_some_iff.mp h
    simp [h1, h2]
  · rfl

theorem post_facts {front : Bool} {ao e : Nat} {a' : Abs} (h : Spec.post front a ao e = .ok a') :
    ∃ x q, a.aos[ao]? = some x ∧ a' = { a with aos := a.aos.set ao { x with q := q }, fresh := a.fresh.erase e } ∧
      q = { x.q with items := if front then e :: x.q.items else x.q.items ++ [e] } ∧ x.q.items.length ≠ x.q.cap := by
  unfold Spec.post at h
  cases hx : a.aos[ao]? with
  | none => simp [hx] at h
  | some x =>
    simp only [hx, qput] at h
    by_cases hf : x.q.items.length = x.q.cap
    · simp [hf] at h
    · simp only [hf, if_false, Res.bind'_ok, Res.ok.injEq] at h
      exact ⟨x, _, rfl, h.symm, rfl, hf⟩

/-- What the deliveries of one publish do. -/
theorem deliver_facts {e : Nat} {s : Option Nat} : ∀ {l : List Nat} {a a' : Abs},
    RdyGrp.foldRes (Spec.deliver e s) a l = .ok a' → a.fresh.erase e = a.fresh →
      ∃ aos', a' = { a with aos := aos' } ∧ aos'.map (·.prio) = a.aos.map (·.prio) := by
  intro l
  induction l with
  | nil => intro a a' h _; simp only [RdyGrp.foldRes, Res.ok.injEq] at h; exact ⟨a.aos, by rw [← h], rfl⟩
  | cons p l ih =>
    intro a a' h hf
    simp only [RdyGrp.foldRes, Spec.deliver] at h
    cases hr : a.reg p with
    | none => simp [hr] at h
    | some ao =>
      simp only [hr] at h
      by_cases hs : some ao = s
      · simp only [hs, if_true, Res.bind'_ok] at h
        exact ih h hf
      · simp only [hs, if_false] at h
        cases hp : Spec.post false a ao e with
        | assert => simp [hp] at h
        | ub => simp [hp] at h
        | ok a1 =>
          simp only [hp, Res.bind'_ok] at h
          obtain ⟨x, q, hx, rfl, _⟩ := post_facts hp
          obtain ⟨aos', h1, h2⟩ := ih h (by simp [hf])
          refine ⟨aos', by rw [h1, hf], ?_⟩
          rw [h2]
          exact map_prio_set hx q

theorem books (h : R c w a) {op : Op} {o : Out} {a' : Abs} (hs : Spec.step c a op = .ok (a', o)) : Books op o a a' := by
  have hnd : ∀ e, (a.fresh.erase e).erase e = a.fresh.erase e := by
    intro e
    apply List.erase_of_not_mem
    exact h.ev.freshND.not_mem_erase
  cases op with
  | activate p mem n =>
    simp only [Spec.step] at hs
    split at hs
    · cases hs
    · simp only [Res.ok.injEq, Prod.mk.injEq] at hs
      obtain ⟨rfl, rfl⟩ := hs
      constructor <;> simp [Obs.reservations, Obs.fresh, Obs.signal, Obs.activations, Obs.registry, Obs.subscribed]
  | terminate ao =>
    simp only [Spec.step] at hs
    cases hx : a.aos[ao]? with
    | none => simp [hx] at hs
    | some x =>
      simp only [hx] at hs
      split at hs
      · simp only [Res.ok.injEq, Prod.mk.injEq] at hs
        obtain ⟨rfl, rfl⟩ := hs
        constructor <;> simp [Obs.reservations, Obs.fresh, Obs.signal, Obs.activations, Obs.registry, Obs.subscribed, hx, eq_comm]
      · cases hs
  | newDefer mem n =>
    simp only [Spec.step, Res.ok.injEq, Prod.mk.injEq] at hs
    obtain ⟨rfl, rfl⟩ := hs
    constructor <;> simp [Obs.reservations, Obs.fresh, Obs.signal, Obs.activations, Obs.registry, Obs.subscribed]
  | regPool m s n es =>
    simp only [Spec.step] at hs
    split at hs
    · cases hs
    · simp only [Res.ok.injEq, Prod.mk.injEq] at hs
      obtain ⟨rfl, rfl⟩ := hs
      constructor <;> simp [Obs.reservations, Obs.fresh, Obs.signal, Obs.activations, Obs.registry, Obs.subscribed]
  | alloc n sg =>
    simp only [Spec.step] at hs
    split at hs
    · cases hs
    split at hs
    · cases hs
    split at hs
    · cases hs
    · simp only [Res.ok.injEq, Prod.mk.injEq] at hs
      obtain ⟨rfl, rfl⟩ := hs
      constructor <;> simp [Obs.reservations, Obs.fresh, Obs.signal, Obs.activations, Obs.registry, Obs.subscribed]
  | postFifo ao e =>
    simp only [Spec.step, Res.map'_eq_ok] at hs
    obtain ⟨a1, h1, h2⟩ := hs
    simp only [Prod.mk.injEq] at h2
    obtain ⟨rfl, rfl⟩ := h2
    obtain ⟨x, q, hx, rfl, _⟩ := post_facts h1
    constructor <;> simp [Obs.reservations, Obs.fresh, Obs.signal, Obs.activations, Obs.registry, Obs.subscribed, map_prio_set hx]
  | postLifo ao e =>
    simp only [Spec.step, Res.map'_eq_ok] at hs
    obtain ⟨a1, h1, h2⟩ := hs
    simp only [Prod.mk.injEq] at h2
    obtain ⟨rfl, rfl⟩ := h2
    obtain ⟨x, q, hx, rfl, _⟩ := post_facts h1
    constructor <;> simp [Obs.reservations, Obs.fresh, Obs.signal, Obs.activations, Obs.registry, Obs.subscribed, map_prio_set hx]
  | defer i e =>
    simp only [Spec.step] at hs
    split at hs
    · cases hs
    · simp only [Res.map'_eq_ok] at hs
      obtain ⟨q, h1, h2⟩ := hs
      simp only [Prod.mk.injEq] at h2
      obtain ⟨rfl, rfl⟩ := h2
      constructor <;> simp [Obs.reservations, Obs.fresh, Obs.signal, Obs.activations, Obs.registry, Obs.subscribed]
  | recall ao i =>
    simp only [Spec.step] at hs
    split at hs
    · cases hs
    split at hs <;>
    · simp only [Res.ok.injEq, Prod.mk.injEq] at hs
      obtain ⟨rfl, rfl⟩ := hs
      constructor <;> simp [Obs.reservations, Obs.fresh, Obs.signal, Obs.activations, Obs.registry, Obs.subscribed]
  | reserve e =>
    simp only [Spec.step, Res.ok.injEq, Prod.mk.injEq] at hs
    obtain ⟨rfl, rfl⟩ := hs
    constructor <;> simp [Obs.reservations, Obs.fresh, Obs.signal, Obs.activations, Obs.registry, Obs.subscribed]
  | gc e =>
    simp only [Spec.step, Res.ok.injEq, Prod.mk.injEq] at hs
    obtain ⟨rfl, rfl⟩ := hs
    constructor <;> simp [Obs.reservations, Obs.fresh, Obs.signal, Obs.activations, Obs.registry, Obs.subscribed]
  | subscribe ch ao =>
    simp only [Spec.step] at hs
    split at hs
    · cases hs
    split at hs
    · cases hs
    · rename_i x hx
      simp only [Res.ok.injEq, Prod.mk.injEq] at hs
      obtain ⟨rfl, rfl⟩ := hs
      constructor <;> simp [Obs.reservations, Obs.fresh, Obs.signal, Obs.activations, Obs.registry, Obs.subscribed, hx, eq_comm]
  | unsubscribe ch ao =>
    simp only [Spec.step] at hs
    split at hs
    · cases hs
    split at hs
    · cases hs
    · rename_i x hx
      simp only [Res.ok.injEq, Prod.mk.injEq] at hs
      obtain ⟨rfl, rfl⟩ := hs
      constructor <;> simp [Obs.reservations, Obs.fresh, Obs.signal, Obs.activations, Obs.registry, Obs.subscribed, hx, eq_comm]
  | unsubscribeAll ao =>
    simp only [Spec.step] at hs
    split at hs
    · cases hs
    · rename_i x hx
      simp only [Res.ok.injEq, Prod.mk.injEq] at hs
      obtain ⟨rfl, rfl⟩ := hs
      constructor <;> simp [Obs.reservations, Obs.fresh, Obs.signal, Obs.activations, Obs.registry, Obs.subscribed, hx, eq_comm]
  | publish ch e s =>
    simp only [Spec.step, Res.map'_eq_ok] at hs
    obtain ⟨a1, h1, h2⟩ := hs
    simp only [Prod.mk.injEq] at h2
    obtain ⟨rfl, rfl⟩ := h2
    obtain ⟨aos', rfl, h3⟩ := deliver_facts h1 (hnd e)
    constructor <;> simp [Obs.reservations, Obs.fresh, Obs.signal, Obs.activations, Obs.registry, Obs.subscribed, h3]
  | select =>
    simp only [Spec.step] at hs
    split at hs
    · simp only [Res.ok.injEq, Prod.mk.injEq] at hs
      obtain ⟨rfl, rfl⟩ := hs
      constructor <;> simp [Obs.reservations, Obs.fresh, Obs.signal, Obs.activations, Obs.registry, Obs.subscribed]
    · split at hs
      · cases hs
      · simp only [Res.ok.injEq, Prod.mk.injEq] at hs
        obtain ⟨rfl, rfl⟩ := hs
        constructor <;> simp [Obs.reservations, Obs.fresh, Obs.signal, Obs.activations, Obs.registry, Obs.subscribed]
  | fetch =>
    simp only [Spec.step] at hs
    split at hs
    · split at hs
      · cases hs
      · rename_i x hx
        split at hs
        · cases hs
        · simp only [Res.ok.injEq, Prod.mk.injEq] at hs
          obtain ⟨rfl, rfl⟩ := hs
          constructor <;> simp [Obs.reservations, Obs.fresh, Obs.signal, Obs.activations, Obs.registry, Obs.subscribed, map_prio_set hx]
    · cases hs
  | take ao =>
    simp only [Spec.step] at hs
    split at hs
    · cases hs
    · rename_i x hx
      split at hs
      · cases hs
      · simp only [Res.ok.injEq, Prod.mk.injEq] at hs
        obtain ⟨rfl, rfl⟩ := hs
        constructor <;> simp [Obs.reservations, Obs.fresh, Obs.signal, Obs.activations, Obs.registry, Obs.subscribed, map_prio_set hx]
  | done =>
    simp only [Spec.step] at hs
    split at hs
    · simp only [Res.ok.injEq, Prod.mk.injEq] at hs
      obtain ⟨rfl, rfl⟩ := hs
      constructor <;> simp [Obs.reservations, Obs.fresh, Obs.signal, Obs.activations, Obs.registry, Obs.subscribed]
    · cases hs
  | resume k =>
    simp only [Spec.step] at hs
    split at hs
    · cases hs
    · rename_i t ht
      simp only [Res.map'_eq_ok] at hs
      obtain ⟨a1, h1, h2⟩ := hs
      simp only [Prod.mk.injEq] at h2
      obtain ⟨rfl, rfl⟩ := h2
      cases t with
      | gc1 e =>
        simp only [Spec.resumeCont, Res.ok.injEq] at h1
        subst h1
        split <;>
        constructor <;> simp [Obs.reservations, Obs.fresh, Obs.signal, Obs.activations, Obs.registry, Obs.subscribed]
      | thr o e =>
        simp only [Spec.resumeCont, Res.ok.injEq] at h1
        subst h1
        split <;>
        constructor <;> simp [Obs.reservations, Obs.fresh, Obs.signal, Obs.activations, Obs.registry, Obs.subscribed]
      | gc2 e =>
        simp only [Spec.resumeCont, Res.ok.injEq] at h1
        subst h1
        split <;>
        constructor <;> simp [Obs.reservations, Obs.fresh, Obs.signal, Obs.activations, Obs.registry, Obs.subscribed]
      | put i e =>
        simp only [Spec.resumeCont] at h1
        split at h1
        · cases h1
        · simp only [Res.ok.injEq] at h1
          subst h1
          constructor <;> simp [Obs.reservations, Obs.fresh, Obs.signal, Obs.activations, Obs.registry, Obs.subscribed]
      | rc2 ao e =>
        simp only [Spec.resumeCont, Res.map'_eq_ok] at h1
        obtain ⟨a2, h2, h3⟩ := h1
        subst h3
        obtain ⟨x, q, hx, rfl, _⟩ := post_facts h2
        have hne : a.fresh.erase e = a.fresh := by
          apply List.erase_of_not_mem
          intro hf
          have h1 := (h.ev.freshU e hf).2
          have h2 : e ∈ holders a := (holders_erase ht).symm.subset (by simp [Cont.evt])
          rw [List.count_eq_zero] at h1
          exact h1 h2
        constructor <;> simp [Obs.reservations, Obs.fresh, Obs.signal, Obs.activations, Obs.registry, Obs.subscribed, map_prio_set hx, hne]
      | rc3 o e =>
        simp only [Spec.resumeCont, Res.ok.injEq] at h1
        subst h1
        constructor <;> simp [Obs.reservations, Obs.fresh, Obs.signal, Obs.activations, Obs.registry, Obs.subscribed]
  | numUsed i =>
    simp only [Spec.step] at hs
    split at hs
    · cases hs
    · simp only [Res.ok.injEq, Prod.mk.injEq] at hs
      obtain ⟨rfl, rfl⟩ := hs
      constructor <;> simp [Obs.reservations, Obs.fresh, Obs.signal, Obs.activations, Obs.registry, Obs.subscribed]

/-- Induction over a legal run of the specification, with the code state alongside. -/
theorem run_induct (wf : Wf c) {P : List Op → List Out → Abs → Abs → Prop} (nil : ∀ a, P [] [] a a)
    (cons : ∀ w a op o a1 ops outs a2, R c w a → Legal c a op → Spec.step c a op = .ok (a1, o) → P ops outs a1 a2 →
      P (op :: ops) (o :: outs) a a2) :
    ∀ (ops : List Op) (w : World) (a : Abs) (outs : List Out) (a' : Abs), R c w a → LegalRun c a ops →
      runOps (Spec.step c) a ops = (outs, .ok a') → P ops outs a a' := by
  intro ops
  induction ops with
  | nil =>
    intro w a outs a' _ _ hr
    simp only [runOps, Prod.mk.injEq, Res.ok.injEq] at hr
    obtain ⟨rfl, rfl⟩ := hr
    exact nil _
  | cons op ops ih =>
    intro w a outs a' h hl hr
    obtain ⟨h1, _⟩ := sim_step wf h op hl.1
    simp only [runOps] at hr
    rcases hg : Spec.step c a op with ⟨t', o'⟩ | _ | _ <;> rw [hg] at hr h1 <;> simp only [Prod.mk.injEq, reduceCtorEq, and_false] at hr
    obtain ⟨rfl, hr⟩ := hr
    rcases hf : step c w op with ⟨s', o⟩ | _ | _ <;> rw [hf] at h1 <;> simp only [StepRel] at h1
    obtain ⟨hR, rfl⟩ := h1
    exact cons w a op o t' ops _ a' h hl.1 hg (ih s' t' _ a' hR (hl.2 t' o hg) (Prod.ext rfl hr))

theorem reservations_cons (op : Op) (ops : List Op) (r : List Nat) :
    Obs.reservations (op :: ops) r = Obs.reservations ops (Obs.reservations [op] r) := by
  cases op <;> rfl

theorem fresh_cons (op : Op) (o : Out) (h : Obs.Hist) (r : List Nat) :
    Obs.fresh ((op, o) :: h) r = Obs.fresh h (Obs.fresh [(op, o)] r) := by
  cases op <;> cases o <;> rfl

theorem signal_cons (op : Op) (o : Out) (h : Obs.Hist) (s : Nat → Nat) :
    Obs.signal ((op, o) :: h) s = Obs.signal h (Obs.signal [(op, o)] s) := by
  cases op <;> cases o <;> rfl

theorem activations_cons (op : Op) (ops : List Op) :
    Obs.activations (op :: ops) = Obs.activations [op] ++ Obs.activations ops := by
  cases op <;> rfl

theorem registry_cons (op : Op) (ops : List Op) (prio : List Nat) (reg : Nat → Option Nat) :
    Obs.registry (op :: ops) prio reg = Obs.registry ops (prio ++ Obs.activations [op]) (Obs.registry [op] prio reg) := by
  cases op <;> simp [Obs.registry, Obs.activations]

theorem subscribed_cons (ch p : Nat) (op : Op) (ops : List Op) (prio : List Nat) (b : Bool) :
    Obs.subscribed ch p (op :: ops) prio b =
      Obs.subscribed ch p ops (prio ++ Obs.activations [op]) (Obs.subscribed ch p [op] prio b) := by
  cases op <;> simp [Obs.subscribed, Obs.activations]

/-- The bookkeeping for whole histories. -/
structure BooksRun (ops : List Op) (outs : List Out) (a a' : Abs) : Prop where
  len : outs.length = ops.length
  resv : a'.resv = Obs.reservations ops a.resv
  fresh : a'.fresh = Obs.fresh (ops.zip outs) a.fresh
  sig : a'.sig = Obs.signal (ops.zip outs) a.sig
  prio : a'.aos.map (·.prio) = a.aos.map (·.prio) ++ Obs.activations ops
  reg : a'.reg = Obs.registry ops (a.aos.map (·.prio)) a.reg
  sub : ∀ ch p, a'.sub ch p = Obs.subscribed ch p ops (a.aos.map (·.prio)) (a.sub ch p)

theorem books_run (wf : Wf c) : ∀ (ops : List Op) (w : World) (a : Abs) (outs : List Out) (a' : Abs), R c w a →
    LegalRun c a ops → runOps (Spec.step c) a ops = (outs, .ok a') → BooksRun ops outs a a' := by
  refine run_induct wf (P := BooksRun) ?_ ?_
  · intro a
    constructor <;> simp [Obs.reservations, Obs.fresh, Obs.signal, Obs.activations, Obs.registry, Obs.subscribed]
  · intro w a op o a1 ops outs a2 hR _ hs ih
    have hb := books hR hs
    constructor
    · simp [ih.len]
    · rw [ih.resv, hb.resv, ← reservations_cons]
    · rw [ih.fresh, hb.fresh, List.zip_cons_cons, fresh_cons op o (ops.zip outs)]
    · rw [ih.sig, hb.sig, List.zip_cons_cons, signal_cons op o (ops.zip outs)]
    · rw [ih.prio, hb.prio, activations_cons op ops, List.append_assoc]
    · rw [ih.reg, hb.reg, hb.prio, ← registry_cons]
    · intro ch p
      rw [ih.sub, hb.sub, hb.prio, ← subscribed_cons]

/-- Everything known about the state reached by a legal history. -/
theorem Run.full {ops : List Op} {outs : List Out} (h : Run c slots hdr ops outs w) :
    ∃ a, R c w a ∧ runOps (Spec.step c) (Spec.init fun e => (hdr e).sig) ops = (outs, .ok a) ∧
      BooksRun ops outs (Spec.init fun e => (hdr e).sig) a := by
  obtain ⟨a, h1, h2⟩ := h.abs
  exact ⟨a, h2, h1, books_run h.env.wf ops _ _ _ _ (R_init h.env) h.legal h1⟩

end Verif.Fwk
