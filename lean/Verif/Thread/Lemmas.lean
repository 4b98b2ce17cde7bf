import Verif.Thread.Spec
import Verif.Fwk.TraceSteps
/- Auxiliary lemmas: the invariant of a system of threads. -/
namespace Verif.Thread
open Verif
open Verif.Fwk.Spec (Abs Registered Legal LegalRun)
open Verif.Thread.Spec (calls results CallsLegal)

variable {c : Cfg} {s s' : St} {a a' : Abs}

/-- What an operation of the framework does to the functions in progress. -/
def ContsRel (conts conts' : List Fwk.Cont) : Fwk.Op → Prop
  | .take ao => ∃ e, conts' = .thr ao e :: conts
  | .recall ao _ => conts' = conts ∨ ∃ e, conts' = .rc2 ao e :: conts
  | .resume k => ∃ t, conts[k]? = some t ∧ (conts' = conts.eraseIdx k ∨ ∃ t', conts' = t' :: conts.eraseIdx k ∧
      (∀ i, isThr i t' = false) ∧ ∀ i, isRecall i t' = true → isRecall i t = true)
  | _ => conts' = conts ∨ ∃ e, conts' = .gc1 e :: conts

/-- Operations of a scheduler. -/
def Sched (op : Fwk.Op) : Prop := op = .select ∨ op = .fetch ∨ op = .done

theorem conts_step {w : Fwk.World} {cf : Fwk.Cfg} (h : Fwk.R cf w a) {op : Fwk.Op} {o : Fwk.Out} (hs : Fwk.Spec.step cf a op = .ok (a', o))
    (hsc : ¬ Sched op) : ContsRel a.conts a'.conts op ∧ a'.ph = a.ph := by
  cases op with
  | select => exact absurd (Or.inl rfl) hsc
  | fetch => exact absurd (Or.inr (Or.inl rfl)) hsc
  | done => exact absurd (Or.inr (Or.inr rfl)) hsc
  | postFifo ao e =>
    simp only [Fwk.Spec.step, Res.map'_eq_ok] at hs
    obtain ⟨a1, h1, h2⟩ := hs
    simp only [Prod.mk.injEq] at h2
    obtain ⟨rfl, rfl⟩ := h2
    obtain ⟨x, q, hx, rfl, _⟩ := Fwk.post_facts h1
    exact ⟨Or.inl rfl, rfl⟩
  | postLifo ao e =>
    simp only [Fwk.Spec.step, Res.map'_eq_ok] at hs
    obtain ⟨a1, h1, h2⟩ := hs
    simp only [Prod.mk.injEq] at h2
    obtain ⟨rfl, rfl⟩ := h2
    obtain ⟨x, q, hx, rfl, _⟩ := Fwk.post_facts h1
    exact ⟨Or.inl rfl, rfl⟩
  | publish ch e s =>
    simp only [Fwk.Spec.step, Res.map'_eq_ok] at hs
    obtain ⟨a1, h1, h2⟩ := hs
    simp only [Prod.mk.injEq] at h2
    obtain ⟨rfl, rfl⟩ := h2
    obtain ⟨aos', rfl, h3⟩ := Fwk.deliver_facts h1 (by apply List.erase_of_not_mem; exact h.ev.freshND.not_mem_erase)
    exact ⟨Or.inr ⟨e, rfl⟩, rfl⟩
  | resume k =>
    simp only [Fwk.Spec.step] at hs
    split at hs
    · cases hs
    · rename_i t ht
      simp only [Res.map'_eq_ok] at hs
      obtain ⟨a1, h1, h2⟩ := hs
      simp only [Prod.mk.injEq] at h2
      obtain ⟨rfl, rfl⟩ := h2
      cases t with
      | gc1 e =>
        simp only [Fwk.Spec.resumeCont, Res.ok.injEq] at h1; subst h1
        split
        · exact ⟨⟨_, ht, Or.inl rfl⟩, rfl⟩
        · exact ⟨⟨_, ht, Or.inr ⟨_, rfl, fun _ => rfl, fun _ hh => by simp [isRecall] at hh⟩⟩, rfl⟩
      | thr o e =>
        simp only [Fwk.Spec.resumeCont, Res.ok.injEq] at h1; subst h1
        split
        · exact ⟨⟨_, ht, Or.inl rfl⟩, rfl⟩
        · exact ⟨⟨_, ht, Or.inr ⟨_, rfl, fun _ => rfl, fun _ hh => by simp [isRecall] at hh⟩⟩, rfl⟩
      | gc2 e =>
        simp only [Fwk.Spec.resumeCont, Res.ok.injEq] at h1; subst h1
        split
        · exact ⟨⟨_, ht, Or.inr ⟨_, rfl, fun _ => rfl, fun _ hh => by simp [isRecall] at hh⟩⟩, rfl⟩
        · exact ⟨⟨_, ht, Or.inl rfl⟩, rfl⟩
      | put i e =>
        simp only [Fwk.Spec.resumeCont] at h1
        split at h1
        · cases h1
        · simp only [Res.ok.injEq] at h1; subst h1; exact ⟨⟨_, ht, Or.inl rfl⟩, rfl⟩
      | rc2 i e =>
        simp only [Fwk.Spec.resumeCont, Res.map'_eq_ok] at h1
        obtain ⟨a2, h2, h3⟩ := h1
        subst h3
        obtain ⟨x, q, hx, rfl, _⟩ := Fwk.post_facts h2
        exact ⟨⟨_, ht, Or.inr ⟨_, rfl, fun _ => rfl, fun _ hh => by simpa [isRecall] using hh⟩⟩, rfl⟩
      | rc3 o e =>
        simp only [Fwk.Spec.resumeCont, Res.ok.injEq] at h1; subst h1; exact ⟨⟨_, ht, Or.inl rfl⟩, rfl⟩
  | _ =>
    simp only [Fwk.Spec.step] at hs
    (repeat' split at hs) <;> simp only [Res.ok.injEq, Prod.mk.injEq, reduceCtorEq, Res.map'_eq_ok] at hs <;>
      (first | (obtain ⟨rfl, _⟩ := hs; simp [ContsRel]; done) | (obtain ⟨q, _, rfl, _⟩ := hs; simp [ContsRel]; done))

/-- The invariant. -/
structure Inv (c : Cfg) (s : St) (a : Abs) : Prop where
  R : Fwk.R c.fw s.w a
  ph : a.ph = .none
  reg : ∀ ao, ao < a.aos.length → (s.thr ao).pc ≠ .dead → Registered a ao
  unreg : ∀ ao, (s.thr ao).pc = .dead → ¬ Registered a ao
  thr : ∀ ao, a.conts.countP (isThr ao) = if (s.thr ao).pc = .run then 1 else 0
  rcl : ∀ ao, a.conts.any (isRecall ao) = true → (s.thr ao).pc = .run
  wait : ∀ ao x, (s.thr ao).pc = .wait → (s.thr ao).sig = false → a.aos[ao]? = some x → x.q.items = []
  new : ∀ ao, a.aos.length ≤ ao → s.thr ao = thr0
  cr : ∀ ao, (s.thr ao).pc ≠ .none → 2 ≤ (s.thr ao).cr
  hd : ∀ ao, (s.thr ao).handle = true → (s.thr ao).cr = 3

theorem inv_init {slots : List MemPool.Pool} {hdr : Nat → Fwk.Evt} (h : Fwk.Env c.fw slots hdr) :
    Inv c (init c slots hdr) (Fwk.Spec.init fun e => (hdr e).sig) := by
  refine ⟨Fwk.R_init h, rfl, ?_, ?_, ?_, ?_, ?_, fun _ _ => rfl, ?_, ?_⟩
  · intro ao h; simp [Fwk.Spec.init] at h
  · intro ao h; simp [init, thr0] at h
  · intro ao; simp [Fwk.Spec.init, init, thr0]
  · intro ao h; simp [Fwk.Spec.init] at h
  · intro ao x h; simp [init, thr0] at h
  · intro ao h; simp [init, thr0] at h
  · intro ao h; simp [init, thr0] at h

@[simp] theorem signals_pc (w w' : Fwk.World) (f : Nat → Thr) (ao : Nat) : (signals w w' f ao).pc = (f ao).pc := by
  unfold signals; split <;> rfl
@[simp] theorem signals_cr (w w' : Fwk.World) (f : Nat → Thr) (ao : Nat) : (signals w w' f ao).cr = (f ao).cr := by
  unfold signals; split <;> rfl
@[simp] theorem signals_handle (w w' : Fwk.World) (f : Nat → Thr) (ao : Nat) : (signals w w' f ao).handle = (f ao).handle := by
  unfold signals; split <;> rfl

theorem qty_eq {cf : Fwk.Cfg} {w : Fwk.World} (h : Fwk.R cf w a) {ao : Nat} {x : Fwk.Ao} {y : Fwk.Spec.AAo} (hx : w.aos[ao]? = some x)
    (hy : a.aos[ao]? = some y) : x.q.qty = y.q.items.length := (h.ao.aos.2 ao x y hx hy).2.num

theorem aos_get {cf : Fwk.Cfg} {w : Fwk.World} (h : Fwk.R cf w a) {ao : Nat} {x : Fwk.Ao} (hx : w.aos[ao]? = some x) :
    ∃ y, a.aos[ao]? = some y := by
  have := (List.getElem?_eq_some_iff.mp hx).1
  rw [h.ao.aos.1] at this
  exact ⟨_, List.getElem?_eq_getElem this⟩

/-- How threads may differ before and after a framework operation. -/
structure Frame (f g : Nat → Thr) (n : Nat) : Prop where
  cr : ∀ ao, (g ao).cr = (f ao).cr
  handle : ∀ ao, (g ao).handle = (f ao).handle
  sig : ∀ ao, (g ao).sig = (f ao).sig
  wait : ∀ ao, (g ao).pc = .wait → (f ao).pc = .wait
  none : ∀ ao, (f ao).pc = .none → (g ao).pc = .none
  new : ∀ ao, n ≤ ao → g ao = f ao

theorem Frame.rfl {f : Nat → Thr} {n : Nat} : Frame f f n := ⟨fun _ => .refl _, fun _ => .refl _, fun _ => .refl _, fun _ h => h, fun _ h => h, fun _ _ => .refl _⟩

theorem Frame.upd {f : Nat → Thr} {n ao : Nat} {p : Pc} (hn : ao < n) (h1 : p ≠ .wait) (h2 : (f ao).pc ≠ .none) :
    Frame f (upd f ao { f ao with pc := p }) n := by
  constructor <;> intro i <;> by_cases hi : i = ao
  all_goals first
    | (subst hi; simp [Thread.upd, h1, h2]; done)
    | (simp [Thread.upd, hi]; done)
    | (subst hi; intro h; omega)

theorem prio_len {op : Fwk.Op} {o : Fwk.Out} (hb : Fwk.Books op o a a') : a.aos.length ≤ a'.aos.length := by
  have := congrArg List.length hb.prio
  simp only [List.length_map, List.length_append] at this
  omega

theorem prio_get {op : Fwk.Op} {o : Fwk.Out} (hb : Fwk.Books op o a a') {ao : Nat} {x : Fwk.Spec.AAo} (hx : a.aos[ao]? = some x) :
    ∃ y, a'.aos[ao]? = some y ∧ y.prio = x.prio := by
  have hlt := (List.getElem?_eq_some_iff.mp hx).1
  have hlt' := Nat.lt_of_lt_of_le hlt (prio_len hb)
  refine ⟨_, List.getElem?_eq_getElem hlt', ?_⟩
  have := congrArg (·[ao]?) hb.prio
  simp only [List.getElem?_append, List.length_map, hlt, if_true, List.getElem?_map, hx, List.getElem?_eq_getElem hlt', Option.map_some,
    Option.some.injEq] at this
  exact this

/-- An operation of the framework keeps the invariant. -/
theorem inv_fwk (wf : Fwk.Wf c.fw) (h : Inv c s a) {op : Fwk.Op} {o : Out} {f : Nat → Thr} (hl : Legal c.fw a op) (hsc : ¬ Sched op)
    (hs : fwk c s f op = .ok (s', o)) (hf : Frame s.thr f a.aos.length)
    (hreg : ∀ a' r, Fwk.Spec.step c.fw a op = .ok (a', r) → Fwk.Books op r a a' → ∀ ao, ao < a'.aos.length → (f ao).pc ≠ .dead → Registered a' ao)
    (hun : ∀ a' r, Fwk.Spec.step c.fw a op = .ok (a', r) → Fwk.Books op r a a' → ∀ ao, (f ao).pc = .dead → ¬ Registered a' ao)
    (hthr : ∀ conts', ContsRel a.conts conts' op → ∀ ao, conts'.countP (isThr ao) = if (f ao).pc = .run then 1 else 0)
    (hrec : ∀ conts', ContsRel a.conts conts' op → ∀ ao, conts'.any (isRecall ao) = true → (f ao).pc = .run) :
    ∃ a' r, Fwk.Spec.step c.fw a op = .ok (a', r) ∧ o = some (op, r) ∧ Fwk.step c.fw s.w op = .ok (s'.w, r) ∧ Inv c s' a' ∧
      s'.thr = signals s.w s'.w f := by
  unfold fwk at hs
  rw [Res.map'_eq_ok] at hs
  obtain ⟨⟨w', r⟩, h1, h2⟩ := hs
  simp only [Prod.mk.injEq] at h2
  obtain ⟨rfl, rfl⟩ := h2
  obtain ⟨hrel, _⟩ := Fwk.sim_step wf h.R op hl
  rw [h1] at hrel
  rcases hg : Fwk.Spec.step c.fw a op with ⟨a', r'⟩ | _ | _ <;> rw [hg] at hrel <;> simp only [StepRel] at hrel
  obtain ⟨hR, rfl⟩ := hrel
  obtain ⟨hc, hph⟩ := conts_step h.R hg hsc
  have hb := Fwk.books h.R hg
  refine ⟨a', r, rfl, rfl, h1, ?_, rfl⟩
  refine ⟨hR, by rw [hph, h.ph], ?_, ?_, ?_, ?_, ?_, ?_, ?_, ?_⟩
  · intro ao hlt hd; simp only [signals_pc] at hd; exact hreg a' r hg hb ao hlt hd
  · intro ao hd; simp only [signals_pc] at hd; exact hun a' r hg hb ao hd
  · intro ao; simp only [signals_pc]; exact hthr _ hc ao
  · intro ao; simp only [signals_pc]; exact hrec _ hc ao
  · intro ao y' hp hsg hy'
    simp only [signals_pc] at hp
    have hlt : ao < a.aos.length := by
      apply Classical.byContradiction
      intro hge
      rw [hf.new ao (by omega), h.new ao (by omega)] at hp
      simp [thr0] at hp
    have hp0 := hf.wait ao hp
    have hcr : 1 ≤ (f ao).cr := by rw [hf.cr]; have := h.cr ao (by rw [hp0]; simp); omega
    have hy := List.getElem?_eq_getElem hlt
    simp only [signals] at hsg
    by_cases hst : stored s.w w' ao = true
    · simp [hst, hcr] at hsg
    · rw [if_neg (fun hh => hst hh.1), hf.sig] at hsg
      have hnil := h.wait ao _ hp0 hsg hy
      obtain ⟨x, hx, _, _⟩ := h.R.ao.aos.get hy
      obtain ⟨x', hx', _, _⟩ := hR.ao.aos.get hy'
      have e1 := qty_eq h.R hx hy
      have e2 := qty_eq hR hx' hy'
      rw [hnil] at e1
      simp only [stored, hx, hx', decide_eq_true_eq, e1, e2, List.length_nil] at hst
      exact List.length_eq_zero_iff.mp (by omega)
  · intro ao hge
    have hge' := Nat.le_trans (prio_len hb) hge
    have e : f ao = thr0 := by rw [hf.new ao hge', h.new ao hge']
    simp [signals, e, thr0]
  · intro ao hp
    simp only [signals_pc, signals_cr] at hp ⊢
    rw [hf.cr]
    exact h.cr ao fun hh => hp (hf.none ao hh)
  · intro ao hp
    simp only [signals_handle, signals_cr] at hp ⊢
    rw [hf.cr]; rw [hf.handle] at hp
    exact h.hd ao hp

theorem fwk_out {op : Fwk.Op} {o : Out} {f : Nat → Thr} (hs : fwk c s f op = .ok (s', o)) : ∃ r, o = some (op, r) := by
  unfold fwk at hs
  rw [Res.map'_eq_ok] at hs
  obtain ⟨⟨w', r⟩, h1, h2⟩ := hs
  simp only [Prod.mk.injEq] at h2
  exact ⟨r, h2.2.symm⟩

/-- Operations that neither register nor unregister. -/
theorem registered_same {op : Fwk.Op} {r : Fwk.Out} (hb : Fwk.Books op r a a') (h1 : ∀ p m n, op ≠ .activate p m n) (h2 : ∀ ao, op ≠ .terminate ao)
    {ao : Nat} (h : Registered a ao) : Registered a' ao := by
  obtain ⟨x, hx, hr⟩ := h
  obtain ⟨y, hy, hp⟩ := prio_get hb hx
  refine ⟨y, hy, ?_⟩
  rw [hb.reg, hp, ← hr]
  cases op <;> simp_all [Fwk.Obs.registry]

theorem registered_back {op : Fwk.Op} {r : Fwk.Out} (hb : Fwk.Books op r a a') (h1 : ∀ p m n, op ≠ .activate p m n) (h2 : ∀ ao, op ≠ .terminate ao)
    {ao : Nat} (h : Registered a' ao) : Registered a ao := by
  obtain ⟨y, hy, hr⟩ := h
  have e : a'.aos.map (·.prio) = a.aos.map (·.prio) := by
    rw [hb.prio]; cases op <;> simp_all [Fwk.Obs.activations]
  have e2 : a'.reg = a.reg := by
    rw [hb.reg]; cases op <;> simp_all [Fwk.Obs.registry]
  have := congrArg (·[ao]?) e
  simp only [List.getElem?_map, hy, Option.map_some] at this
  cases hx : a.aos[ao]? with
  | none => simp [hx] at this
  | some x =>
    simp only [hx, Option.map_some, Option.some.injEq] at this
    exact ⟨x, hx, by rw [← this, ← e2]; exact hr⟩

theorem len_same {op : Fwk.Op} {r : Fwk.Out} (hb : Fwk.Books op r a a') (h1 : ∀ p m n, op ≠ .activate p m n) : a'.aos.length = a.aos.length := by
  have := congrArg List.length hb.prio
  simp only [List.length_map, List.length_append] at this
  cases op <;> simp_all [Fwk.Obs.activations]

theorem any_eraseIdx {α : Type} (p : α → Bool) {l : List α} {k : Nat} (h : (l.eraseIdx k).any p = true) : l.any p = true := by
  rw [List.any_eq_true] at h ⊢
  obtain ⟨x, hx, hp⟩ := h
  exact ⟨x, List.mem_of_mem_eraseIdx hx, hp⟩

theorem upd_same (f : Nat → Thr) (ao : Nat) (t : Thr) : upd f ao t ao = t := by simp [upd]
theorem upd_ne (f : Nat → Thr) {ao i : Nat} (h : i ≠ ao) (t : Thr) : upd f ao t i = f i := by simp [upd, h]

/-- A step of a thread, a creator or a terminator that is no framework operation. -/
theorem inv_local (h : Inv c s a) {ao : Nat} {t : Thr} (hlt : ao < a.aos.length ∨ t = thr0)
    (h1 : t.pc = .dead ↔ (s.thr ao).pc = .dead) (h2 : t.pc = .run ↔ (s.thr ao).pc = .run)
    (h3 : t.pc = .wait → t.sig = false → ∀ x, a.aos[ao]? = some x → x.q.items = [])
    (h4 : t.pc ≠ .none → 2 ≤ t.cr) (h5 : t.handle = true → t.cr = 3) : Inv c ⟨s.w, upd s.thr ao t⟩ a := by
  refine ⟨h.R, h.ph, ?_, ?_, ?_, ?_, ?_, ?_, ?_, ?_⟩ <;> dsimp only
  · intro i hi hd
    by_cases hia : i = ao
    · subst hia; rw [upd_same] at hd; exact h.reg i hi fun hh => hd (h1.2 hh)
    · rw [upd_ne _ hia] at hd; exact h.reg i hi hd
  · intro i hd
    by_cases hia : i = ao
    · subst hia; rw [upd_same] at hd; exact h.unreg i (h1.1 hd)
    · rw [upd_ne _ hia] at hd; exact h.unreg i hd
  · intro i
    by_cases hia : i = ao
    · subst hia; rw [h.thr]; simp only [upd_same, h2]
    · rw [h.thr]; simp only [upd_ne _ hia]
  · intro i hi
    by_cases hia : i = ao
    · subst hia; rw [upd_same, h2]; exact h.rcl i hi
    · rw [upd_ne _ hia]; exact h.rcl i hi
  · intro i x
    by_cases hia : i = ao
    · subst hia; rw [upd_same]; intro hp hs hx; exact h3 hp hs x hx
    · rw [upd_ne _ hia]; exact h.wait i x
  · intro i hi
    by_cases hia : i = ao
    · subst hia; rw [upd_same]; rcases hlt with hlt | hlt
      · omega
      · exact hlt
    · rw [upd_ne _ hia]; exact h.new i hi
  · intro i
    by_cases hia : i = ao
    · subst hia; rw [upd_same]; exact h4
    · rw [upd_ne _ hia]; exact h.cr i
  · intro i
    by_cases hia : i = ao
    · subst hia; rw [upd_same]; exact h5
    · rw [upd_ne _ hia]; exact h.hd i

theorem exists_of_pc (h : Inv c s a) {ao : Nat} (hp : (s.thr ao).pc ≠ .none) : ao < a.aos.length := by
  apply Classical.byContradiction
  intro hge
  rw [h.new ao (by omega)] at hp
  exact hp rfl

theorem take_legal (h : Inv c s a) {ao : Nat} {x : Fwk.Ao} (hx : s.w.aos[ao]? = some x) (hq : x.q.qty ≠ 0)
    (hp : (s.thr ao).pc ≠ .dead) (hp2 : (s.thr ao).pc ≠ .run) : Legal c.fw a (.take ao) := by
  obtain ⟨y, hy⟩ := aos_get h.R hx
  obtain ⟨z, hz, hr⟩ := h.reg ao (List.getElem?_eq_some_iff.mp hy).1 hp
  rw [hy] at hz; cases hz
  refine ⟨⟨y, hy, hr, ?_⟩, by rw [h.ph]; simp, ?_⟩
  · intro hn
    have := qty_eq h.R hx hy
    rw [hn] at this
    exact hq this
  · intro e he
    exact hp2 (h.rcl ao (List.any_eq_true.mpr ⟨_, he, by simp [isRecall]⟩))

/-- The next framework operation, if any, keeps everything. -/
def Next (c : Cfg) (s s' : St) (a : Abs) (o : Out) : Prop :=
  (o = none ∧ s'.w = s.w ∧ Inv c s' a) ∨
  ∃ fop r a', o = some (fop, r) ∧ Legal c.fw a fop ∧ Fwk.Spec.step c.fw a fop = .ok (a', r) ∧ Fwk.step c.fw s.w fop = .ok (s'.w, r) ∧
    Inv c s' a'

theorem next_fwk (wf : Fwk.Wf c.fw) (h : Inv c s a) {op : Fwk.Op} {o : Out} {f : Nat → Thr} (hl : Legal c.fw a op) (hsc : ¬ Sched op)
    (hs : fwk c s f op = .ok (s', o)) (hf : Frame s.thr f a.aos.length)
    (hreg : ∀ a' r, Fwk.Spec.step c.fw a op = .ok (a', r) → Fwk.Books op r a a' → ∀ ao, ao < a'.aos.length → (f ao).pc ≠ .dead → Registered a' ao)
    (hun : ∀ a' r, Fwk.Spec.step c.fw a op = .ok (a', r) → Fwk.Books op r a a' → ∀ ao, (f ao).pc = .dead → ¬ Registered a' ao)
    (hthr : ∀ conts', ContsRel a.conts conts' op → ∀ ao, conts'.countP (isThr ao) = if (f ao).pc = .run then 1 else 0)
    (hrec : ∀ conts', ContsRel a.conts conts' op → ∀ ao, conts'.any (isRecall ao) = true → (f ao).pc = .run) : Next c s s' a o := by
  obtain ⟨a', r, e1, e2, e3, e4, _⟩ := inv_fwk wf h hl hsc hs hf hreg hun hthr hrec
  exact Or.inr ⟨_, r, a', e2, hl, e1, e3, e4⟩

theorem inv_take (wf : Fwk.Wf c.fw) (h : Inv c s a) {ao : Nat} {o : Out} (hp0 : (s.thr ao).pc ≠ .none) (hp : (s.thr ao).pc ≠ .dead)
    (hp2 : (s.thr ao).pc ≠ .run) {x : Fwk.Ao} (hx : s.w.aos[ao]? = some x) (hq : x.q.qty ≠ 0)
    (hs : fwk c s (upd s.thr ao { s.thr ao with pc := .run }) (.take ao) = .ok (s', o)) : Next c s s' a o := by
  have hl := take_legal h hx hq hp hp2
  refine next_fwk wf h hl (by simp [Sched]) hs (Frame.upd (exists_of_pc h hp0) (by simp) hp0) ?_ ?_ ?_ ?_
  · intro a' r _ hb i hi hd
    rw [len_same hb (by simp)] at hi
    refine registered_same hb (by simp) (by simp) (h.reg i hi ?_)
    by_cases hia : i = ao
    · subst hia; exact hp
    · rwa [upd_ne _ hia] at hd
  · intro a' r _ hb i hd hr
    by_cases hia : i = ao
    · subst hia; rw [upd_same] at hd; cases hd
    · rw [upd_ne _ hia] at hd
      exact h.unreg i hd (registered_back hb (by simp) (by simp) hr)
  · rintro conts' ⟨e, rfl⟩ i
    by_cases hia : i = ao
    · subst hia; rw [upd_same, List.countP_cons, h.thr]; simp [hp2, isThr]
    · rw [upd_ne _ hia, List.countP_cons, h.thr]; simp [isThr, Ne.symm hia]
  · rintro conts' ⟨e, rfl⟩ i hi
    by_cases hia : i = ao
    · subst hia; rw [upd_same]
    · rw [upd_ne _ hia]; exact h.rcl i (by simpa [isRecall] using hi)

theorem inv_end (wf : Fwk.Wf c.fw) (h : Inv c s a) {ao k : Nat} {o : Out} (hp : (s.thr ao).pc = .run)
    (hk : s.w.conts.findIdx? (isThr ao) = some k) (hr : s.w.conts.any (isRecall ao) = false)
    (hs : fwk c s (upd s.thr ao { s.thr ao with pc := .test }) (.resume k) = .ok (s', o)) : Next c s s' a o := by
  rw [h.R.conts] at hk hr
  have hp0 : (s.thr ao).pc ≠ .none := by rw [hp]; simp
  obtain ⟨hlt, hk1, _⟩ := List.findIdx?_eq_some_iff_getElem.mp hk
  have hkk : a.conts[k]? = some a.conts[k] := List.getElem?_eq_getElem hlt
  obtain ⟨e, hte⟩ : ∃ e, a.conts[k] = .thr ao e := by
    cases ht : a.conts[k] <;> rw [ht] at hk1 <;> simp [isThr] at hk1
    exact ⟨_, by rw [hk1]⟩
  rw [hte] at hkk
  have hl : Legal c.fw a (.resume k) := ⟨_, hkk, by simp⟩
  refine next_fwk wf h hl (by simp [Sched]) hs (Frame.upd (exists_of_pc h hp0) (by simp) hp0) ?_ ?_ ?_ ?_
  · intro a' r _ hb i hi hd
    rw [len_same hb (by simp)] at hi
    refine registered_same hb (by simp) (by simp) (h.reg i hi ?_)
    by_cases hia : i = ao
    · subst hia; rw [hp]; simp
    · rwa [upd_ne _ hia] at hd
  · intro a' r _ hb i hd hr
    by_cases hia : i = ao
    · subst hia; rw [upd_same] at hd; cases hd
    · rw [upd_ne _ hia] at hd
      exact h.unreg i hd (registered_back hb (by simp) (by simp) hr)
  · rintro conts' ⟨t, ht, hc⟩ i
    rw [hkk] at ht; cases ht
    have hcount := Fwk.Trace.countP_eraseIdx (isThr i) hkk
    have hh := h.thr i
    have he : conts'.countP (isThr i) = (a.conts.eraseIdx k).countP (isThr i) := by
      rcases hc with rfl | ⟨t', rfl, h1, _⟩
      · rfl
      · simp [h1]
    rw [he]
    by_cases hia : i = ao
    · subst hia
      simp only [show isThr i (.thr i e) = true by simp [isThr], if_true, upd_same, hp, reduceCtorEq, if_false] at hcount hh ⊢
      omega
    · rw [upd_ne _ hia]; simp [isThr, Ne.symm hia] at hcount; omega
  · rintro conts' ⟨t, ht, hc⟩ i hi
    rw [hkk] at ht; cases ht
    have hany : a.conts.any (isRecall i) = true := by
      rcases hc with rfl | ⟨t', rfl, _, h2⟩
      · exact any_eraseIdx _ hi
      · rw [List.any_cons, Bool.or_eq_true] at hi
        rcases hi with hi | hi
        · have := h2 i hi; simp [isRecall] at this
        · exact any_eraseIdx _ hi
    have := h.rcl i hany
    by_cases hia : i = ao
    · subst hia; rw [hany] at hr; cases hr
    · rw [upd_ne _ hia]; exact this

theorem inv_unregister (wf : Fwk.Wf c.fw) (h : Inv c s a) {ao : Nat} {o : Out} (hp : (s.thr ao).pc = .test) (hl : Legal c.fw a (.terminate ao))
    (hs : fwk c s (upd s.thr ao { s.thr ao with pc := .dead }) (.terminate ao) = .ok (s', o)) : Next c s s' a o := by
  have hp0 : (s.thr ao).pc ≠ .none := by rw [hp]; simp
  refine next_fwk wf h hl (by simp [Sched]) hs (Frame.upd (exists_of_pc h hp0) (by simp) hp0) ?_ ?_ ?_ ?_
  · intro a' r _ hb i hi hd
    rw [len_same hb (by simp)] at hi
    by_cases hia : i = ao
    · subst hia; rw [upd_same] at hd; exact absurd rfl hd
    · rw [upd_ne _ hia] at hd
      obtain ⟨x, hx, hrx⟩ := h.reg i hi hd
      obtain ⟨y, hy, hyp⟩ := prio_get hb hx
      refine ⟨y, hy, ?_⟩
      obtain ⟨z, hz, hrz, _⟩ := hl
      rw [hb.reg, hyp]
      simp only [Fwk.Obs.registry, List.getElem?_map, hz, Option.map_some, Option.some.injEq]
      rw [if_neg]
      · exact hrx
      · intro he; rw [he, hrx] at hrz; cases hrz; exact hia rfl
  · intro a' r _ hb i hd hr
    obtain ⟨z, hz, hrz, _⟩ := hl
    obtain ⟨y, hy, hyr⟩ := hr
    rw [hb.reg] at hyr
    simp only [Fwk.Obs.registry, List.getElem?_map, hz, Option.map_some, Option.some.injEq] at hyr
    have hlen := len_same hb (by simp)
    have hlt : i < a.aos.length := by rw [← hlen]; exact (List.getElem?_eq_some_iff.mp hy).1
    obtain ⟨y', hy', hyp⟩ := prio_get hb (List.getElem?_eq_getElem hlt)
    rw [hy] at hy'; cases hy'
    by_cases hia : i = ao
    · subst hia
      rw [List.getElem?_eq_getElem hlt] at hz; cases hz
      rw [hyp] at hyr; simp at hyr
    · rw [upd_ne _ hia] at hd
      refine h.unreg i hd ⟨_, List.getElem?_eq_getElem hlt, ?_⟩
      rw [← hyp]
      split at hyr
      · cases hyr
      · exact hyr
  · rintro conts' hc i
    have he : conts'.countP (isThr i) = a.conts.countP (isThr i) := by
      rcases hc with rfl | ⟨e, rfl⟩
      · rfl
      · simp [isThr]
    rw [he, h.thr]
    by_cases hia : i = ao
    · subst hia; rw [upd_same, hp]; simp
    · rw [upd_ne _ hia]
  · rintro conts' hc i hi
    have hany : a.conts.any (isRecall i) = true := by
      rcases hc with rfl | ⟨e, rfl⟩
      · exact hi
      · simpa [isRecall] using hi
    have := h.rcl i hany
    by_cases hia : i = ao
    · subst hia; rw [hp] at this; cases this
    · rw [upd_ne _ hia]; exact this

theorem inv_activate (wf : Fwk.Wf c.fw) (h : Inv c s a) {p n : Nat} {mem : List Nat} {o : Out} (hl : Legal c.fw a (.activate p mem n))
    (hs : fwk c s s.thr (.activate p mem n) = .ok (s', o)) : Next c s s' a o := by
  refine next_fwk wf h hl (by simp [Sched]) hs Frame.rfl ?_ ?_ ?_ ?_
  · intro a' r hstep _ i hi hd
    simp only [Fwk.Spec.step] at hstep
    split at hstep
    · cases hstep
    · rename_i hcond
      simp only [not_or, Classical.not_not] at hcond
      simp only [Res.ok.injEq, Prod.mk.injEq] at hstep
      obtain ⟨rfl, _⟩ := hstep
      simp only [List.length_append, List.length_singleton] at hi
      by_cases hlt : i < a.aos.length
      · obtain ⟨x, hx, hr⟩ := h.reg i hlt hd
        refine ⟨x, by simp [List.getElem?_append, hlt, ← hx], ?_⟩
        simp only
        rw [if_neg]
        · exact hr
        · rintro rfl; rw [hcond.2.2] at hr; cases hr
      · have : i = a.aos.length := by omega
        subst this
        exact ⟨⟨p, n, []⟩, by simp, by simp⟩
  · intro a' r hstep _ i hd hr
    have hlt : i < a.aos.length := by
      apply Classical.byContradiction
      intro hge
      rw [h.new i (by omega)] at hd
      simp [thr0] at hd
    simp only [Fwk.Spec.step] at hstep
    split at hstep
    · cases hstep
    · simp only [Res.ok.injEq, Prod.mk.injEq] at hstep
      obtain ⟨rfl, _⟩ := hstep
      obtain ⟨x, hx, hxr⟩ := hr
      simp only [List.getElem?_append, hlt, if_true] at hx
      refine h.unreg i hd ⟨x, hx, ?_⟩
      simp only at hxr
      split at hxr
      · simp only [Option.some.injEq] at hxr; omega
      · exact hxr
  · rintro conts' hc i
    rw [← h.thr]
    rcases hc with rfl | ⟨e, rfl⟩
    · rfl
    · simp [isThr]
  · rintro conts' hc i hi
    refine h.rcl i ?_
    rcases hc with rfl | ⟨e, rfl⟩
    · exact hi
    · simpa [isRecall] using hi

theorem inv_call (wf : Fwk.Wf c.fw) (h : Inv c s a) {op : Fwk.Op} {o : Out} (hal : allowed s op = true) (hl : Legal c.fw a op)
    (hs : fwk c s s.thr op = .ok (s', o)) : Next c s s' a o := by
  have hsc : ¬ Sched op := by rintro (rfl | rfl | rfl) <;> simp [allowed] at hal
  have hna : ∀ p m n, op ≠ .activate p m n := by rintro p m n rfl; simp [allowed] at hal
  have hnt : ∀ ao, op ≠ .terminate ao := by rintro ao rfl; simp [allowed] at hal
  refine next_fwk wf h hl hsc hs Frame.rfl ?_ ?_ ?_ ?_
  · intro a' r _ hb i hi hd
    rw [len_same hb hna] at hi
    exact registered_same hb hna hnt (h.reg i hi hd)
  · intro a' r _ hb i hd hr
    exact h.unreg i hd (registered_back hb hna hnt hr)
  · intro conts' hc i
    rw [← h.thr]
    cases op with
    | take ao => simp [allowed] at hal
    | recall ao k =>
      rcases hc with rfl | ⟨e, rfl⟩
      · rfl
      · simp [isThr]
    | resume k =>
      obtain ⟨t, ht, hc⟩ := hc
      have hcount := Fwk.Trace.countP_eraseIdx (isThr i) ht
      have ht0 : isThr i t = false := by
        cases t <;> simp [isThr]
        simp [allowed, h.R.conts, ht] at hal
      have he : conts'.countP (isThr i) = (a.conts.eraseIdx k).countP (isThr i) := by
        rcases hc with rfl | ⟨t', rfl, h1, _⟩
        · rfl
        · simp [h1]
      rw [ht0] at hcount
      simp at hcount
      omega
    | _ =>
      rcases hc with rfl | ⟨e, rfl⟩
      · rfl
      · simp [isThr]
  · intro conts' hc i hi
    cases op with
    | take ao => simp [allowed] at hal
    | recall ao k =>
      rcases hc with rfl | ⟨e, rfl⟩
      · exact h.rcl i hi
      · rw [List.any_cons, Bool.or_eq_true] at hi
        rcases hi with hi | hi
        · simp only [isRecall, beq_iff_eq] at hi
          subst hi
          simpa [allowed] using hal
        · exact h.rcl i hi
    | resume k =>
      obtain ⟨t, ht, hc⟩ := hc
      refine h.rcl i ?_
      rcases hc with rfl | ⟨t', rfl, _, h2⟩
      · exact any_eraseIdx _ hi
      · rw [List.any_cons, Bool.or_eq_true] at hi
        rcases hi with hi | hi
        · exact List.any_eq_true.mpr ⟨t, List.mem_of_getElem? ht, h2 i hi⟩
        · exact any_eraseIdx _ hi
    | _ =>
      refine h.rcl i ?_
      rcases hc with rfl | ⟨e, rfl⟩
      · exact hi
      · simpa [isRecall] using hi

/-- One step. -/
theorem inv_step (wf : Fwk.Wf c.fw) (h : Inv c s a) {op : Op} {o : Out} (hs : step c s op = .ok (s', o))
    (hl : ∀ fop r, o = some (fop, r) → (∃ ao, fop = .take ao) ∨ Legal c.fw a fop) : Next c s s' a o := by
  cases op with
  | activate p mem n =>
    simp only [step] at hs
    obtain ⟨r, ho⟩ := fwk_out hs
    exact inv_activate wf h ((hl _ _ ho).resolve_left (by simp)) hs
  | create ao =>
    simp only [step] at hs
    split at hs
    · cases hs
    rename_i hlt
    rw [h.R.ao.aos.1] at hlt
    split at hs <;> simp only [Res.ok.injEq, Prod.mk.injEq, reduceCtorEq] at hs
    all_goals
      rename_i hcr
      obtain ⟨rfl, rfl⟩ := hs
      refine Or.inl ⟨rfl, rfl, inv_local h (Or.inl (by omega)) ?_ ?_ ?_ ?_ ?_⟩
    · rfl
    · rfl
    · intro hp; have := h.cr ao (by simp only at hp; rw [hp]; simp); omega
    · intro hp; have := h.cr ao hp; omega
    · intro hp; have := h.hd ao hp; omega
    · have : (s.thr ao).pc = .none := Classical.byContradiction fun hh => by have := h.cr ao hh; omega
      rw [this]; dsimp only; split <;> simp
    · have : (s.thr ao).pc = .none := Classical.byContradiction fun hh => by have := h.cr ao hh; omega
      rw [this]; dsimp only; split <;> simp
    · dsimp only; split <;> simp
    · intro _; exact Nat.le_refl 2
    · intro hp; have := h.hd ao hp; omega
    · rfl
    · rfl
    · intro hp hsg x hx; exact h.wait ao x hp hsg hx
    · intro _; exact Nat.le_succ 2
    · intro _; rfl
  | terminate ao =>
    simp only [step, Res.ok.injEq, Prod.mk.injEq] at hs
    obtain ⟨rfl, rfl⟩ := hs
    refine Or.inl ⟨rfl, rfl, inv_local h ?_ Iff.rfl Iff.rfl ?_ ?_ ?_⟩
    · by_cases hlt : ao < a.aos.length
      · exact Or.inl hlt
      · right; rw [h.new ao (by omega)]; rfl
    · intro hp hsg x hx; exact h.wait ao x hp hsg hx
    · intro hp; exact h.cr ao hp
    · intro hp; simp at hp
  | thread ao =>
    have get : ∀ {o}, (match s.w.aos[ao]? with
        | none => Res.ub
        | some x =>
          if x.q.qty = 0 then .ok ((⟨s.w, upd s.thr ao { s.thr ao with pc := .wait }⟩ : St), (none : Out))
          else fwk c s (upd s.thr ao { s.thr ao with pc := .run }) (.take ao)) = Res.ok (s', o) →
        ((s.thr ao).pc = .top ∨ (s.thr ao).pc = .woke) → Next c s s' a o := by
      intro o hs hp
      split at hs
      · cases hs
      · rename_i x hx
        split at hs
        · rename_i hq
          simp only [Res.ok.injEq, Prod.mk.injEq] at hs
          obtain ⟨rfl, rfl⟩ := hs
          have hp0 : (s.thr ao).pc ≠ .none := by rcases hp with hp | hp <;> rw [hp] <;> simp
          refine Or.inl ⟨rfl, rfl, inv_local h (Or.inl (exists_of_pc h hp0)) ?_ ?_ ?_ ?_ ?_⟩
          · rcases hp with hp | hp <;> rw [hp] <;> simp
          · rcases hp with hp | hp <;> rw [hp] <;> simp
          · intro _ _ y hy
            have := qty_eq h.R hx hy
            exact List.length_eq_zero_iff.mp (by omega)
          · intro _; exact h.cr ao hp0
          · intro hh; exact h.hd ao hh
        · rename_i hq
          refine inv_take wf h ?_ ?_ ?_ hx hq hs <;> rcases hp with hp | hp <;> rw [hp] <;> simp
    simp only [step, thread] at hs
    split at hs
    · rename_i hp; exact get hs (Or.inl hp)
    · rename_i hp; exact get hs (Or.inr hp)
    · rename_i hp
      split at hs <;> simp only [Res.ok.injEq, Prod.mk.injEq] at hs <;> obtain ⟨rfl, rfl⟩ := hs
      · have hp0 : (s.thr ao).pc ≠ .none := by rw [hp]; simp
        refine Or.inl ⟨rfl, rfl, inv_local h (Or.inl (exists_of_pc h hp0)) ?_ ?_ ?_ ?_ ?_⟩
        · rw [hp]; simp
        · rw [hp]; simp
        · intro hh; simp at hh
        · intro _; exact h.cr ao hp0
        · intro hh; exact h.hd ao hh
      · exact Or.inl ⟨rfl, rfl, h⟩
    · rename_i hp
      split at hs
      · cases hs
      · rename_i k hk
        split at hs
        · cases hs
        · rename_i hr
          exact inv_end wf h hp hk (by simpa using hr) hs
    · rename_i hp
      split at hs
      · simp only [Res.ok.injEq, Prod.mk.injEq] at hs
        obtain ⟨rfl, rfl⟩ := hs
        have hp0 : (s.thr ao).pc ≠ .none := by rw [hp]; simp
        refine Or.inl ⟨rfl, rfl, inv_local h (Or.inl (exists_of_pc h hp0)) ?_ ?_ ?_ ?_ ?_⟩
        · rw [hp]; simp
        · rw [hp]; simp
        · intro hh; simp at hh
        · intro _; exact h.cr ao hp0
        · intro hh; exact h.hd ao hh
      · obtain ⟨r, ho⟩ := fwk_out hs
        exact inv_unregister wf h hp ((hl _ _ ho).resolve_left (by simp)) hs
    · cases hs
    · cases hs
  | call op =>
    simp only [step] at hs
    split at hs
    · rename_i hal
      obtain ⟨r, ho⟩ := fwk_out hs
      refine inv_call wf h hal ((hl _ _ ho).resolve_left ?_) hs
      rintro ⟨ao, rfl⟩; simp [allowed] at hal
    · cases hs

@[simp] theorem calls_none (outs : List Out) : calls (none :: outs) = calls outs := rfl
@[simp] theorem calls_some (x : Fwk.Op × Fwk.Out) (outs : List Out) : calls (some x :: outs) = x.1 :: calls outs := rfl
@[simp] theorem results_none (outs : List Out) : results (none :: outs) = results outs := rfl
@[simp] theorem results_some (x : Fwk.Op × Fwk.Out) (outs : List Out) : results (some x :: outs) = x.2 :: results outs := rfl

/-- Histories of threads are histories of the framework. -/
theorem erase_run (wf : Fwk.Wf c.fw) : ∀ (ops : List Op) (s : St) (a : Abs) (outs : List Out) (s' : St), Inv c s a →
    CallsLegal c.fw a (calls outs) → runOps (step c) s ops = (outs, .ok s') →
    LegalRun c.fw a (calls outs) ∧ runOps (Fwk.step c.fw) s.w (calls outs) = (results outs, .ok s'.w) ∧
    ∃ a', runOps (Fwk.Spec.step c.fw) a (calls outs) = (results outs, .ok a') ∧ Inv c s' a' := by
  intro ops
  induction ops with
  | nil =>
    intro s a outs s' h _ hr
    simp only [runOps, Prod.mk.injEq, Res.ok.injEq] at hr
    obtain ⟨rfl, rfl⟩ := hr
    exact ⟨trivial, rfl, a, rfl, h⟩
  | cons op ops ih =>
    intro s a outs s' h hl hr
    simp only [runOps] at hr
    rcases hf : step c s op with ⟨s1, o⟩ | _ | _ <;> rw [hf] at hr <;> simp only [Prod.mk.injEq, reduceCtorEq, and_false] at hr
    obtain ⟨rfl, hr⟩ := hr
    have hrest : runOps (step c) s1 ops = ((runOps (step c) s1 ops).1, .ok s') := by rw [← hr]
    have hn : Next c s s1 a o := by
      refine inv_step wf h hf ?_
      rintro fop r rfl
      exact hl.1
    rcases hn with ⟨rfl, hw, hi⟩ | ⟨fop, r, a1, rfl, hlg, h1, h2, hi⟩
    · have := ih s1 a (runOps (step c) s1 ops).1 s' hi hl hrest
      rw [hw] at this
      exact this
    · obtain ⟨e1, e2, a', e3, e4⟩ := ih s1 a1 _ s' hi (hl.2 a1 r h1) hrest
      simp only [calls_some, results_some, runOps, h1, h2, e2, e3]
      refine ⟨⟨hlg, ?_⟩, trivial, a', rfl, e4⟩
      intro a2 o2 h3
      rw [h1] at h3
      simp only [Res.ok.injEq, Prod.mk.injEq] at h3
      obtain ⟨rfl, rfl⟩ := h3
      exact e1

/-! ### Queues between two steps of a thread -/

/-- Events are waiting for `ao`. -/
def Waiting (a : Abs) (ao : Nat) : Prop := ∃ x, a.aos[ao]? = some x ∧ x.q.items ≠ []

theorem waiting_post {front : Bool} {i e ao : Nat} (h : Waiting a ao) (hs : Fwk.Spec.post front a i e = .ok a') : Waiting a' ao := by
  obtain ⟨x, hx, hi⟩ := h
  obtain ⟨y, q, hy, rfl, hq, _⟩ := Fwk.post_facts hs
  by_cases hia : i = ao
  · subst hia
    refine ⟨_, List.getElem?_set_self (List.getElem?_eq_some_iff.mp hy).1, ?_⟩
    rw [hq]; dsimp only; split <;> simp
  · exact ⟨x, by dsimp only; rw [List.getElem?_set_ne hia]; exact hx, hi⟩

theorem waiting_fold {e ao : Nat} {sd : Option Nat} : ∀ {l : List Nat} {a : Abs}, Waiting a ao →
    RdyGrp.foldRes (Fwk.Spec.deliver e sd) a l = .ok a' → Waiting a' ao := by
  intro l
  induction l with
  | nil => intro a h hs; simp only [RdyGrp.foldRes, Res.ok.injEq] at hs; exact hs ▸ h
  | cons p l ih =>
    intro a h hs
    simp only [RdyGrp.foldRes, Res.bind'_eq_ok] at hs
    obtain ⟨a1, h1, h2⟩ := hs
    refine ih ?_ h2
    simp only [Fwk.Spec.deliver] at h1
    split at h1
    · cases h1
    · split at h1
      · cases h1; exact h
      · exact waiting_post h h1

/-- Only a thread takes events out of its queue. -/
theorem waiting_step {cf : Fwk.Cfg} {op : Fwk.Op} {o : Fwk.Out} {ao : Nat} (h : Waiting a ao) (hs : Fwk.Spec.step cf a op = .ok (a', o))
    (hsc : ¬ Sched op) (ht : op ≠ .take ao) : Waiting a' ao := by
  cases op with
  | select => exact absurd (Or.inl rfl) hsc
  | fetch => exact absurd (Or.inr (Or.inl rfl)) hsc
  | done => exact absurd (Or.inr (Or.inr rfl)) hsc
  | postFifo i e =>
    simp only [Fwk.Spec.step, Res.map'_eq_ok] at hs
    obtain ⟨a1, h1, h2⟩ := hs
    simp only [Prod.mk.injEq] at h2
    obtain ⟨rfl, rfl⟩ := h2
    exact waiting_post h h1
  | postLifo i e =>
    simp only [Fwk.Spec.step, Res.map'_eq_ok] at hs
    obtain ⟨a1, h1, h2⟩ := hs
    simp only [Prod.mk.injEq] at h2
    obtain ⟨rfl, rfl⟩ := h2
    exact waiting_post h h1
  | publish ch e sd =>
    simp only [Fwk.Spec.step, Res.map'_eq_ok] at hs
    obtain ⟨a1, h1, h2⟩ := hs
    simp only [Prod.mk.injEq] at h2
    obtain ⟨rfl, rfl⟩ := h2
    exact waiting_fold (a := { a with conts := .gc1 e :: a.conts, fresh := a.fresh.erase e }) h h1
  | activate p m n =>
    simp only [Fwk.Spec.step] at hs
    split at hs
    · cases hs
    · simp only [Res.ok.injEq, Prod.mk.injEq] at hs
      obtain ⟨rfl, _⟩ := hs
      obtain ⟨x, hx, hi⟩ := h
      refine ⟨x, ?_, hi⟩
      have := (List.getElem?_eq_some_iff.mp hx).1
      simp [List.getElem?_append, this, ← hx]
  | take i =>
    have hia : i ≠ ao := fun hh => ht (by rw [hh])
    simp only [Fwk.Spec.step] at hs
    split at hs
    · cases hs
    · split at hs
      · cases hs
      · simp only [Res.ok.injEq, Prod.mk.injEq] at hs
        obtain ⟨rfl, _⟩ := hs
        obtain ⟨x, hx, hi⟩ := h
        exact ⟨x, by dsimp only; rw [List.getElem?_set_ne hia]; exact hx, hi⟩
  | resume k =>
    simp only [Fwk.Spec.step] at hs
    split at hs
    · cases hs
    · rename_i t ht
      simp only [Res.map'_eq_ok] at hs
      obtain ⟨a1, h1, h2⟩ := hs
      simp only [Prod.mk.injEq] at h2
      obtain ⟨rfl, rfl⟩ := h2
      cases t with
      | rc2 i e =>
        simp only [Fwk.Spec.resumeCont, Res.map'_eq_ok] at h1
        obtain ⟨a2, h2, h3⟩ := h1
        subst h3
        have := waiting_post (a := { a with conts := a.conts.eraseIdx k }) (a' := a2) h h2
        exact this
      | put i e =>
        simp only [Fwk.Spec.resumeCont] at h1
        split at h1
        · cases h1
        · simp only [Res.ok.injEq] at h1; subst h1; exact h
      | _ => simp only [Fwk.Spec.resumeCont, Res.ok.injEq] at h1; subst h1; (try split) <;> exact h
  | _ =>
    simp only [Fwk.Spec.step] at hs
    (repeat' split at hs) <;> simp only [Res.ok.injEq, Prod.mk.injEq, reduceCtorEq, Res.map'_eq_ok] at hs <;>
      (first | (obtain ⟨rfl, _⟩ := hs; exact h) | (obtain ⟨q, _, rfl, _⟩ := hs; exact h))

/-! ### What other operations do to a thread -/

/-- Nothing but its own steps, its creator and `rkh_sma_terminate` changes a thread, apart from its signal. -/
theorem thr_frame {op : Op} {o : Out} (hs : step c s op = .ok (s', o)) {ao : Nat} (h1 : op ≠ .thread ao) (h2 : op ≠ .create ao)
    (h3 : op ≠ .terminate ao) : (s'.thr ao).pc = (s.thr ao).pc ∧ (s'.thr ao).cr = (s.thr ao).cr ∧ (s'.thr ao).handle = (s.thr ao).handle ∧
      ((s.thr ao).sig = true → (s'.thr ao).sig = true) := by
  have key : ∀ {f : Nat → Thr} {fop o}, f ao = s.thr ao → fwk c s f fop = .ok (s', o) → (s'.thr ao).pc = (s.thr ao).pc ∧
      (s'.thr ao).cr = (s.thr ao).cr ∧ (s'.thr ao).handle = (s.thr ao).handle ∧ ((s.thr ao).sig = true → (s'.thr ao).sig = true) := by
    intro f fop o hf hs
    unfold fwk at hs
    rw [Res.map'_eq_ok] at hs
    obtain ⟨⟨w', r⟩, _, h2⟩ := hs
    simp only [Prod.mk.injEq] at h2
    obtain ⟨rfl, rfl⟩ := h2
    refine ⟨by simp [hf], by simp [hf], by simp [hf], fun hh => ?_⟩
    simp only [signals]; split <;> simp [hf, hh]
  have loc : ∀ {i t}, i ≠ ao → s' = ⟨s.w, upd s.thr i t⟩ → (s'.thr ao).pc = (s.thr ao).pc ∧ (s'.thr ao).cr = (s.thr ao).cr ∧
      (s'.thr ao).handle = (s.thr ao).handle ∧ ((s.thr ao).sig = true → (s'.thr ao).sig = true) := by
    rintro i t hi rfl
    simp [upd_ne _ (Ne.symm hi)]
  cases op with
  | activate p m n => exact key rfl hs
  | create i =>
    have hi : i ≠ ao := fun hh => h2 (by rw [hh])
    simp only [step] at hs
    split at hs
    · cases hs
    · split at hs <;> simp only [Res.ok.injEq, Prod.mk.injEq, reduceCtorEq] at hs <;> exact loc hi hs.1.symm
  | terminate i =>
    have hi : i ≠ ao := fun hh => h3 (by rw [hh])
    simp only [step, Res.ok.injEq, Prod.mk.injEq] at hs
    exact loc hi hs.1.symm
  | thread i =>
    have hi : i ≠ ao := fun hh => h1 (by rw [hh])
    have hu : ∀ t, upd s.thr i t ao = s.thr ao := fun t => upd_ne _ (Ne.symm hi) t
    simp only [step, thread] at hs
    (repeat' split at hs) <;> first
      | (cases hs; done)
      | exact key (hu _) hs
      | (simp only [Res.ok.injEq, Prod.mk.injEq] at hs; exact loc hi hs.1.symm)
      | (simp only [Res.ok.injEq, Prod.mk.injEq] at hs; obtain ⟨rfl, _⟩ := hs; exact ⟨rfl, rfl, rfl, id⟩)
  | call op =>
    simp only [step] at hs
    split at hs
    · exact key rfl hs
    · cases hs

/-- Which framework operation a step may consist of. -/
theorem step_out {op : Op} {o : Out} (hs : step c s op = .ok (s', o)) {fop : Fwk.Op} {r : Fwk.Out} (ho : o = some (fop, r)) :
    ¬ Sched fop ∧ ∀ ao, fop = .take ao → op = .thread ao := by
  subst ho
  cases op with
  | activate p m n =>
    obtain ⟨r, hr⟩ := fwk_out hs
    cases hr; simp [Sched]
  | create i =>
    simp only [step] at hs
    split at hs
    · cases hs
    · split at hs <;> simp at hs
  | terminate i => simp [step] at hs
  | thread i =>
    simp only [step, thread] at hs
    (repeat' split at hs) <;> first
      | (cases hs; done)
      | (simp at hs; done)
      | (obtain ⟨r, hr⟩ := fwk_out hs; cases hr; simp [Sched]; done)
  | call op =>
    simp only [step] at hs
    split at hs
    · rename_i hal
      obtain ⟨r, hr⟩ := fwk_out hs
      cases hr
      refine ⟨?_, ?_⟩
      · rintro (rfl | rfl | rfl) <;> simp [allowed] at hal
      · rintro ao rfl; simp [allowed] at hal
    · cases hs

end Verif.Thread
