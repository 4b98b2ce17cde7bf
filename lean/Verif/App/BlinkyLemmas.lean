import Verif.App.Blinky
/-
Lemmas for C145, C146: blinky is simulated by a small abstract program.
-/
namespace Verif.App.Blinky
open Verif Spec

/-- Where the program is. `h`: inside a dispatch (else inside the activation). -/
inductive Pc where
  | init
  | start (h : Bool)
  | led (h : Bool)
  | fin
  | gc
  | sel
  | fetch
  deriving DecidableEq, Repr

/-- Abstract program: where it is, ticks left if the timer is running, number of LED calls made, ticks. -/
structure B where
  pc : Pc
  arm : Option Nat
  k : Nat
  t : Nat
  deriving DecidableEq, Repr

/-- One step of the processor. -/
def B.cpu (p : Cfg) (b : B) : B :=
  match b.pc with
  | .init => { b with pc := .start false }
  | .start h => { b with pc := .led h, arm := some (dur p b.k) }
  | .led h => { b with pc := if h then .fin else .sel, k := b.k + 1 }
  | .fin => { b with pc := .gc }
  | .gc => { b with pc := .sel }
  | .sel => if b.arm = none then { b with pc := .fetch } else b
  | .fetch => { b with pc := .start true }

/-- One tick. -/
def B.tick (b : B) : B :=
  { b with t := b.t + 1, arm := match b.arm with | some n => if n = 1 then none else some (n - 1) | none => none }

/-- One step. -/
def B.step (p : Cfg) (b : B) : Act → B
  | .cpu => b.cpu p
  | .tick => b.tick

/-- The event queue. -/
def B.queue (b : B) : List Nat :=
  match b.pc with
  | .init | .start _ => []
  | _ => if b.arm = none then [EV] else []

def B.ph (b : B) : Fwk.Phase :=
  match b.pc with
  | .start true | .led true | .fin => .run 0 EV
  | .fetch => .fetch 0
  | _ => .none

def B.conts (b : B) : List Fwk.Cont := if b.pc = .gc then [.gc1 EV] else []

/-- Parity of the phase of the current state. -/
def B.cur (b : B) : SM.Vid :=
  match b.pc with
  | .init | .start _ | .led _ => b.k % 2
  | _ => (b.k + 1) % 2

def B.todo (p : Cfg) (b : B) : List Call :=
  match b.pc with
  | .init => [.tmr (.init TMR EV), .tmr (.start TMR 1 (dur p b.k) 0), .led (decide (b.k % 2 = 0))]
  | .start _ => [.tmr (.start TMR 1 (dur p b.k) 0), .led (decide (b.k % 2 = 0))]
  | .led _ => [.led (decide (b.k % 2 = 0))]
  | _ => []

/-- The program is in the situation `b`. -/
structure Inv (p : Cfg) (x : App) (b : B) (a : Fwk.Spec.Abs) (t : Timer.Spec.S) : Prop where
  rel : Fwk.R p.sys.fw x.s.w a
  rep : Timer.Rep p.sys.tm x.s.tm t
  aos : a.aos = [⟨0, p.qsize, b.queue⟩]
  reg : a.reg = fun q => if q = 0 then some 0 else none
  ph : a.ph = b.ph
  conts : a.conts = b.conts
  sig : a.sig EV = evTout
  ready : (t.tm TMR).ready = true ∨ b.pc = .init
  evt : (t.tm TMR).evt = EV ∨ b.pc = .init
  sched : (t.tm TMR).sched = b.arm.map fun n => ⟨1, n, 0⟩
  order : t.order = if b.arm = none then [] else [TMR]
  wait : b.pc = .init ∨ (∃ h, b.pc = .start h) ∨ b.pc = .fetch → b.arm = none
  pos : ∀ n, b.arm = some n → 0 < n
  obj : ∃ mem, x.s.objs = [⟨m, env, mem⟩] ∧ mem.state = some b.cur
  todo : x.todo = b.todo p
  ticks : x.ticks = b.t
  cnt : x.led.length = b.k
  started : b.k = 0 → b.pc = .init ∨ b.pc = .start false ∨ b.pc = .led false

/-- The static part. -/
structure Fixed (p : Cfg) : Prop where
  wf : Fwk.Wf p.sys.fw
  prio : 0 < p.sys.fw.maxSma
  qpos : 0 < p.qsize
  on : 0 < p.on ∧ p.on < p.sys.tm.W
  off : 0 < p.off ∧ p.off < p.sys.tm.W
  fuel : 1 < p.sys.tm.fuel
  ev : p.sys.fw.static EV = true

theorem dur_pos {p : Cfg} (hp : Fixed p) (k : Nat) : 0 < dur p k ∧ dur p k < p.sys.tm.W := by
  unfold dur; split
  · exact hp.on
  · exact hp.off

theorem fwk_step {c : Fwk.Cfg} {w : Fwk.World} {a a' : Fwk.Spec.Abs} {o : Fwk.Out} (wf : Fwk.Wf c) (h : Fwk.R c w a) (op : Fwk.Op)
    (hl : Fwk.Spec.Legal c a op) (hs : Fwk.Spec.step c a op = .ok (a', o)) : ∃ w', Fwk.step c w op = .ok (w', o) ∧ Fwk.R c w' a' := by
  obtain ⟨h1, _⟩ := Fwk.sim_step wf h op hl
  rw [hs] at h1
  cases h2 : Fwk.step c w op with
  | ok r =>
    rw [h2] at h1
    obtain ⟨h3, h4⟩ := h1
    exact ⟨r.1, by rw [← h4], h3⟩
  | assert => rw [h2] at h1; exact h1.elim
  | ub => rw [h2] at h1; exact h1.elim

theorem disp (s : Bool) (h : SM.Vid → Option SM.Vid) (l : List SM.Obs) :
    (SM.dispatch m env 20 evTout ⟨some (if s then ledOff else ledOn), h, l⟩).2 = .ok () ∧
    (SM.dispatch m env 20 evTout ⟨some (if s then ledOff else ledOn), h, l⟩).1.state = some (if s then ledOn else ledOff) ∧
    (SM.dispatch m env 20 evTout ⟨some (if s then ledOff else ledOn), h, l⟩).1.log =
      l ++ [.exit (if s then ledOff else ledOn), .entry (if s then ledOn else ledOff), .stable (if s then ledOn else ledOff)] := by
  cases s
  · refine ⟨rfl, rfl, ?_⟩
    show ((l ++ [.exit 0]) ++ [.entry 1]) ++ [.stable 1] = _
    simp
  · refine ⟨rfl, rfl, ?_⟩
    show ((l ++ [.exit 1]) ++ [.entry 0]) ++ [.stable 0] = _
    simp

/-- The tick. -/
theorem tick_inv {p : Cfg} (hp : Fixed p) {x : App} {b : B} {a : Fwk.Spec.Abs} {t : Timer.Spec.S} (h : Inv p x b a t) :
    ∃ x' a' t', tick p x = .ok x' ∧ Inv p x' b.tick a' t' ∧ x'.led = x.led := by
  have hord : t.order.length < p.sys.tm.fuel := by
    have := hp.fuel
    rw [h.order]; split <;> simp <;> omega
  obtain ⟨tm', k1, k2⟩ := Timer.rep_step h.rep (op := .tick) trivial hord
  have k1' : Timer.tick p.sys.tm (fun _ => []) x.s.tm = .ok (tm', t.order.filterMap (Timer.Spec.fire t)) := by
    simp only [Timer.step, Res.map'_eq_ok] at k1
    obtain ⟨r, r1, r2⟩ := k1
    simp only [Timer.Spec.step, Prod.mk.injEq, Timer.Out.posts.injEq] at r2
    rw [r1, ← r2.1, ← r2.2]
  have hbpc : b.tick.pc = b.pc := rfl
  have hq0 : b.arm ≠ some 1 → b.tick.queue = b.queue := by
    intro hne
    unfold B.queue
    rw [hbpc]
    cases ha : b.arm with
    | none => simp [B.tick, ha]
    | some n =>
      have : n ≠ 1 := by rintro rfl; exact hne ha
      simp [B.tick, ha, this]
  cases ha : b.arm with
  | none =>
    have hf : t.order.filterMap (Timer.Spec.fire t) = [] := by rw [h.order, if_pos ha]; rfl
    rw [hf] at k1'
    refine ⟨⟨{ x.s with tm := tm' }, x.todo, x.ticks + 1, x.led⟩, a, (Timer.Spec.step t .tick).1, ?_, ?_, rfl⟩
    · simp only [tick, Sys.step, k1', Res.bind'_ok, Sys.postAll, Res.map']
    · refine ⟨h.rel, k2, ?_, h.reg, h.ph, h.conts, h.sig, h.ready, h.evt, ?_, ?_, ?_, ?_, h.obj, h.todo, ?_, h.cnt, h.started⟩
      · rw [hq0 (by rw [ha]; simp)]; exact h.aos
      · simp only [Timer.Spec.step, Timer.Spec.tickT, h.sched, ha, B.tick]; rfl
      · simp only [Timer.Spec.step, h.order, ha, B.tick]; rfl
      · intro _; simp [B.tick, ha]
      · intro n hn; simp [B.tick, ha] at hn
      · simp only [B.tick, h.ticks]
  | some n =>
    have hn := h.pos n ha
    have hsch : (t.tm TMR).sched = some ⟨1, n, 0⟩ := by rw [h.sched, ha]; rfl
    have hord1 : t.order = [TMR] := by rw [h.order, if_neg (by rw [ha]; simp)]
    by_cases h1 : n = 1
    · subst h1
      have hpc : b.pc ≠ .init := fun hh => by have := h.wait (.inl hh); rw [ha] at this; cases this
      have hpc2 : ∀ g, b.pc ≠ .start g := fun g hh => by have := h.wait (.inr (.inl ⟨g, hh⟩)); rw [ha] at this; cases this
      have hpc3 : b.pc ≠ .fetch := fun hh => by have := h.wait (.inr (.inr hh)); rw [ha] at this; cases this
      have hev : (t.tm TMR).evt = EV := h.evt.resolve_right hpc
      have hf : t.order.filterMap (Timer.Spec.fire t) = [⟨TMR, 1, EV⟩] := by
        rw [hord1]; simp [Timer.Spec.fire, hsch, hev]
      rw [hf] at k1'
      have hq : b.queue = [] := by
        unfold B.queue
        split
        · rfl
        · rfl
        · rw [if_neg (by rw [ha]; simp)]
      have hq' : b.tick.queue = [EV] := by
        unfold B.queue
        rw [hbpc]
        split
        · rename_i hh; exact (hpc hh).elim
        · rename_i g hh; exact (hpc2 g hh).elim
        · rw [if_pos (by simp [B.tick, ha])]
      have haos : a.aos[0]? = some ⟨0, p.qsize, []⟩ := by rw [h.aos, hq]; rfl
      have hreg : a.reg 0 = some 0 := by rw [h.reg]; rfl
      have hqp := hp.qpos
      have hpost : Fwk.Spec.step p.sys.fw a (.postFifo 0 EV) =
          .ok ({ a with aos := [⟨0, p.qsize, [EV]⟩], fresh := a.fresh.erase EV }, .unit) := by
        simp only [Fwk.Spec.step, Fwk.Spec.post, haos, Fwk.Spec.qput]
        rw [if_neg (by simp only [List.length_nil]; omega)]
        simp [Res.bind, Res.map', h.aos]
      obtain ⟨w', g1, g2⟩ := fwk_step hp.wf h.rel (.postFifo 0 EV)
        ⟨⟨_, haos, hreg⟩, ⟨by decide, .inl hp.ev⟩, .inl hp.ev⟩ hpost
      have g1' : Fwk.postFifo p.sys.fw x.s.w 0 EV = .ok w' := by
        simp only [Fwk.step, Res.map'_eq_ok] at g1
        obtain ⟨r, r1, r2⟩ := g1
        simp only [Prod.mk.injEq, and_true] at r2
        rw [r1, r2]
      refine ⟨⟨{ x.s with w := w', tm := tm' }, x.todo, x.ticks + 1, x.led⟩,
        { a with aos := [⟨0, p.qsize, [EV]⟩], fresh := a.fresh.erase EV }, (Timer.Spec.step t .tick).1, ?_, ?_, rfl⟩
      · simp only [tick, Sys.step, k1', Res.bind'_ok, Sys.postAll, g1', Res.map']
      · refine ⟨g2, k2, ?_, h.reg, h.ph, h.conts, h.sig, h.ready, h.evt, ?_, ?_, ?_, ?_, h.obj, h.todo, ?_, h.cnt, h.started⟩
        · rw [hq']
        · simp [Timer.Spec.step, Timer.Spec.tickT, hsch, Timer.Spec.tickSched, ha, B.tick]
        · simp [Timer.Spec.step, Timer.Spec.tickT, hsch, Timer.Spec.tickSched, hord1, ha, B.tick]
        · intro _; simp [B.tick, ha]
        · intro n hn; simp [B.tick, ha] at hn
        · simp only [B.tick, h.ticks]
    · have hf : t.order.filterMap (Timer.Spec.fire t) = [] := by
        rw [hord1]; simp [Timer.Spec.fire, hsch, h1]
      rw [hf] at k1'
      refine ⟨⟨{ x.s with tm := tm' }, x.todo, x.ticks + 1, x.led⟩, a, (Timer.Spec.step t .tick).1, ?_, ?_, rfl⟩
      · simp only [tick, Sys.step, k1', Res.bind'_ok, Sys.postAll, Res.map']
      · refine ⟨h.rel, k2, ?_, h.reg, h.ph, h.conts, h.sig, h.ready, h.evt, ?_, ?_, ?_, ?_, h.obj, h.todo, ?_, h.cnt, h.started⟩
        · rw [hq0 (by rw [ha]; simpa using h1)]; exact h.aos
        · simp [Timer.Spec.step, Timer.Spec.tickT, hsch, Timer.Spec.tickSched, ha, h1, B.tick]
        · simp [Timer.Spec.step, Timer.Spec.tickT, hsch, Timer.Spec.tickSched, hord1, ha, h1, B.tick]
        · intro hh; have := h.wait hh; rw [ha] at this; cases this
        · intro j hj; simp [B.tick, ha, h1] at hj; omega
        · simp only [B.tick, h.ticks]

/-- The LED call of a step of the processor. -/
def B.out (b : B) : Act → List (Nat × Bool)
  | .cpu => match b.pc with
    | .led _ => [(b.t, decide (b.k % 2 = 0))]
    | _ => []
  | .tick => []

theorem cpu_inv {p : Cfg} (hp : Fixed p) {x : App} {b : B} {a : Fwk.Spec.Abs} {t : Timer.Spec.S} (h : Inv p x b a t) :
    ∃ x' a' t', cpu p x = .ok x' ∧ Inv p x' (b.cpu p) a' t' ∧ x'.led = x.led ++ b.out .cpu := by
  have hord : t.order.length < p.sys.tm.fuel := by
    have := hp.fuel
    rw [h.order]; split <;> simp <;> omega
  have hwph : x.s.w.ph = b.ph := by rw [h.rel.ph, h.ph]
  have hwc : x.s.w.conts = b.conts := by rw [h.rel.conts, h.conts]
  have hdp := dur_pos hp b.k
  obtain ⟨pc, arm, k, tt⟩ := b
  have htodo := h.todo
  cases pc with
  | init =>
    have harm : arm = none := h.wait (.inl rfl)
    subst harm
    have hord1 : t.order = [] := h.order
    obtain ⟨tm', k1, k2⟩ := Timer.rep_step h.rep (op := .init TMR EV) ⟨by decide, by decide⟩ hord
    refine ⟨⟨{ x.s with tm := tm' }, B.todo p ⟨.start false, none, k, tt⟩, x.ticks, x.led⟩, a, (Timer.Spec.step t (.init TMR EV)).1,
      ?_, ?_, by simp [B.out]⟩
    · simp only [B.todo] at htodo
      simp only [cpu, htodo, Sys.step, k1, Res.map', B.todo]
    · refine ⟨h.rel, k2, h.aos, h.reg, h.ph, h.conts, h.sig, .inl ?_, .inl ?_, ?_, ?_, fun _ => rfl, ?_, h.obj, rfl, h.ticks, h.cnt, ?_⟩
      · simp [Timer.Spec.step, Timer.Spec.set]
      · simp [Timer.Spec.step, Timer.Spec.set]
      · simp [Timer.Spec.step, Timer.Spec.set, B.cpu]
      · simp [Timer.Spec.step, hord1, B.cpu]
      · intro n hn; simp [B.cpu] at hn
      · intro _; exact .inr (.inl rfl)
  | start g =>
    have harm : arm = none := h.wait (.inr (.inl ⟨g, rfl⟩))
    subst harm
    have hord1 : t.order = [] := h.order
    have hsch : (t.tm TMR).sched = none := h.sched
    have hrdy : (t.tm TMR).ready = true := h.ready.resolve_right (by simp)
    have hevt : (t.tm TMR).evt = EV := h.evt.resolve_right (by simp)
    obtain ⟨tm', k1, k2⟩ := Timer.rep_step h.rep (op := .start TMR 1 (dur p k) 0)
      ⟨hrdy, by decide, hdp.1, hdp.2, by have := hdp.1; have := hdp.2; omega⟩ hord
    refine ⟨⟨{ x.s with tm := tm' }, B.todo p ⟨.led g, some (dur p k), k, tt⟩, x.ticks, x.led⟩, a,
      (Timer.Spec.step t (.start TMR 1 (dur p k) 0)).1, ?_, ?_, by simp [B.out]⟩
    · simp only [B.todo] at htodo
      simp only [cpu, htodo, Sys.step, k1, Res.map', B.todo]
    · refine ⟨h.rel, k2, h.aos, h.reg, ?_, h.conts, h.sig, .inl ?_, .inl ?_, ?_, ?_, ?_, ?_, h.obj, rfl, h.ticks, h.cnt, ?_⟩
      · have := h.ph; cases g <;> exact this
      · simp [Timer.Spec.step, Timer.Spec.set, hrdy]
      · simp [Timer.Spec.step, Timer.Spec.set, hevt]
      · simp [Timer.Spec.step, Timer.Spec.set, B.cpu]
      · simp [Timer.Spec.step, hord1, B.cpu, Timer.Spec.running, hsch]
      · intro hh; simp [B.cpu] at hh
      · intro n hn; simp [B.cpu] at hn; rw [← hn]; exact hdp.1
      · intro hk; rcases h.started hk with hh | hh | hh
        · cases hh
        · cases hh; exact .inr (.inr rfl)
        · cases hh
  | led g =>
    refine ⟨⟨x.s, [], x.ticks, x.led ++ [(x.ticks, decide (k % 2 = 0))]⟩, a, t, ?_, ?_, ?_⟩
    · simp only [B.todo] at htodo
      simp only [cpu, htodo]
    · have hq : B.queue ⟨if g then .fin else .sel, arm, k + 1, tt⟩ = B.queue ⟨.led g, arm, k, tt⟩ := by cases g <;> rfl
      refine ⟨h.rel, h.rep, ?_, h.reg, ?_, ?_, h.sig, .inl (h.ready.resolve_right (by simp)), .inl (h.evt.resolve_right (by simp)),
        h.sched, h.order, ?_, h.pos, ?_, ?_, h.ticks, ?_, ?_⟩
      · rw [h.aos]; exact congrArg (fun q => [(⟨0, p.qsize, q⟩ : Fwk.Spec.AAo)]) hq.symm
      · have := h.ph; cases g <;> exact this
      · have := h.conts; cases g <;> exact this
      · intro hh; cases g <;> simp [B.cpu] at hh
      · obtain ⟨mem, m1, m2⟩ := h.obj
        refine ⟨mem, m1, ?_⟩
        rw [m2]
        have : (k + 1 + 1) % 2 = k % 2 := by omega
        cases g <;> simp [B.cpu, B.cur, this]
      · cases g <;> rfl
      · simp [B.cpu, h.cnt]
      · intro hh; simp [B.cpu] at hh
    · simp [B.out, h.ticks]
  | fin =>
    have hph : a.ph = .run 0 EV := h.ph
    have hs : Fwk.Spec.step p.sys.fw a .done = .ok ({ a with ph := .none, conts := .gc1 EV :: a.conts }, .unit) := by
      simp only [Fwk.Spec.step, hph]
    have hc : a.conts = [] := h.conts
    obtain ⟨w', g1, g2⟩ := fwk_step hp.wf h.rel .done ⟨⟨0, EV, hph⟩, by intro y hy; rw [hc] at hy; cases hy⟩ hs
    refine ⟨⟨{ x.s with w := w' }, [], x.ticks, x.led⟩, { a with ph := .none, conts := .gc1 EV :: a.conts }, t, ?_, ?_, by simp [B.out]⟩
    · simp only [B.todo] at htodo
      simp only [B.conts, reduceCtorEq, if_false] at hwc
      simp only [B.ph] at hwph
      simp only [cpu, htodo, hwc, hwph, Sys.step, g1, Res.map']
    · refine ⟨g2, h.rep, h.aos, h.reg, rfl, ?_, h.sig, .inl (h.ready.resolve_right (by simp)), .inl (h.evt.resolve_right (by simp)),
        h.sched, h.order, ?_, h.pos, h.obj, rfl, h.ticks, h.cnt, ?_⟩
      · show _ :: a.conts = _; rw [hc]; rfl
      · intro hh; simp [B.cpu] at hh
      · intro hk; have := h.started hk; simp at this
  | gc =>
    have hph : a.ph = .none := h.ph
    have hc : a.conts = [.gc1 EV] := h.conts
    have hs : Fwk.Spec.step p.sys.fw a (.resume 0) = .ok ({ a with conts := [] }, .unit) := by
      simp [Fwk.Spec.step, hc, Fwk.Spec.resumeCont, hp.ev, Res.map']
    obtain ⟨w', g1, g2⟩ := fwk_step hp.wf h.rel (.resume 0) ⟨.gc1 EV, by rw [hc]; rfl, by intro _ _ hh; cases hh⟩ hs
    refine ⟨⟨{ x.s with w := w' }, [], x.ticks, x.led⟩, { a with conts := [] }, t, ?_, ?_, by simp [B.out]⟩
    · simp only [B.todo] at htodo
      simp only [B.conts, if_true] at hwc
      simp only [cpu, htodo, hwc, Sys.step, g1, Res.map']
    · refine ⟨g2, h.rep, h.aos, h.reg, h.ph, rfl, h.sig, .inl (h.ready.resolve_right (by simp)), .inl (h.evt.resolve_right (by simp)),
        h.sched, h.order, ?_, h.pos, h.obj, rfl, h.ticks, h.cnt, ?_⟩
      · intro hh; simp [B.cpu] at hh
      · intro hk; have := h.started hk; simp at this
  | sel =>
    have hph : a.ph = .none := h.ph
    have hc : a.conts = [] := h.conts
    have hlegal : Fwk.Spec.Legal p.sys.fw a .select := ⟨hph, by intro y hy; rw [hc] at hy; cases hy⟩
    have hcpu : ∀ w', Fwk.step p.sys.fw x.s.w .select = .ok w' → cpu p x = .ok ⟨{ x.s with w := w'.1 }, [], x.ticks, x.led⟩ := by
      intro w' hw
      simp only [B.todo] at htodo
      simp only [B.conts, reduceCtorEq, if_false] at hwc
      simp only [B.ph] at hwph
      simp only [cpu, htodo, hwc, hwph, Sys.step, hw, Res.map']
    have hreg0 : a.reg 0 = some 0 := by rw [h.reg]; rfl
    cases arm with
    | none =>
      have haos : a.aos = [⟨0, p.qsize, [EV]⟩] := h.aos
      have hfind : (List.range p.sys.fw.maxSma).find? (Fwk.Spec.pending a) = some 0 := by
        have hm := hp.prio
        obtain ⟨j, hj⟩ : ∃ j, p.sys.fw.maxSma = j + 1 := ⟨p.sys.fw.maxSma - 1, by omega⟩
        rw [hj, List.range_succ_eq_map, List.find?_cons]
        have : Fwk.Spec.pending a 0 = true := by simp [Fwk.Spec.pending, hreg0, haos]
        rw [this]
      have hs : Fwk.Spec.step p.sys.fw a .select = .ok ({ a with ph := .fetch 0 }, .chose 0) := by
        simp only [Fwk.Spec.step, hfind, hreg0]
      obtain ⟨w', g1, g2⟩ := fwk_step hp.wf h.rel .select hlegal hs
      refine ⟨_, { a with ph := .fetch 0 }, t, hcpu _ g1, ?_, by simp [B.out]⟩
      refine ⟨g2, h.rep, h.aos, h.reg, rfl, h.conts, h.sig, .inl (h.ready.resolve_right (by simp)), .inl (h.evt.resolve_right (by simp)),
        h.sched, h.order, fun _ => rfl, h.pos, h.obj, rfl, h.ticks, h.cnt, ?_⟩
      intro hk; have := h.started hk; simp at this
    | some n =>
      have haos : a.aos = [⟨0, p.qsize, []⟩] := h.aos
      have hfind : (List.range p.sys.fw.maxSma).find? (Fwk.Spec.pending a) = none := by
        rw [List.find?_eq_none]
        intro q _
        simp only [Fwk.Spec.pending, h.reg, haos]
        by_cases hq : q = 0 <;> simp [hq]
      have hs : Fwk.Spec.step p.sys.fw a .select = .ok (a, .idle) := by
        simp only [Fwk.Spec.step, hfind]
      obtain ⟨w', g1, g2⟩ := fwk_step hp.wf h.rel .select hlegal hs
      refine ⟨_, a, t, hcpu _ g1, ?_, by simp [B.out]⟩
      exact ⟨g2, h.rep, h.aos, h.reg, h.ph, h.conts, h.sig, h.ready, h.evt, h.sched, h.order, h.wait, h.pos, h.obj, rfl, h.ticks, h.cnt,
        h.started⟩
  | fetch =>
    have harm : arm = none := h.wait (.inr (.inr rfl))
    subst harm
    have hph : a.ph = .fetch 0 := h.ph
    have hc : a.conts = [] := h.conts
    have haos : a.aos = [⟨0, p.qsize, [EV]⟩] := h.aos
    have hs : Fwk.Spec.step p.sys.fw a .fetch = .ok ({ a with aos := [⟨0, p.qsize, []⟩], ph := .run 0 EV }, .dispatch 0 EV) := by
      simp [Fwk.Spec.step, hph, haos]
    obtain ⟨w', g1, g2⟩ := fwk_step hp.wf h.rel .fetch ⟨⟨0, hph⟩, by intro y hy; rw [hc] at hy; cases hy⟩ hs
    have hsig : (w'.hdr EV).sig = evTout := by
      have := g2.ev.hdrS EV hp.ev
      rw [this]; exact h.sig
    obtain ⟨⟨st, hi, lg⟩, m1, m2⟩ := h.obj
    have hst : st = some (if decide (k % 2 = 0) then ledOff else ledOn) := by
      have h0 : st = some ((k + 1) % 2) := m2
      rw [h0]
      rcases Nat.mod_two_eq_zero_or_one k with hk | hk
      · rw [show (k + 1) % 2 = 1 by omega, hk]; rfl
      · rw [show (k + 1) % 2 = 0 by omega, hk]; rfl
    subst hst
    obtain ⟨d1, d2, d3⟩ := disp (decide (k % 2 = 0)) hi lg
    have hx : x.s.objs[0]? = some ⟨m, env, ⟨some (if decide (k % 2 = 0) then ledOff else ledOn), hi, lg⟩⟩ := by rw [m1]; rfl
    have hf := Sys.fetch_step (f := 20) g1 hx (by rw [hsig]; exact .inl d1)
    rw [hsig] at hf
    simp only at hf
    refine ⟨⟨{ x.s with w := w', objs := [⟨m, env, (SM.dispatch m env 20 evTout ⟨some (if decide (k % 2 = 0) then ledOff else ledOn), hi, lg⟩).1⟩] },
      B.todo p ⟨.start true, none, k, tt⟩, x.ticks, x.led⟩, { a with aos := [⟨0, p.qsize, []⟩], ph := .run 0 EV }, t, ?_, ?_, by simp [B.out]⟩
    · simp only [B.todo] at htodo
      simp only [B.conts, reduceCtorEq, if_false] at hwc
      simp only [B.ph] at hwph
      simp only [cpu, htodo, hwc, hwph, hf, Res.map']
      simp only [logOf, m1, List.set_cons_zero, List.getElem?_cons_zero, d3, List.drop_left, Res.ok.injEq, App.mk.injEq, and_true, true_and]
      rcases Nat.mod_two_eq_zero_or_one k with hk | hk <;> simp [hk, callsOf, B.todo, dur]
    · refine ⟨g2, h.rep, rfl, h.reg, rfl, h.conts, h.sig, .inl (h.ready.resolve_right (by simp)), .inl (h.evt.resolve_right (by simp)),
        h.sched, h.order, fun _ => rfl, h.pos, ?_, rfl, h.ticks, h.cnt, ?_⟩
      · refine ⟨_, rfl, ?_⟩
        rw [d2]
        rcases Nat.mod_two_eq_zero_or_one k with hk | hk <;> simp [hk, B.cpu, B.cur]
      · intro hk; have := h.started hk; simp at this

/-- The abstract program and its LED calls. -/
def B.run (p : Cfg) : B → List Act → B × List (Nat × Bool)
  | b, [] => (b, [])
  | b, c :: l => ((B.run p (b.step p c) l).1, b.out c ++ (B.run p (b.step p c) l).2)

theorem run_inv {p : Cfg} (hp : Fixed p) : ∀ (l : List Act) {x : App} {b : B} {a : Fwk.Spec.Abs} {t : Timer.Spec.S}, Inv p x b a t →
    ∃ x' a' t', run p x l = .ok x' ∧ Inv p x' (B.run p b l).1 a' t' ∧ x'.led = x.led ++ (B.run p b l).2
  | [], x, b, a, t, h => ⟨x, a, t, rfl, h, by simp [B.run]⟩
  | .cpu :: l, x, b, a, t, h => by
    obtain ⟨x1, a1, t1, h1, h2, h3⟩ := cpu_inv hp h
    obtain ⟨x2, a2, t2, g1, g2, g3⟩ := run_inv hp l h2
    refine ⟨x2, a2, t2, ?_, g2, ?_⟩
    · simp only [run, step, h1, Res.bind'_ok, g1]
    · rw [g3, h3, List.append_assoc]; rfl
  | .tick :: l, x, b, a, t, h => by
    obtain ⟨x1, a1, t1, h1, h2, h3⟩ := tick_inv hp h
    obtain ⟨x2, a2, t2, g1, g2, g3⟩ := run_inv hp l h2
    refine ⟨x2, a2, t2, ?_, g2, ?_⟩
    · simp only [run, step, h1, Res.bind'_ok, g1]
    · rw [g3, h3]; rfl

theorem boot_inv {p : Cfg} {slots : List MemPool.Pool} {hdr : Nat → Fwk.Evt} {qsto : List Nat} (hg : Good p slots hdr qsto)
    (heap : Nat → Timer.Tmr) :
    ∃ x a t, boot p slots hdr heap qsto = .ok x ∧ Inv p x ⟨.init, none, 0, 0⟩ a t ∧ x.led = [] := by
  have hq := hg.qpos
  have hpr := hg.prio
  have hs : Fwk.Spec.step p.sys.fw (Fwk.Spec.init fun e => (hdr e).sig) (.activate 0 qsto p.qsize) =
      .ok ({ Fwk.Spec.init (fun e => (hdr e).sig) with aos := [⟨0, p.qsize, []⟩], reg := fun q => if q = 0 then some 0 else none }, .num 0) := by
    simp only [Fwk.Spec.step]
    rw [if_neg (by simp [Fwk.Spec.init]; omega)]
    simp [Fwk.Spec.init]
  obtain ⟨w', g1, g2⟩ := fwk_step hg.env.wf (Fwk.R_init hg.env) (.activate 0 qsto p.qsize) ⟨hg.qlen, hg.qfit⟩ hs
  have g1' : Fwk.activate p.sys.fw (Fwk.initW p.sys.fw slots hdr) 0 qsto p.qsize = .ok (w', 0) := by
    simp only [Fwk.step, Res.map'_eq_ok] at g1
    obtain ⟨r, r1, r2⟩ := g1
    simp only [Prod.mk.injEq, Fwk.Out.num.injEq] at r2
    rw [r1, ← r2.1, ← r2.2]
  have hi2 : (SM.init m env 20 (SM.mem0 m)).2 = .ok () := rfl
  have hi1 : (SM.init m env 20 (SM.mem0 m)).1.state = some 0 := rfl
  have hi3 : (SM.init m env 20 (SM.mem0 m)).1.log.flatMap (callsOf p) = B.todo p ⟨.init, none, 0, 0⟩ := rfl
  refine ⟨⟨⟨w', [⟨m, env, (SM.init m env 20 (SM.mem0 m)).1⟩], Timer.moduleInit heap⟩, B.todo p ⟨.init, none, 0, 0⟩, 0, []⟩,
    { Fwk.Spec.init (fun e => (hdr e).sig) with aos := [⟨0, p.qsize, []⟩], reg := fun q => if q = 0 then some 0 else none },
    Timer.Spec.start0, ?_, ?_, rfl⟩
  · simp only [boot, Sys.step, Sys.init, g1', Res.bind'_ok, hi2, Sys.ended, Res.map', logOf, List.nil_append, List.getElem?_cons_zero, hi3]
  · refine ⟨g2, Timer.rep_start0 _ heap, rfl, rfl, rfl, rfl, hg.sig, .inr rfl, .inr rfl, rfl, rfl, fun _ => rfl, ?_, ⟨_, rfl, hi1⟩, rfl, rfl, rfl,
      fun _ => .inl rfl⟩
    intro n hn; cases hn

theorem Spec.Good.fixed {p : Cfg} {slots : List MemPool.Pool} {hdr : Nat → Fwk.Evt} {qsto : List Nat} (hg : Good p slots hdr qsto) : Fixed p :=
  ⟨hg.env.wf, hg.prio, hg.qpos, hg.on, hg.off, hg.fuel, hg.ev⟩

/-! ### Never early -/

/-- The next phase is not due before the timer is through. -/
def B.Late (p : Cfg) (b : B) : Prop :=
  match b.pc with
  | .init | .start _ => due p b.k ≤ b.t
  | .led _ => due p b.k ≤ b.t ∧ due p (b.k + 1) ≤ b.t + b.arm.getD 0
  | _ => due p b.k ≤ b.t + b.arm.getD 0

theorem late_step {p : Cfg} {b : B} (h : b.Late p) (hw : b.pc = .fetch → b.arm = none) (hpos : ∀ n, b.arm = some n → 0 < n) (c : Act) :
    (b.step p c).Late p := by
  obtain ⟨pc, arm, k, t⟩ := b
  cases c with
  | tick =>
    have ht : t + arm.getD 0 ≤ t + 1 + (B.tick ⟨pc, arm, k, t⟩).arm.getD 0 := by
      clear h hw
      unfold B.tick
      cases arm with
      | none => simp
      | some n =>
        have := hpos n rfl
        simp only [Option.getD_some]
        split
        · subst n; simp
        · simp only [Option.getD_some]; omega
    cases pc <;> simp only [B.Late, B.step, B.tick] at h ht ⊢ <;> omega
  | cpu =>
    cases pc with
    | sel =>
      cases arm with
      | none => simpa [B.Late, B.step, B.cpu] using h
      | some n => simpa [B.Late, B.step, B.cpu] using h
    | start g => simp only [B.Late, B.step, B.cpu] at h ⊢; simp only [due, Option.getD_some]; omega
    | led g => cases g <;> simp only [B.Late, B.step, B.cpu] at h ⊢ <;> simp <;> omega
    | fetch => have := hw rfl; simp only at this; subst this; simpa [B.Late, B.step, B.cpu] using h
    | init => simpa [B.Late, B.step, B.cpu] using h
    | fin => simpa [B.Late, B.step, B.cpu] using h
    | gc => simpa [B.Late, B.step, B.cpu] using h

theorem inv_step {p : Cfg} {b : B} (hon : 0 < p.on ∧ 0 < p.off) (hw : b.pc = .init ∨ (∃ h, b.pc = .start h) ∨ b.pc = .fetch → b.arm = none)
    (hpos : ∀ n, b.arm = some n → 0 < n) (c : Act) :
    ((b.step p c).pc = .init ∨ (∃ h, (b.step p c).pc = .start h) ∨ (b.step p c).pc = .fetch → (b.step p c).arm = none) ∧
    (∀ n, (b.step p c).arm = some n → 0 < n) := by
  obtain ⟨pc, arm, k, t⟩ := b
  have hd : 0 < dur p k := by unfold dur; split; exact hon.1; exact hon.2
  cases c with
  | tick =>
    refine ⟨fun h => ?_, fun n hn => ?_⟩
    · have := hw h; simp only at this; subst this; rfl
    · cases arm with
      | none => simp [B.step, B.tick] at hn
      | some r =>
        simp only [B.step, B.tick] at hn
        split at hn
        · cases hn
        · have := hpos r rfl; cases hn; omega
  | cpu =>
    cases pc with
    | init => exact ⟨fun _ => hw (.inl rfl), hpos⟩
    | start g => exact ⟨by intro h; simp [B.step, B.cpu] at h, by intro n hn; simp [B.step, B.cpu] at hn; omega⟩
    | led g => exact ⟨by intro h; cases g <;> simp [B.step, B.cpu] at h, hpos⟩
    | fin => exact ⟨by intro h; simp [B.step, B.cpu] at h, hpos⟩
    | gc => exact ⟨by intro h; simp [B.step, B.cpu] at h, hpos⟩
    | sel => cases arm with
      | none => exact ⟨fun _ => rfl, hpos⟩
      | some n => exact ⟨by intro h; simp [B.step, B.cpu] at h, hpos⟩
    | fetch => exact ⟨fun _ => hw (.inr (.inr rfl)), hpos⟩

theorem step_k {p : Cfg} (b : B) (c : Act) : (b.step p c).k = b.k + (b.out c).length := by
  obtain ⟨pc, arm, k, t⟩ := b
  cases c with
  | tick => rfl
  | cpu => cases pc <;> simp only [B.step, B.cpu, B.out] <;> first | rfl | (split <;> rfl)

/-- LED calls of a run: alternating and never early. -/
theorem run_late {p : Cfg} (hon : 0 < p.on ∧ 0 < p.off) : ∀ (l : List Act) (b : B), b.Late p →
    (b.pc = .init ∨ (∃ h, b.pc = .start h) ∨ b.pc = .fetch → b.arm = none) → (∀ n, b.arm = some n → 0 < n) →
    ∀ (i : Nat) (y : Nat × Bool), (B.run p b l).2[i]? = some y → due p (b.k + i) ≤ y.1 ∧ y.2 = decide ((b.k + i) % 2 = 0)
  | [], b, _, _, _, i, y, h => by simp [B.run] at h
  | c :: l, b, hl, hw, hpos, i, y, h => by
    obtain ⟨hw', hpos'⟩ := inv_step hon hw hpos c
    have ih := run_late hon l (b.step p c) (late_step hl (fun e => hw (.inr (.inr e))) hpos c) hw' hpos'
    simp only [B.run] at h
    have hk := step_k (p := p) b c
    by_cases ho : b.out c = []
    · rw [ho] at h hk
      have := ih i y h
      rw [hk] at this
      exact this
    · have hout : b.out c = [(b.t, decide (b.k % 2 = 0))] ∧ due p b.k ≤ b.t := by
        obtain ⟨pc, arm, k, t⟩ := b
        cases c with
        | tick => exact (ho rfl).elim
        | cpu => cases pc <;> first | exact (ho rfl).elim | exact ⟨rfl, hl.1⟩
      rw [hout.1] at h hk
      cases i with
      | zero =>
        simp only [List.singleton_append, List.getElem?_cons_zero, Option.some.injEq] at h
        subst h
        exact ⟨hout.2, rfl⟩
      | succ j =>
        simp only [List.singleton_append, List.getElem?_cons_succ] at h
        have := ih j y h
        rw [hk] at this
        have e : b.k + [(b.t, decide (b.k % 2 = 0))].length + j = b.k + (j + 1) := by simp; omega
        rw [e] at this
        exact this

/-! ### Progress -/

/-- Steps left to the next LED call, at most. -/
def B.mu (b : B) : Nat :=
  match b.pc with
  | .init => 3
  | .start _ => 2
  | .led _ => 1
  | .fin => 6 + b.arm.getD 0
  | .gc => 5 + b.arm.getD 0
  | .sel => 4 + b.arm.getD 0
  | .fetch => 3

/-- Waiting for the timer. -/
def B.Idle (b : B) : Prop := b.pc = .sel ∧ b.arm ≠ none

def top (p : Cfg) : Nat := 6 + max p.on p.off

theorem dur_le (p : Cfg) (k : Nat) : dur p k ≤ max p.on p.off := by unfold dur; split <;> omega

/-- Every step of the processor but waiting advances; ticks never set back. -/
theorem mu_step {p : Cfg} {b : B} (hle : ∀ n, b.arm = some n → 0 < n ∧ n ≤ max p.on p.off) (c : Act) :
    (∀ n, (b.step p c).arm = some n → n ≤ max p.on p.off) ∧
    top p * b.k + (b.step p c).mu ≤ top p * (b.step p c).k + b.mu ∧
    (top p * b.k + (b.step p c).mu = top p * (b.step p c).k + b.mu →
      (c = .cpu → b.step p c = b ∧ b.Idle) ∧ (c = .tick → ¬ b.Idle ∧ ¬ (b.step p c).Idle)) := by
  obtain ⟨pc, arm, k, t⟩ := b
  cases c with
  | tick =>
    have ha : ∀ n, (B.step p ⟨pc, arm, k, t⟩ .tick).arm = some n → n ≤ max p.on p.off := by
      intro n hn
      cases arm with
      | none => simp [B.step, B.tick] at hn
      | some r =>
        have := hle r rfl
        simp only [B.step, B.tick] at hn
        split at hn
        · cases hn
        · cases hn; omega
    refine ⟨ha, ?_⟩
    cases arm with
    | none => cases pc <;> simp [B.step, B.tick, B.mu, B.Idle]
    | some r =>
      have := hle r rfl
      by_cases hr : r = 1
      · subst hr; cases pc <;> simp [B.step, B.tick, B.mu, B.Idle]
      · have h1 : r - 1 < r := by omega
        cases pc <;> simp [B.step, B.tick, B.mu, B.Idle, hr] <;> omega
  | cpu =>
    have hd := dur_le p k
    have hm : top p * (k + 1) = top p * k + top p := by rw [Nat.mul_add, Nat.mul_one]
    cases pc with
    | init => exact ⟨fun n hn => (hle n hn).2, by simp [B.step, B.cpu, B.mu]⟩
    | start g => exact ⟨by intro n hn; simp [B.step, B.cpu] at hn; omega, by simp [B.step, B.cpu, B.mu]⟩
    | fin => refine ⟨fun n hn => (hle n hn).2, ?_⟩; simp only [B.step, B.cpu, B.mu]; refine ⟨by omega, fun h => by omega⟩
    | gc => refine ⟨fun n hn => (hle n hn).2, ?_⟩; simp only [B.step, B.cpu, B.mu]; refine ⟨by omega, fun h => by omega⟩
    | fetch => exact ⟨fun n hn => (hle n hn).2, by simp [B.step, B.cpu, B.mu]⟩
    | sel =>
      cases arm with
      | none => exact ⟨fun n hn => (hle n hn).2, by simp [B.step, B.cpu, B.mu]⟩
      | some r => exact ⟨fun n hn => (hle n hn).2, by simp [B.step, B.cpu, B.mu, B.Idle]⟩
    | led g =>
      have hr : arm.getD 0 ≤ max p.on p.off := by
        cases arm with
        | none => simp
        | some r => exact (hle r rfl).2
      refine ⟨fun n hn => (hle n hn).2, ?_⟩
      cases g
      · simp only [B.step, B.cpu, B.mu, Bool.false_eq_true, if_false]
        rw [hm]
        refine ⟨by unfold top; omega, fun h => by unfold top at h; omega⟩
      · simp only [B.step, B.cpu, B.mu, if_true]
        rw [hm]
        refine ⟨by unfold top; omega, fun h => by unfold top at h; omega⟩

/-- The invariants of the abstract program. -/
structure B.Ok (p : Cfg) (b : B) : Prop where
  wait : b.pc = .init ∨ (∃ h, b.pc = .start h) ∨ b.pc = .fetch → b.arm = none
  pos : ∀ n, b.arm = some n → 0 < n
  le : ∀ n, b.arm = some n → n ≤ max p.on p.off

theorem ok_step {p : Cfg} (hon : 0 < p.on ∧ 0 < p.off) {b : B} (h : b.Ok p) (c : Act) : (b.step p c).Ok p := by
  obtain ⟨h1, h2⟩ := inv_step hon h.wait h.pos c
  exact ⟨h1, h2, (mu_step (fun n hn => ⟨h.pos n hn, h.le n hn⟩) c).1⟩

theorem ok_run {p : Cfg} (hon : 0 < p.on ∧ 0 < p.off) : ∀ (l : List Act) {b : B}, b.Ok p → (B.run p b l).1.Ok p
  | [], _, h => h
  | c :: l, _, h => ok_run hon l (ok_step hon h c)

theorem run_append {p : Cfg} : ∀ (l l' : List Act) (b : B),
    B.run p b (l ++ l') = ((B.run p (B.run p b l).1 l').1, (B.run p b l).2 ++ (B.run p (B.run p b l).1 l').2)
  | [], l', b => by simp [B.run]
  | c :: l, l', b => by simp only [List.cons_append, B.run, run_append l l' (b.step p c), List.append_assoc]

theorem run_k {p : Cfg} : ∀ (l : List Act) (b : B), (B.run p b l).1.k = b.k + (B.run p b l).2.length
  | [], b => by simp [B.run]
  | c :: l, b => by
    simp only [B.run]
    rw [run_k l (b.step p c), step_k]
    simp only [List.length_append]
    omega

/-- A sequence of steps advances if it contains both a tick and a step of the processor. -/
theorem mu_run {p : Cfg} (hon : 0 < p.on ∧ 0 < p.off) : ∀ (l : List Act) {b : B}, b.Ok p →
    top p * b.k + (B.run p b l).1.mu ≤ top p * (B.run p b l).1.k + b.mu ∧
    (top p * b.k + (B.run p b l).1.mu = top p * (B.run p b l).1.k + b.mu →
      (b.Idle → .tick ∉ l) ∧ (¬ b.Idle → .cpu ∉ l))
  | [], b, _ => by simp [B.run]
  | c :: l, b, h => by
    obtain ⟨h1, h2, h3⟩ := mu_step (fun n hn => ⟨h.pos n hn, h.le n hn⟩) c
    obtain ⟨g1, g2⟩ := mu_run hon l (ok_step hon h c)
    simp only [B.run]
    refine ⟨by omega, fun he => ?_⟩
    obtain ⟨e1, e2⟩ := h3 (by omega)
    obtain ⟨e3, e4⟩ := g2 (by omega)
    cases c with
    | cpu =>
      obtain ⟨f1, f2⟩ := e1 rfl
      rw [f1] at e3
      exact ⟨fun hi => by simp [e3 hi], fun hi => (hi f2).elim⟩
    | tick =>
      obtain ⟨f1, f2⟩ := e2 rfl
      exact ⟨fun hi => (f1 hi).elim, fun _ => by simp [e4 f2]⟩

theorem mu_rounds {p : Cfg} (hon : 0 < p.on ∧ 0 < p.off) : ∀ (rs : List (List Act)) {b : B}, b.Ok p → (∀ r ∈ rs, .cpu ∈ r ∧ .tick ∈ r) →
    top p * b.k + (B.run p b rs.flatten).1.mu + rs.length ≤ top p * (B.run p b rs.flatten).1.k + b.mu
  | [], b, _, _ => by simp [B.run]
  | r :: rs, b, h, hr => by
    obtain ⟨g1, g2⟩ := mu_run hon r h
    obtain ⟨hr1, hr2⟩ := hr r (by simp)
    have hne : top p * b.k + (B.run p b r).1.mu ≠ top p * (B.run p b r).1.k + b.mu := by
      intro he
      obtain ⟨k1, k2⟩ := g2 he
      by_cases hi : b.Idle
      · exact k1 hi hr2
      · exact k2 hi hr1
    have ih := mu_rounds hon rs (ok_run hon r h) (fun q hq => hr q (by simp [hq]))
    simp only [List.flatten_cons, run_append, List.length_cons]
    omega

/-! ### On time -/

theorem run_idle {p : Cfg} {b : B} (h : b.Idle) : ∀ n, B.run p b (List.replicate n .cpu) = (b, [])
  | 0 => rfl
  | n + 1 => by
    have hs : b.step p .cpu = b := by
      obtain ⟨h1, h2⟩ := h
      simp only [B.step, B.cpu, h1, h2, if_false]
    have ho : b.out .cpu = [] := by simp only [B.out, h.1]
    rw [List.replicate_succ]
    simp only [B.run, hs, ho, run_idle h n, List.append_nil]

/-- Idle in phase `k`, which ends in `r` ticks. -/
def idleAt (k t r : Nat) : B := ⟨.sel, some r, k, t⟩

theorem run_round {p : Cfg} (hon : 0 < p.on ∧ 0 < p.off) {k t r n : Nat} (hr : 0 < r) (hn : 6 ≤ n) :
    B.run p (idleAt k t r) (.tick :: List.replicate n .cpu) =
      if r = 1 then (idleAt (k + 1) (t + 1) (dur p k), [(t + 1, decide (k % 2 = 0))]) else (idleAt k (t + 1) (r - 1), []) := by
  have hd : 0 < dur p k := by unfold dur; split; exact hon.1; exact hon.2
  by_cases h1 : r = 1
  · subst h1
    obtain ⟨j, rfl⟩ : ∃ j, n = j + 6 := ⟨n - 6, by omega⟩
    rw [if_pos rfl]
    have hi := run_idle (p := p) (b := idleAt (k + 1) (t + 1) (dur p k)) ⟨rfl, by simp [idleAt]⟩ j
    simp only [List.replicate_succ, B.run, idleAt, B.step, B.tick, B.cpu, B.out, if_true] at hi ⊢
    rw [hi]
    simp
  · rw [if_neg h1]
    have hi := run_idle (p := p) (b := idleAt k (t + 1) (r - 1)) ⟨rfl, by simp [idleAt]⟩ n
    simp only [B.run, idleAt, B.step, B.tick, B.out, h1, if_false, List.nil_append] at hi ⊢
    rw [hi]

/-- LED calls of the first `k` phases, on time. -/
def onTime (p : Cfg) (k : Nat) : List (Nat × Bool) := (List.range k).map fun i => (due p i, decide (i % 2 = 0))

theorem run_rounds {p : Cfg} (hon : 0 < p.on ∧ 0 < p.off) : ∀ (ks : List Nat) {k t r : Nat}, (∀ n ∈ ks, 6 ≤ n) → 0 < k → 0 < r →
    t + r = due p k → due p (k - 1) ≤ t →
    ∃ k' r', (B.run p (idleAt k t r) (ks.flatMap fun n => .tick :: List.replicate n .cpu)).1 = idleAt k' (t + ks.length) r' ∧
      onTime p k ++ (B.run p (idleAt k t r) (ks.flatMap fun n => .tick :: List.replicate n .cpu)).2 = onTime p k' ∧
      0 < k' ∧ 0 < r' ∧ t + ks.length + r' = due p k' ∧ due p (k' - 1) ≤ t + ks.length
  | [], k, t, r, _, hk, hr, he, hl => ⟨k, r, rfl, by simp [B.run], hk, hr, he, hl⟩
  | n :: ks, k, t, r, hn, hk, hr, he, hl => by
    have hrd := run_round hon (k := k) (t := t) hr (hn n (by simp))
    simp only [List.flatMap_cons, run_append, hrd]
    have hd : 0 < dur p k := by unfold dur; split; exact hon.1; exact hon.2
    by_cases h1 : r = 1
    · subst h1
      obtain ⟨k', r', g1, g2, g3, g4, g5, g6⟩ := run_rounds hon ks (k := k + 1) (t := t + 1) (r := dur p k) (fun q hq => hn q (by simp [hq]))
        (by omega) hd (by simp only [due]; omega) (by simp; omega)
      simp only [if_true, List.length_cons]
      refine ⟨k', r', by rw [g1]; congr 1; omega, ?_, g3, g4, by omega, by omega⟩
      rw [← g2, ← List.append_assoc]
      congr 1
      simp [onTime, List.range_succ, he]
    · obtain ⟨k', r', g1, g2, g3, g4, g5, g6⟩ := run_rounds hon ks (k := k) (t := t + 1) (r := r - 1) (fun q hq => hn q (by simp [hq]))
        hk (by omega) (by omega) (by omega)
      simp only [h1, if_false, List.length_cons, List.nil_append]
      exact ⟨k', r', by rw [g1]; congr 1; omega, g2, g3, g4, by omega, by omega⟩

theorem run_paced {p : Cfg} (hon : 0 < p.on ∧ 0 < p.off) {k0 : Nat} {ks : List Nat} (h0 : 3 ≤ k0) (hks : ∀ n ∈ ks, 6 ≤ n) :
    ∃ k r, (B.run p ⟨.init, none, 0, 0⟩ (paced k0 ks)).1 = idleAt k ks.length r ∧
      (B.run p ⟨.init, none, 0, 0⟩ (paced k0 ks)).2 = onTime p k ∧
      0 < k ∧ 0 < r ∧ ks.length + r = due p k ∧ due p (k - 1) ≤ ks.length := by
  obtain ⟨j, rfl⟩ : ∃ j, k0 = j + 3 := ⟨k0 - 3, by omega⟩
  have hi := run_idle (p := p) (b := idleAt 1 0 (dur p 0)) ⟨rfl, by simp [idleAt]⟩ j
  have hb : B.run p ⟨.init, none, 0, 0⟩ (List.replicate (j + 3) .cpu) = (idleAt 1 0 (dur p 0), onTime p 1) := by
    simp only [List.replicate_succ, B.run, idleAt, B.step, B.cpu, B.out] at hi ⊢
    simp only [Bool.false_eq_true, if_false, hi]
    rfl
  have hd : 0 < dur p 0 := hon.1
  obtain ⟨k, r, g1, g2, g3, g4, g5, g6⟩ := run_rounds hon ks (k := 1) (t := 0) (r := dur p 0) hks (by omega) hd (by simp [due]) (by simp [due])
  simp only [Nat.zero_add] at g1 g5 g6
  refine ⟨k, r, ?_, ?_, g3, g4, g5, g6⟩
  · simp only [paced, run_append, hb]; exact g1
  · simp only [paced, run_append, hb]; exact g2

theorem due_even (p : Cfg) : ∀ j, due p (2 * j) = j * (p.on + p.off) ∧ due p (2 * j + 1) = j * (p.on + p.off) + p.on
  | 0 => by simp [due, dur]
  | j + 1 => by
    obtain ⟨h1, h2⟩ := due_even p j
    have e : due p (2 * (j + 1)) = (j + 1) * (p.on + p.off) := by
      show due p (2 * j + 1) + dur p (2 * j + 1) = _
      rw [h2, Nat.add_mul, Nat.one_mul]
      have : dur p (2 * j + 1) = p.off := by unfold dur; rw [if_neg (by omega)]
      omega
    refine ⟨e, ?_⟩
    show due p (2 * (j + 1)) + dur p (2 * (j + 1)) = _
    have : dur p (2 * (j + 1)) = p.on := by unfold dur; rw [if_pos (by omega)]
    rw [e, this]

theorem wave_phase {p : Cfg} {k n : Nat} (h1 : due p k ≤ n) (h2 : n < due p (k + 1)) : wave p n = decide (k % 2 = 0) := by
  rcases Nat.mod_two_eq_zero_or_one k with hk | hk
  · obtain ⟨j, rfl⟩ : ∃ j, k = 2 * j := ⟨k / 2, by omega⟩
    obtain ⟨e1, e2⟩ := due_even p j
    rw [e1] at h1; rw [e2] at h2
    have : n % (p.on + p.off) = n - j * (p.on + p.off) := by
      have : n = (n - j * (p.on + p.off)) + j * (p.on + p.off) := by omega
      rw [this, Nat.add_mul_mod_self_right, Nat.mod_eq_of_lt (by omega)]; omega
    simp only [wave, this, hk, decide_true, decide_eq_true_eq]
    omega
  · obtain ⟨j, rfl⟩ : ∃ j, k = 2 * j + 1 := ⟨k / 2, by omega⟩
    obtain ⟨e1, e2⟩ := due_even p j
    have e3 := (due_even p (j + 1)).1
    rw [e2] at h1
    have h2' : n < (j + 1) * (p.on + p.off) := by rw [← e3]; exact h2
    rw [Nat.add_mul, Nat.one_mul] at h2'
    have : n % (p.on + p.off) = n - j * (p.on + p.off) := by
      have : n = (n - j * (p.on + p.off)) + j * (p.on + p.off) := by omega
      rw [this, Nat.add_mul_mod_self_right, Nat.mod_eq_of_lt (by omega)]; omega
    simp only [wave, this, hk, Nat.one_ne_zero, decide_false, decide_eq_false_iff_not]
    omega

end Verif.App.Blinky
