import Verif.Link.Props
import Verif.Fwk.TraceDemo
/-
A concrete channel: a program with timers, queues, active objects and a state machine, whose trace points are mixed.
-/
namespace Verif.Link.Demo
open Verif Verif.Trc Verif.Trc.Spec

/-- The configuration of `exK` with a larger buffer, low watermarks and without run-time filters. -/
def k : PCfg := { exK with sz := 2048, rtfilEn := false, mpLwmEn := true }

/-- Addresses: active object `i` at 0x1000 + i, deferral queue `i` at 0x2000 + i, vertex `i` at 0x3000 + i, function `i` at
0x4000 + i. -/
def D : Dict :=
  ⟨fun a => if 0x1000 ≤ a ∧ a < 0x2000 then some (a - 0x1000) else none,
   fun a => if 0x2000 ≤ a ∧ a < 0x3000 then some (a - 0x2000) else none,
   fun a => if 0x3000 ≤ a ∧ a < 0x4000 then some (a - 0x3000) else none,
   fun a => if 0x4000 ≤ a ∧ a < 0x5000 then some (a - 0x4000) else none⟩

def ao (i : Nat) : Ao := ⟨0x1000 + i, 3⟩

def tmrPt : Timer.TRec → Pt
  | .init t s => .tmrInit t s
  | .start t a n p => .tmrStart t ⟨a, 1⟩ n p
  | .stop t n p => .tmrStop t n p
  | .tout t s a => .tmrTout t s ⟨a, 1⟩
  | .rem t => .tmrRem t

def quePt : Queue.QRec → Pt
  | .init q n s => .queInit q (if s then 0x1000 else 0) n
  | .get q n => .queGet q n
  | .getLast q => .queGetLast q
  | .fifo q n m => .queFifo q n m
  | .lifo q n m => .queLifo q n m
  | .full q => .queFull q
  | .dpt q => .queDpt q

def fwkPt : Fwk.Trace.Rec → Pt
  | .reg a p => .smaReg (ao a) p
  | .unreg a p => .smaUnreg (ao a) p
  | .act a p n => .smaAct (ao a) p n
  | .term a p => .smaTerm (ao a) p
  | .fifo a s p r n m => .smaFifo (ao a) ⟨s, p, r⟩ 0 p r n m
  | .lifo a s p r n m => .smaLifo (ao a) ⟨s, p, r⟩ 0 p r n m
  | .get a s p r n m => .smaGet (ao a) ⟨s, p, r⟩ p r n m
  | .defer q s => .smaDefer (0x2000 + q) ⟨s, 0, 0⟩
  | .rcall s => .smaRcall (ao 0) ⟨s, 0, 0⟩
  | .epreg n ss es nb => .fwkEpreg n ss es nb
  | .ae es s p r u => .fwkAe es ⟨s, (p + 1) % 256, r⟩ u 0 0
  | .gc s p r => .fwkGc ⟨s, p, r⟩ p r
  | .gcr s p r u => .fwkGcr ⟨s, (p + 1) % 256, r⟩ u 0 0

def v (i : SM.Vid) : Nat := 0x3000 + i
def v0 : Option SM.Vid → Nat
  | none => 0
  | some i => v i

def smPt (a : Ao) : SM.TRec → Pt
  | .init s => .smInit a (v s)
  | .dch e s => .smDch a ⟨e, 0, 0⟩ (v s)
  | .trn s t => .smTrn a (v s) (v0 t)
  | .tsState s => .smTsState a (v s)
  | .exe b s f => .smExeAct (match b with | .eff => 0 | .en => 1 | .ex => 2) a (v0 s) (0x4000 + f)
  | .exState s => .smExstate a (v s)
  | .enState s => .smEnstate a (v s)
  | .nenex n x => .smNenex a n x
  | .state s => .smState a (v s)
  | .evtProc => .smEvtProc a
  | .evtNFound e => .smEvtNfound a ⟨e, 0, 0⟩
  | .grdFalse => .smGrdFalse a
  | .cndNFound => .smCndNfound a
  | .unknState => .smUnknState a
  | .exHlevel => .smExHlevel a
  | .exTseg => .smExTseg a

/-- Take turns. -/
def mix : List Pt → List Pt → List Pt
  | x :: l, y :: l' => x :: y :: mix l l'
  | [], l => l
  | l, [] => l

def tmrH : List (Timer.Op × (Nat → Nat)) := Timer.TraceDemo.h1
def tmrRs : List Timer.TRec := Timer.records (runOps (fun s x => Timer.tstep Timer.TraceDemo.cfg x.2 s x.1) (Timer.moduleInit Timer.TraceDemo.mem) tmrH).1
def queRs : List Queue.QRec := Queue.records (runOps (Queue.mstep Queue.cfg8) (fun _ => none) Queue.traceOps).1
def smOs : List (SM.Op × Nat) := [(.dispatch 2, 50), (.dispatch 5, 50)]
def smRs : List SM.TRec := (SM.tLife SM.Demo.m SM.Demo.fns SM.Demo.env 50 smOs).1.trc
def fwkRs : List Fwk.Trace.Rec := Fwk.Trace.recs Fwk.Trace.tr2

/-- All trace points, and some others. -/
def pts : List Pt :=
  mix (mix (tmrRs.map tmrPt) (queRs.map quePt)) (mix (fwkRs.map fwkPt) (smRs.map (smPt (ao 0)))) ++ [.fwkAo (ao 0) [65, 0], .smEvtProc (ao 1)]

def acts : List Act := pts.map fun p => .pt p 7


theorem pts_small : (wire k.cfg (emitted exF On.none (calls k (.pt (.fwkTcfg 1000) 0) ++ acts.flatMap (calls k)))).length ≤ k.sz := by
  decide +kernel

/-- Boolean form of `Fits`. -/
def fitsB (p : Pt) : Bool := (says p).2.all fun x => x.1 == "pool" || x.1 == "nUsed" ||
  (match x.2.2 with | .int n => decide (n < 256 ^ size k x.2.1) | _ => true)

theorem fitsB_ok {p : Pt} (h : fitsB p = true) : Fits k p := by
  intro x hx h1 h2 n hn
  have := List.all_eq_true.mp h x hx
  simpa [h1, h2, hn] using this

/-- Not a user trace, not the announcement, and no string but "A". -/
def plainB : Pt → Bool
  | .fwkAo _ nm => nm == [65, 0]
  | .fwkObj .. | .fwkSig .. | .fwkFun .. | .fwkTusr .. | .fwkAssert .. | .fwkState .. | .fwkTimer .. | .fwkEpool .. | .fwkQueue ..
  | .fwkActor .. | .fwkTcfg .. | .user .. => false
  | _ => true

theorem plainB_ok {p : Pt} (h : plainB p = true) : ActOk exF k (.pt p 7) := by
  refine ⟨?_, (fun hr : k.rtfilEn = true => absurd hr (by decide)), ?_⟩
  · cases p <;> first | (exact ⟨trivial, trivial⟩) | (exfalso; simp [plainB] at h; done) | skip
    all_goals
      simp only [plainB, beq_iff_eq] at h
      subst h
      exact ⟨by simp [StrOk], trivial⟩
  · intro hz he
    subst he
    cases h

theorem plain_all : pts.all plainB = true := by decide +kernel
theorem fits_all : pts.all fitsB = true := by decide +kernel

theorem points_acts : points acts = pts := by
  unfold acts
  generalize pts = l
  induction l with
  | nil => rfl
  | cons p l ih => exact congrArg (p :: ·) ih

/-- Without run-time filters everything that is compiled in leaves a record. -/
theorem leaves_all {p : Pt} (h : plainB p = true) (on : On) : leaves exF k on p = true := by
  cases p <;> first | (simp [plainB] at h; done) | (simp [leaves, says, included, smSwitch, k, exK, isSymbol]; done) | skip

theorem unfiltered (R : Pt → Bool) : Unfiltered exF k R On.none acts := by
  have h := plain_all
  unfold acts
  generalize pts = l at h
  induction l with
  | nil => trivial
  | cons p l ih =>
    simp only [List.all_cons, Bool.and_eq_true] at h
    exact ⟨fun _ => leaves_all h.1 _, ih h.2⟩

theorem channel : ∃ bytes, Channel exF k 1000 0 (List.replicate k.sz 0) acts bytes := by
  refine small_channel (by constructor <;> decide) (by decide) (by decide) rfl ?_ pts_small
  intro x hx
  simp only [acts, List.mem_map] at hx
  obtain ⟨p, hp, rfl⟩ := hx
  exact plainB_ok (List.all_eq_true.mp plain_all p hp)

theorem pts_tmr : pts.filterMap tmrOf = tmrRs := by decide +kernel
theorem pts_que : pts.filterMap queOf = queRs := by decide +kernel
theorem pts_fwk : pts.filterMap (fwkOf k D) = fwkRs := by decide +kernel
theorem pts_sm : pts.filterMap (smOf D 0x1000) = smRs := by decide +kernel

attribute [local irreducible] Unfiltered acts pts

-- bytes_tell_records, host_knows_from_bytes: from the bytes of this run a host knows that timer 2 runs, that signals 21 and 6 wait
-- for object 0, that queue 2 holds one element, and the state of the state machine
example : ∃ bytes ds a, Channel exF k 1000 0 (List.replicate k.sz 0) acts bytes ∧ host (receive bytes) = some (a, ds) ∧
    (∃ v, Timer.Host.readAll (fun _ => none) (ds.filterMap readTmr) = some v ∧ v 2 = some (6, 4) ∧ v 1 = none) ∧
    (∃ v, Queue.Host.readAll (fun _ => none) (ds.filterMap readQue) = some v ∧ v 2 = some ⟨1, false, 1, 0⟩) ∧
    (∃ v, Fwk.Trace.Host.init.readAll (ds.filterMap (readFwk D)) = some v ∧ v.q 0 = [21, 6]) ∧
    ∃ r obs, SM.Spec.Reader.start.read SM.Demo.m SM.Demo.fns (ds.filterMap (readSm D 0x1000)) = some (r, obs) ∧
      r.cur = (SM.life SM.Demo.m SM.Demo.env 50 smOs).1.state := by
  obtain ⟨bytes, ch⟩ := channel
  obtain ⟨a, ds, h, h1, h2, _, h4, h5⟩ := host_knows_from_bytes ch
    (fun p hp => fitsB_ok (List.all_eq_true.mp fits_all p (points_acts ▸ hp))) rfl rfl
  refine ⟨bytes, ds, a, ch, h, ?_, ?_, ?_, ?_⟩
  · obtain ⟨os, s, r⟩ := Timer.TraceDemo.run1
    have hos : Timer.records os = tmrRs := by
      have := r.run
      unfold tmrRs tmrH
      rw [this]
    obtain ⟨v, g1, g2⟩ := h1 _ _ _ _ _ r (by rw [points_acts, hos]; exact pts_tmr) (unfiltered _)
    exact ⟨v, g1, by rw [g2]; decide +kernel, by rw [g2]; decide +kernel⟩
  · obtain ⟨v, g1, g2⟩ := h2 Queue.cfg8 Queue.traceOps (by
      intro op hop
      simp only [Queue.traceOps, List.mem_cons, List.not_mem_nil, or_false] at hop
      rcases hop with rfl | rfl | rfl | rfl | rfl | rfl | rfl | rfl | rfl | rfl | rfl | rfl | rfl <;>
        first | exact trivial | exact Queue.Setup.of _ _ _ _ (by decide)) (by rw [points_acts]; exact pts_que) (unfiltered _)
    exact ⟨v, g1, by rw [g2 _ rfl]; decide +kernel⟩
  · obtain ⟨os, t, r, hg⟩ := Fwk.Trace.tmk (tops := Fwk.Trace.tr2) (by decide +kernel) (by decide +kernel)
    have hos : Fwk.Trace.records os = fwkRs := by simp [fwkRs, Fwk.Trace.recs, hg]
    have hu : ds.filterMap (readFwk D) = fwkRs := by
      obtain ⟨_, ds', e, _, _, _, e4, _⟩ := bytes_tell_records ch
        (fun p hp => fitsB_ok (List.all_eq_true.mp fits_all p (points_acts ▸ hp))) rfl rfl
      rw [h] at e
      cases e
      rw [e4 D (unfiltered _), points_acts]
      exact pts_fwk
    obtain ⟨v, g1, _, _⟩ := h4 D _ _ _ _ _ _ r (by rw [points_acts, hos]; exact pts_fwk) (unfiltered _)
    refine ⟨v, g1, ?_⟩
    rw [hu] at g1
    have : ((Fwk.Trace.Host.init.readAll fwkRs).map fun v => v.q 0) = some [21, 6] := by decide +kernel
    rw [g1] at this
    simpa using this
  · obtain ⟨r, g1, g2⟩ := h5 D 0x1000 SM.Demo.m SM.Demo.fns SM.Demo.env 50 smOs (by decide +kernel) (by rw [points_acts]; exact pts_sm) (unfiltered _)
    exact ⟨r, _, g1, g2⟩

end Verif.Link.Demo
