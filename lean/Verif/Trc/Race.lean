import Verif.Trc.StreamLemmas
/-
C144: the flush of the Linux board support package. `rkh_trc_flush` (demo/libbsp/platform/80x86/linux/trace_io.c:172-188) calls
`rkh_trc_get` outside any critical section (demo/libbsp/platform/80x86/linux/hook.c:159-165), while the timer and keyboard threads
write records with `rkh_trc_put` (inside critical sections, so one at a time).
-/
namespace Verif.Trc.Race
open Verif

/-- Where the flushing thread is inside `rkh_trc_get` (rkhtrc_stream.c:84-103), with its registers. -/
inductive G where
  /-- before the test `trcqty == 0` -/
  | test
  /-- before reading `trcout` in `trByte = trcout++` -/
  | readOut
  /-- before writing it -/
  | writeOut (p : Nat)
  /-- before reading `trcqty` in `--trcqty` -/
  | readQty (p : Nat)
  /-- before writing it -/
  | writeQty (p r : Nat)
  /-- before `if (trcout >= trcend) trcout = trcstm` -/
  | wrap (p : Nat)
  /-- before sending `*d` (trace_io.c:180, 185) -/
  | send (p : Nat)
  deriving DecidableEq, Repr

/-- Where the writing thread is inside `rkh_trc_put` (rkhtrc_stream.c:142-158), with its registers. -/
inductive P where
  | idle
  /-- before reading `trcqty` in `++trcqty` -/
  | readQty
  /-- before writing it -/
  | writeQty (r : Nat)
  /-- before `if (trcin == trcend) trcin = trcstm` -/
  | wrap
  /-- before `if (trcqty >= RKH_CFG_TRC_SIZEOF_STREAM)` and its body -/
  | limit
  deriving DecidableEq, Repr

/-- The shared stream, both threads, the channel. -/
structure St where
  s : Stream
  g : G
  p : P
  chan : List Byte
  deriving DecidableEq, Repr

/-- A step of one of the threads. `put b` begins the writing of a byte (`*trcin++ = b`); it waits while another is being written. -/
inductive Op where
  | flush
  | put (b : Byte)
  | write
  deriving DecidableEq, Repr

/-- One access of the flushing thread. Simplification: `wrap` and `limit` below are one step each. -/
def flushStep (sz : Nat) (st : St) : Res St :=
  match st.g with
  | .test => .ok (if st.s.qty = 0 then st else { st with g := .readOut })
  | .readOut => .ok { st with g := .writeOut st.s.tout }
  | .writeOut p => .ok { st with s := { st.s with tout := p + 1 }, g := .readQty p }
  | .readQty p => .ok { st with g := .writeQty p st.s.qty }
  | .writeQty p r => .ok { st with s := { st.s with qty := (r + qtyMod sz - 1) % qtyMod sz }, g := .wrap p }
  | .wrap p => .ok { st with s := { st.s with tout := if sz ≤ st.s.tout then 0 else st.s.tout }, g := .send p }
  | .send p => (RdyGrp.ix st.s.mem p).map' fun b => { st with chan := st.chan ++ [b], g := .test }

/-- One access of the writing thread. -/
def writeStep (sz : Nat) (st : St) : St :=
  match st.p with
  | .idle => st
  | .readQty => { st with p := .writeQty st.s.qty }
  | .writeQty r => { st with s := { st.s with qty := (r + 1) % qtyMod sz }, p := .wrap }
  | .wrap => { st with s := { st.s with tin := if st.s.tin = sz then 0 else st.s.tin }, p := .limit }
  | .limit => if sz ≤ st.s.qty then { st with s := { st.s with qty := sz, tout := st.s.tin }, p := .idle } else { st with p := .idle }

/-- One step. -/
def step (sz : Nat) (st : St) : Op → Res St
  | .flush => flushStep sz st
  | .put b =>
    match st.p with
    | .idle => (wr st.s.mem st.s.tin b).map' fun m => { st with s := { st.s with mem := m, tin := st.s.tin + 1 }, p := .readQty }
    | _ => .ok st
  | .write => .ok (writeStep sz st)

/-- A history: any interleaving. -/
def run (sz : Nat) : St → List Op → Res St
  | st, [] => .ok st
  | st, o :: l => (step sz st o).bind fun st => run sz st l

/-- The initial program. -/
def start (sz : Nat) (mem : List Byte) : Res St := (streamInit sz mem).map' fun s => ⟨s, .test, .idle, []⟩

end Verif.Trc.Race

namespace Verif.Trc.Race.Spec
open Verif

/-- A call that is not interrupted: its accesses one after the other. -/
def accesses : SOp → List Op
  | .put b => [.put b, .write, .write, .write, .write]
  | _ => [.flush, .flush, .flush, .flush, .flush, .flush, .flush]

/-- Only bytes are written and read. -/
def Simple : SOp → Prop
  | .put _ => True
  | .get => True
  | _ => False

/-- The bytes read. -/
def got : List SOut → List Byte
  | [] => []
  | .byte (some b) :: l => b :: got l
  | _ :: l => got l

end Verif.Trc.Race.Spec

namespace Verif.Trc.Race
open Verif Trc.Spec Spec

/-! ## C144 -/

/-- Pointers stay in range. -/
structure Safe (sz : Nat) (st : St) : Prop where
  pos : 0 < sz
  len : st.s.mem.length = sz
  tin : match st.p with
    | .readQty | .writeQty _ | .wrap => st.s.tin ≤ sz
    | _ => st.s.tin < sz
  tout : match st.g with
    | .test | .readOut => st.s.tout < sz
    | .writeOut p => p < sz ∧ st.s.tout < sz
    | .readQty p | .writeQty p _ | .wrap p => p < sz ∧ st.s.tout ≤ sz
    | .send p => p < sz ∧ st.s.tout < sz

theorem step_safe {sz : Nat} {st : St} (h : Safe sz st) (o : Op) : ∃ st', step sz st o = .ok st' ∧ Safe sz st' := by
  obtain ⟨s, g, p, chan⟩ := st
  obtain ⟨h0, hl, hi, ho⟩ := h
  simp only at hl hi ho
  cases o with
  | flush =>
    cases g with
    | test =>
      by_cases hq : s.qty = 0
      · exact ⟨⟨s, .test, p, chan⟩, by simp only [step, flushStep, hq, if_true], ⟨h0, hl, hi, ho⟩⟩
      · exact ⟨⟨s, .readOut, p, chan⟩, by simp only [step, flushStep, hq, if_false], ⟨h0, hl, hi, ho⟩⟩
    | readOut => exact ⟨_, rfl, ⟨h0, hl, hi, ⟨ho, ho⟩⟩⟩
    | writeOut q => exact ⟨_, rfl, ⟨h0, hl, hi, ⟨ho.1, ho.1⟩⟩⟩
    | readQty q => exact ⟨_, rfl, ⟨h0, hl, hi, ho⟩⟩
    | writeQty q r => exact ⟨_, rfl, ⟨h0, hl, hi, ho⟩⟩
    | wrap q =>
      refine ⟨_, rfl, ⟨h0, hl, hi, ⟨ho.1, ?_⟩⟩⟩
      show (if sz ≤ s.tout then 0 else s.tout) < sz
      split <;> omega
    | send q =>
      have hq : q < s.mem.length := by rw [hl]; exact ho.1
      exact ⟨⟨s, .test, p, chan ++ [s.mem[q]]⟩, by
        simp only [step, flushStep, RdyGrp.ix, List.getElem?_eq_getElem hq, Res.map'], ⟨h0, hl, hi, ho.2⟩⟩
  | put b =>
    cases p with
    | idle =>
      have hin : s.tin < s.mem.length := by rw [hl]; exact hi
      exact ⟨⟨{ s with mem := s.mem.set s.tin b, tin := s.tin + 1 }, g, .readQty, chan⟩, by simp only [step, wr, hin, if_true, Res.map'],
        ⟨h0, by simp [hl], hi, ho⟩⟩
    | readQty => exact ⟨_, rfl, ⟨h0, hl, hi, ho⟩⟩
    | writeQty r => exact ⟨_, rfl, ⟨h0, hl, hi, ho⟩⟩
    | wrap => exact ⟨_, rfl, ⟨h0, hl, hi, ho⟩⟩
    | limit => exact ⟨_, rfl, ⟨h0, hl, hi, ho⟩⟩
  | write =>
    cases p with
    | idle => exact ⟨_, rfl, ⟨h0, hl, hi, ho⟩⟩
    | readQty => exact ⟨_, rfl, ⟨h0, hl, hi, ho⟩⟩
    | writeQty r => exact ⟨_, rfl, ⟨h0, hl, hi, ho⟩⟩
    | wrap =>
      refine ⟨_, rfl, ⟨h0, hl, ?_, ho⟩⟩
      show (if s.tin = sz then 0 else s.tin) < sz
      have : s.tin ≤ sz := hi
      split <;> omega
    | limit =>
      have hi : s.tin < sz := hi
      by_cases hq : sz ≤ s.qty
      · refine ⟨⟨{ s with qty := sz, tout := s.tin }, g, .idle, chan⟩, by simp only [step, writeStep, hq, if_true], ⟨h0, hl, hi, ?_⟩⟩
        cases g with
        | test => exact hi
        | readOut => exact hi
        | writeOut q => exact ⟨ho.1, hi⟩
        | readQty q => exact ⟨ho.1, Nat.le_of_lt hi⟩
        | writeQty q r => exact ⟨ho.1, Nat.le_of_lt hi⟩
        | wrap q => exact ⟨ho.1, Nat.le_of_lt hi⟩
        | send q => exact ⟨ho.1, hi⟩
      · exact ⟨⟨s, g, .idle, chan⟩, by simp only [step, writeStep, hq, if_false], ⟨h0, hl, hi, ho⟩⟩

theorem run_safe {sz : Nat} : ∀ (ops : List Op) {st : St}, Safe sz st → ∃ st', run sz st ops = .ok st' := by
  intro ops
  induction ops with
  | nil => intro st _; exact ⟨st, rfl⟩
  | cons o ops ih =>
    intro st h
    obtain ⟨st1, h1, h2⟩ := step_safe h o
    obtain ⟨st', h3⟩ := ih h2
    exact ⟨st', by simp only [run, h1, Res.bind, h3]⟩

/-- **C144** Whatever the interleaving of the flushing and the writing thread, no access leaves the storage of the stream. -/
theorem race_stays_inside (sz : Nat) (hsz : 0 < sz ∧ sz ≤ 2048) (mem : List Byte) (hm : mem.length = sz) (ops : List Op) :
    ∃ st st', start sz mem = .ok st ∧ run sz st ops = .ok st' := by
  obtain ⟨s, h1, h2⟩ := streamInit_rep hsz mem hm
  have hs : Safe sz ⟨s, .test, .idle, []⟩ := ⟨hsz.1, h2.len, by
    show s.tin < sz
    rw [h2.tin]; exact idx_lt h2.tout h2.le, h2.tout⟩
  obtain ⟨st', h3⟩ := run_safe ops hs
  exact ⟨_, st', by simp only [start, h1, Res.map'], h3⟩

theorem run_append {sz : Nat} : ∀ (l m : List Op) {st st' : St}, run sz st l = .ok st' → run sz st (l ++ m) = run sz st' m := by
  intro l
  induction l with
  | nil => intro m st st' h; simp only [run, Res.ok.injEq] at h; rw [h]; rfl
  | cons o l ih =>
    intro m st st' h
    simp only [run, List.cons_append] at h ⊢
    obtain ⟨a, h1, h2⟩ := Res.bind'_eq_ok.1 h
    rw [h1]; exact ih m h2

/-- An undisturbed `rkh_trc_put`. -/
theorem put_undisturbed {sz : Nat} {s s' : Stream} {b : Byte} (chan : List Byte) (h : put sz s b = .ok s') :
    run sz ⟨s, .test, .idle, chan⟩ (accesses (.put b)) = .ok ⟨s', .test, .idle, chan⟩ := by
  unfold put at h
  rw [Res.map'_eq_ok] at h
  obtain ⟨m, hm, rfl⟩ := h
  simp only [accesses, run, step, hm, Res.map', Res.bind, writeStep]
  by_cases hq : sz ≤ (s.qty + 1) % qtyMod sz
  · simp only [hq, if_true]
  · simp only [hq, if_false]

/-- An undisturbed `rkh_trc_get`. -/
theorem get_undisturbed {sz : Nat} {s s' : Stream} {o : Option Byte} (chan : List Byte) (hq : s.qty < qtyMod sz)
    (h : get sz s = .ok (s', o)) :
    run sz ⟨s, .test, .idle, chan⟩ (accesses .get) = .ok ⟨s', .test, .idle, chan ++ o.toList⟩ := by
  unfold get at h
  split at h
  · rename_i h0
    simp only [Res.ok.injEq, Prod.mk.injEq] at h
    obtain ⟨rfl, rfl⟩ := h
    simp [accesses, run, step, flushStep, h0, Res.bind]
  · rename_i h0
    rw [Res.map'_eq_ok] at h
    obtain ⟨b, hb, he⟩ := h
    simp only [Prod.mk.injEq] at he
    obtain ⟨rfl, rfl⟩ := he
    have hm : (s.qty + qtyMod sz - 1) % qtyMod sz = s.qty - 1 := by
      rw [show s.qty + qtyMod sz - 1 = s.qty - 1 + qtyMod sz by omega, Nat.add_mod_right, Nat.mod_eq_of_lt (by omega)]
    simp only [accesses, run, step, flushStep, h0, if_false, Res.bind, hb, Res.map', hm]
    rfl

theorem undisturbed {sz : Nat} (hsz : sz ≤ 2048) : ∀ (ops : List SOp) {s : Stream} {u chan : List Byte}, Rep sz s u → (∀ o ∈ ops, Simple o) →
    ∃ st outs u', run sz ⟨s, .test, .idle, chan⟩ (ops.flatMap accesses) = .ok st ∧ Trc.Spec.Run sz u ops outs u' ∧ st.chan = chan ++ got outs := by
  intro ops
  induction ops with
  | nil => intro s u chan _ _; exact ⟨_, [], u, rfl, .nil u, by simp [got]⟩
  | cons o ops ih =>
    intro s u chan h hs
    have hs' : ∀ o ∈ ops, Simple o := fun x hx => hs x (by simp [hx])
    cases o with
    | put b =>
      obtain ⟨s1, h1, h2⟩ := put_rep hsz h b
      obtain ⟨st, outs, u', k1, k2, k3⟩ := ih (chan := chan) h2 hs'
      exact ⟨st, .unit :: outs, u', by rw [List.flatMap_cons, run_append _ _ (put_undisturbed chan h1)]; exact k1, .cons (.put u b) k2, k3⟩
    | get =>
      obtain ⟨s1, o, u1, h1, h2, h3⟩ := get_rep h
      have hq : s.qty < qtyMod sz := by
        have h5 := h.qty
        have h6 := h.le
        rcases qtyMod_gt hsz with h7 | h7 <;> omega
      obtain ⟨st, outs, u', k1, k2, k3⟩ := ih (chan := chan ++ o.toList) h2 hs'
      refine ⟨st, .byte o :: outs, u', by rw [List.flatMap_cons, run_append _ _ (get_undisturbed chan hq h1)]; exact k1, .cons h3 k2, ?_⟩
      rw [k3]
      cases o <;> simp [got]
    | block n => exact (hs _ (List.mem_cons_self ..)).elim
    | whole d n => exact (hs _ (List.mem_cons_self ..)).elim

/-- **C144** (part) If no write happens during a call of `rkh_trc_get` and no read during one of `rkh_trc_put`, the channel carries what a
stream that keeps the newest `sz` unread bytes (C52) hands over. Missing: that it does so for all interleavings, which is false. -/
theorem unprotected_flush_partial (sz : Nat) (hsz : 0 < sz ∧ sz ≤ 2048) (mem : List Byte) (hm : mem.length = sz) (ops : List SOp)
    (hs : ∀ o ∈ ops, Simple o) :
    ∃ st st' outs u, start sz mem = .ok st ∧ run sz st (ops.flatMap accesses) = .ok st' ∧ Trc.Spec.Run sz [FLG] ops outs u ∧ st'.chan = got outs := by
  obtain ⟨s, h1, h2⟩ := streamInit_rep hsz mem hm
  obtain ⟨st', outs, u', k1, k2, k3⟩ := undisturbed hsz.2 ops (chan := []) h2 hs
  exact ⟨⟨s, .test, .idle, []⟩, st', outs, u', by simp only [start, h1, Res.map'], k1, k2, by simpa using k3⟩

/-- The demo: four bytes with arbitrary contents at start-up. -/
def st4 : St := ⟨⟨[FLG, 0xAA, 0xAB, 0xAC], 1, 0, 1⟩, .test, .idle, []⟩

/-- A whole undisturbed read. -/
def get7 : List Op := [.flush, .flush, .flush, .flush, .flush, .flush, .flush]
/-- A whole undisturbed write. -/
def put5 (b : Byte) : List Op := [.put b, .write, .write, .write, .write]

/-- The writer has read the number of bytes, the reader decrements it, the writer stores its sum: the number is too large by one. -/
def tooMany : List Op :=
  put5 1 ++ [.flush, .flush, .flush, .put 2, .write, .flush, .flush, .write, .write, .write, .flush, .flush] ++ get7 ++ get7 ++ get7

/-- The other way round: the number is too small by one. -/
def tooFew : List Op :=
  put5 1 ++ [.flush, .flush, .flush, .flush, .put 2, .write, .write, .write, .write, .flush, .flush, .flush] ++ get7 ++ get7

/-- **C144** fails: with the first interleaving the channel carries a byte that was never written, and the next byte written is not sent
by the next read; with the second one a byte written is not sent although the flush ended with nothing left to read. -/
theorem unprotected_flush_fails :
    start 4 [0, 0xAA, 0xAB, 0xAC] = .ok st4 ∧
    (run 4 st4 tooMany).map' (fun st => st.chan) = .ok [FLG, 1, 2, 0xAC] ∧
    (run 4 st4 (tooMany ++ put5 3 ++ get7)).map' (fun st => st.chan) = .ok [FLG, 1, 2, 0xAC, FLG] ∧
    (run 4 st4 tooFew).map' (fun st => (st.chan, st.s.qty)) = .ok ([FLG, 1], 0) := by decide +kernel

/-- The hypotheses of the partial theorem are met by a history that wraps around and overflows. -/
example : (∀ o ∈ [SOp.put 1, .put 2, .put 3, .put 4, .get, .get], Simple o) ∧
    (run 4 st4 ([SOp.put 1, .put 2, .put 3, .put 4, .get, .get].flatMap accesses)).map' (fun st => st.chan) = .ok [1, 2] := by
  refine ⟨by simp [Simple], by decide +kernel⟩

end Verif.Trc.Race
