import Verif.Trc.StreamLemmas
/-
C142, C143: flushing the trace stream while records are written. `rkh_trc_flush` of the board support packages takes a block
inside a critical section and sends it outside, so that trace records may be written between two bytes of a block.
-/
namespace Verif.Trc.Flush
open Verif

/-- A program that traces and flushes. -/
structure St where
  /-- The trace stream. -/
  s : Stream
  /-- One entry for each context that flushes: `none` if it is not sending, else the pointer into the stream and the number of bytes
  left to send. -/
  fl : List (Option (Nat × Nat))
  /-- The bytes on the channel. -/
  chan : List Byte
  deriving DecidableEq, Repr

/-- `rkh_trc_get_block` (rkhtrc_stream.c:105-140) with its real result, a pointer (an index of the storage) and a number of bytes;
`none` is NULL. -/
def getBlockP (sz : Nat) (s : Stream) (nget : Nat) : Stream × Option (Nat × Nat) :=
  if s.qty = 0 then (s, none)
  else
    let n := sz - s.tout
    let n := if s.qty < n then s.qty else n
    let n := if nget < n then nget else n
    ({ s with tout := if sz ≤ s.tout + n then 0 else s.tout + n, qty := s.qty - n }, some (s.tout, n))

/-- What can happen: a byte of a record is written (inside a critical section), context `i` takes a block of at most `n` bytes (the
critical section of `rkh_trc_flush`), context `i` sends the next byte of its block. -/
inductive Op where
  | put (b : Byte)
  | grab (i n : Nat)
  | send (i : Nat)
  deriving DecidableEq, Repr

/-- One step. Models the loop of `rkh_trc_flush` (demo/libbsp/platform/80x86/win/trace_io.c:166-194,
demo/libbsp/platform/cfv1/DEMOQUE128/trace_io.c:100-124, demo/libbsp/platform/arm-cortex/arm_cm4f/twr_k60/bsp.c:150-172); `put_nchar`
and its like read the block byte by byte. A context that is sending does not take another block, one that is not has nothing
to send. -/
def step (sz : Nat) (st : St) : Op → Res St
  | .put b => (put sz st.s b).map' fun s => { st with s := s }
  | .grab i n =>
    match st.fl[i]? with
    | some none =>
      let r := getBlockP sz st.s n
      .ok { st with s := r.1, fl := st.fl.set i (match r.2 with | some (p, k) => if k = 0 then none else some (p, k) | none => none) }
    | _ => .ok st
  | .send i =>
    match st.fl[i]? with
    | some (some (p, r)) =>
      (RdyGrp.ix st.s.mem p).map' fun b =>
        { st with chan := st.chan ++ [b], fl := st.fl.set i (if r - 1 = 0 then none else some (p + 1, r - 1)) }
    | _ => .ok st

/-- A history. -/
def run (sz : Nat) : St → List Op → Res St
  | st, [] => .ok st
  | st, o :: l => (step sz st o).bind fun st => run sz st l

end Verif.Trc.Flush

namespace Verif.Trc.Flush.Spec
open Verif

/-- Number of bytes that have been taken from the stream and are not sent yet. -/
def unsent (st : St) : Nat := (st.fl.map fun x => match x with | some (_, r) => r | none => 0).sum

/-- One context flushes: it takes a block when it has sent the one before. -/
def Turn (st : St) : Op → Prop
  | .put _ => True
  | .grab i _ => st.fl[i]? = some none
  | .send i => ∃ p r, st.fl[i]? = some (some (p, r))

/-- While a block is being sent, the stream has room for the bytes being written beside it. -/
def Room (sz : Nat) (st : St) : Op → Prop
  | .put _ => unsent st = 0 ∨ st.s.qty + unsent st < sz
  | _ => True

/-- The stream never overflows, counting the block being sent. -/
def NoOverflow (sz : Nat) (st : St) : Op → Prop
  | .put _ => st.s.qty + unsent st < sz
  | _ => True

/-- Every step of the history satisfies `P`. -/
def Along (sz : Nat) (P : St → Op → Prop) : St → List Op → Prop
  | _, [] => True
  | st, o :: l => P st o ∧ ∀ st', step sz st o = .ok st' → Along sz P st' l

/-- The calls on the stream, as if blocks were sent at the moment they are taken. -/
def calls : List Op → List SOp
  | [] => []
  | .put b :: l => .put b :: calls l
  | .grab _ n :: l => .block n :: calls l
  | .send _ :: l => calls l

/-- The bytes handed over by the block reads. -/
def handed : List SOut → List Byte
  | [] => []
  | .bytes l :: os => l ++ handed os
  | _ :: os => handed os

/-- The bytes written. -/
def written : List Op → List Byte
  | [] => []
  | .put b :: l => b :: written l
  | _ :: l => written l

/-- Of the bytes `w` written one after the other into a ring of `sz` places, the newest at place `i`. -/
def newest (sz : Nat) (w : List Byte) (i : Nat) : Byte := w.getD (i + sz * ((w.length - 1 - i) / sz)) 0#8

end Verif.Trc.Flush.Spec

namespace Verif.Trc.Flush
open Verif Trc.Spec Spec

theorem getBlock_ptr (sz : Nat) (s : Stream) (n : Nat) :
    getBlock sz s n = match (getBlockP sz s n).2 with
      | none => .ok ((getBlockP sz s n).1, [])
      | some (p, k) => (slice s.mem p k).map' fun b => ((getBlockP sz s n).1, b) := by
  unfold getBlock getBlockP
  split <;> rfl

/-- The stream holds `u`, the (only) flushing context still has to send `pend`. -/
structure Inv (sz : Nat) (st : St) (u pend : List Byte) : Prop where
  rep : Rep sz st.s u
  fl : match st.fl with
    | [none] => pend = []
    | [some (p, r)] => pend.length = r ∧ 0 < r ∧ p + r ≤ sz ∧ st.s.tout = idx sz p r ∧ r + u.length ≤ sz ∧
        ∀ i, i < r → st.s.mem[p + i]? = pend[i]?
    | _ => False

theorem Inv.cases {sz : Nat} {st : St} {u pend : List Byte} (h : Inv sz st u pend) :
    (st.fl = [none] ∧ pend = []) ∨ ∃ p r, st.fl = [some (p, r)] ∧ pend.length = r ∧ 0 < r ∧ p + r ≤ sz ∧ st.s.tout = idx sz p r ∧
      r + u.length ≤ sz ∧ ∀ i, i < r → st.s.mem[p + i]? = pend[i]? := by
  have := h.fl
  split at this
  · exact .inl ⟨‹_›, this⟩
  · exact .inr ⟨_, _, ‹_›, this⟩
  · exact this.elim

theorem put_ok {sz : Nat} {s s' : Stream} {b : Byte} (h : put sz s b = .ok s') :
    s' = (if sz ≤ (s.qty + 1) % qtyMod sz then
        { mem := s.mem.set s.tin b, tin := if s.tin + 1 = sz then 0 else s.tin + 1, tout := if s.tin + 1 = sz then 0 else s.tin + 1, qty := sz }
      else { mem := s.mem.set s.tin b, tin := if s.tin + 1 = sz then 0 else s.tin + 1, tout := s.tout, qty := (s.qty + 1) % qtyMod sz }) := by
  unfold put at h
  rw [Res.map'_eq_ok] at h
  obtain ⟨m, hm, rfl⟩ := h
  unfold wr at hm
  split at hm
  · cases hm; rfl
  · cases hm

theorem put_mem {sz : Nat} {s s' : Stream} {b : Byte} (h : put sz s b = .ok s') : s'.mem = s.mem.set s.tin b := by
  rw [put_ok h]; split <;> rfl

theorem put_tin {sz : Nat} {s s' : Stream} {b : Byte} (h : put sz s b = .ok s') : s'.tin = if s.tin + 1 = sz then 0 else s.tin + 1 := by
  rw [put_ok h]; split <;> rfl

theorem put_tout {sz : Nat} {s s' : Stream} {b : Byte} {u : List Byte} (hsz : sz ≤ 2048) (hr : Rep sz s u) (hu : u.length < sz) (h : put sz s b = .ok s') :
    s'.tout = s.tout := by
  have hq := hr.qty
  have hto := hr.tout
  have hmod : (s.qty + 1) % qtyMod sz = s.qty + 1 := by
    apply Nat.mod_eq_of_lt
    rcases qtyMod_gt hsz with h1 | h1 <;> omega
  rw [put_ok h, hmod]
  split
  · show (if s.tin + 1 = sz then 0 else s.tin + 1) = s.tout
    rw [hr.tin]; unfold idx; split <;> split <;> omega
  · rfl

theorem block_split {sz n : Nat} {u u' o : List Byte} (h : Trc.Spec.Step sz u (.block n) (.bytes o) u') : u = o ++ u' := by
  cases h with
  | block k => rw [List.take_append_drop]

theorem put_inv {sz : Nat} (hsz : sz ≤ 2048) {st : St} {u pend : List Byte} (h : Inv sz st u pend) (b : Byte) (hroom : Room sz st (.put b)) :
    ∃ st', step sz st (.put b) = .ok st' ∧ Inv sz st' (lastN sz (u ++ [b])) pend ∧ st'.chan = st.chan ∧ st'.fl = st.fl := by
  obtain ⟨s', h1, h2⟩ := put_rep hsz h.rep b
  refine ⟨{ st with s := s' }, by simp only [step, h1, Res.map'], ⟨h2, ?_⟩, rfl, rfl⟩
  rcases h.cases with ⟨hf, hp⟩ | ⟨p, r, hf, hl, hr, hpr, hto, hle, hv⟩
  · simp only [hf]; exact hp
  · have hq := h.rep.qty
    simp only [Room, unsent, hf, List.map_cons, List.map_nil, List.sum_cons, List.sum_nil] at hroom
    have hlt : u.length + r < sz := by omega
    simp only [hf]
    refine ⟨hl, hr, hpr, ?_, ?_, ?_⟩
    · rw [put_tout hsz h.rep (by omega) h1, hto]
    · rw [length_lastN]; simp; omega
    · intro i hi
      rw [put_mem h1, List.getElem?_set, if_neg, hv i hi]
      rw [h.rep.tin, hto]
      unfold idx
      split <;> split <;> omega

theorem grab_inv {sz : Nat} {st : St} {u pend : List Byte} (h : Inv sz st u pend) (i n : Nat) (ht : Turn st (.grab i n)) :
    ∃ st' o u', step sz st (.grab i n) = .ok st' ∧ Inv sz st' u' o ∧ st'.chan = st.chan ∧ pend = [] ∧
      Trc.Spec.Step sz u (.block n) (.bytes o) u' ∧ u = o ++ u' ∧
      o.length = (if n < (if u.length < sz - st.s.tout then u.length else sz - st.s.tout) then n
        else (if u.length < sz - st.s.tout then u.length else sz - st.s.tout)) ∧
      (0 < o.length → st'.fl = [some (st.s.tout, o.length)]) ∧ st'.s.mem = st.s.mem ∧ st'.s.tin = st.s.tin := by
  simp only [Turn] at ht
  rcases h.cases with ⟨hf, hp⟩ | ⟨p, r, hf, _⟩
  · rw [hf] at ht
    have hi : i = 0 := by
      cases i with
      | zero => rfl
      | succ i => simp at ht
    subst hi
    obtain ⟨s', o, u', h1, h2, h3⟩ := getBlock_rep h.rep n
    have hq := h.rep.qty
    have hto := h.rep.tout
    have hle := h.rep.le
    rw [getBlock_ptr] at h1
    have hstep : step sz st (.grab 0 n) = .ok { st with s := (getBlockP sz st.s n).1, fl := [match (getBlockP sz st.s n).2 with
        | some (p, k) => if k = 0 then none else some (p, k) | none => none] } := by
      simp only [step, hf, List.getElem?_cons_zero, List.set_cons_zero]
    cases hg : (getBlockP sz st.s n).2 with
    | none =>
      rw [hg] at h1
      simp only [Res.ok.injEq, Prod.mk.injEq] at h1
      obtain ⟨rfl, rfl⟩ := h1
      have h0 : st.s.qty = 0 := by
        by_cases h0 : st.s.qty = 0
        · exact h0
        · unfold getBlockP at hg; rw [if_neg h0] at hg; cases hg
      have hu : u = [] := List.length_eq_zero_iff.mp (by omega)
      have hs' : (getBlockP sz st.s n).1 = st.s := by unfold getBlockP; rw [if_pos h0]
      rw [hg] at hstep
      refine ⟨_, [], u', hstep, ⟨h2, rfl⟩, rfl, hp, h3, ?_, ?_, by simp, by simp [hs'], by simp [hs']⟩
      · have h5 := h2.qty
        rw [hs', h0] at h5
        rw [hu, List.length_eq_zero_iff.mp h5.symm]; rfl
      · rw [hu]
        show 0 = _
        simp only [List.length_nil]
        split <;> split <;> omega
    | some x =>
      obtain ⟨p, k⟩ := x
      rw [hg] at h1
      simp only at h1
      have h0 : st.s.qty ≠ 0 := by
        intro h0
        unfold getBlockP at hg; rw [if_pos h0] at hg; cases hg
      obtain ⟨k', hk'⟩ : ∃ k', k' = (if n < (if st.s.qty < sz - st.s.tout then st.s.qty else sz - st.s.tout) then n
        else (if st.s.qty < sz - st.s.tout then st.s.qty else sz - st.s.tout)) := ⟨_, rfl⟩
      have hgp : getBlockP sz st.s n = ({ st.s with tout := if sz ≤ st.s.tout + k' then 0 else st.s.tout + k', qty := st.s.qty - k' },
          some (st.s.tout, k')) := by
        unfold getBlockP; rw [if_neg h0, hk']
      rw [hgp] at hg h1 hstep
      simp only [Option.some.injEq, Prod.mk.injEq] at hg
      obtain ⟨rfl, rfl⟩ := hg
      have hk1 : k' ≤ n ∧ k' ≤ u.length ∧ st.s.tout + k' ≤ sz := by
        rw [hk']; refine ⟨?_, ?_, ?_⟩ <;> (split <;> split <;> omega)
      rw [slice_rep h.rep hk1.2.1 hk1.2.2] at h1
      simp only [Res.map', Res.ok.injEq, Prod.mk.injEq] at h1
      obtain ⟨rfl, rfl⟩ := h1
      have hlen : (u.take k').length = k' := by simp; omega
      have hqu : u'.length = u.length - k' := by
        have := h2.qty
        simp only at this
        omega
      have hval : ∀ i, i < k' → st.s.mem[st.s.tout + i]? = (u.take k')[i]? := by
        intro i hi
        rw [List.getElem?_take, if_pos hi, ← h.rep.val i (by omega)]
        congr 1
        unfold idx; rw [if_pos (by omega)]
      refine ⟨_, u.take k', u', hstep, ⟨h2, ?_⟩, rfl, hp, h3, ?_, ?_, ?_, rfl, rfl⟩
      · by_cases hk0 : k' = 0
        · simp only [hk0, if_true]; simp
        · simp only [hk0, if_false]
          refine ⟨hlen, by omega, hk1.2.2, ?_, by omega, hval⟩
          unfold idx; split <;> split <;> omega
      · exact block_split h3
      · rw [hlen, hk', hq]
      · intro hpos
        rw [hlen] at hpos
        rw [hlen]
        simp only [show k' ≠ 0 by omega, if_false]
  · rw [hf] at ht
    cases i with
    | zero => simp at ht
    | succ i => simp at ht

theorem send_inv {sz : Nat} {st : St} {u pend : List Byte} (h : Inv sz st u pend) (i : Nat) (ht : Turn st (.send i)) :
    ∃ st' b pend', step sz st (.send i) = .ok st' ∧ pend = b :: pend' ∧ Inv sz st' u pend' ∧ st'.chan = st.chan ++ [b] ∧ st'.s = st.s := by
  obtain ⟨p', r', ht⟩ := ht
  rcases h.cases with ⟨hf, hp⟩ | ⟨p, r, hf, hl, hr, hpr, hto, hle, hv⟩
  · rw [hf] at ht
    cases i with
    | zero => simp at ht
    | succ i => simp at ht
  · rw [hf] at ht
    have hi : i = 0 := by
      cases i with
      | zero => rfl
      | succ i => simp at ht
    subst hi
    cases pend with
    | nil => simp at hl; omega
    | cons b pend' =>
      have hb := hv 0 hr
      simp only [Nat.add_zero, List.getElem?_cons_zero] at hb
      simp only [List.length_cons] at hl
      refine ⟨{ st with chan := st.chan ++ [b], fl := [if r - 1 = 0 then none else some (p + 1, r - 1)] }, b, pend', by
        simp only [step, hf, List.getElem?_cons_zero, RdyGrp.ix, hb, Res.map', List.set_cons_zero], rfl, ⟨h.rep, ?_⟩, rfl, rfl⟩
      by_cases h0 : r - 1 = 0
      · simp only [h0, if_true]
        exact List.length_eq_zero_iff.mp (by omega)
      · simp only [h0, if_false]
        refine ⟨by omega, by omega, by omega, ?_, by omega, ?_⟩
        · rw [hto]; unfold idx; split <;> split <;> omega
        · intro i hi
          have := hv (i + 1) (by omega)
          simp only [List.getElem?_cons_succ] at this
          rw [← this]
          congr 1; omega

/-- The initial program: the stream has just been initialised, one context may flush. -/
def start (sz : Nat) (mem : List Byte) : Res St := (streamInit sz mem).map' fun s => ⟨s, [none], []⟩

theorem start_inv {sz : Nat} (h : 0 < sz ∧ sz ≤ 2048) (mem : List Byte) (hm : mem.length = sz) :
    ∃ st, start sz mem = .ok st ∧ Inv sz st [FLG] [] ∧ st.chan = [] := by
  obtain ⟨s, h1, h2⟩ := streamInit_rep h mem hm
  exact ⟨⟨s, [none], []⟩, by simp only [start, h1, Res.map'], ⟨h2, rfl⟩, rfl⟩

theorem unsent_inv {sz : Nat} {st : St} {u pend : List Byte} (h : Inv sz st u pend) : unsent st = pend.length := by
  rcases h.cases with ⟨hf, hp⟩ | ⟨p, r, hf, hl, _⟩
  · simp [unsent, hf, hp]
  · simp [unsent, hf, hl]

theorem run_inv {sz : Nat} (hsz : sz ≤ 2048) : ∀ (ops : List Op) {st : St} {u pend : List Byte}, Inv sz st u pend →
    Along sz Turn st ops → Along sz (Room sz) st ops →
    ∃ st' u' pend' outs, run sz st ops = .ok st' ∧ Inv sz st' u' pend' ∧ Trc.Spec.Run sz u (calls ops) outs u' ∧
      st'.chan ++ pend' = st.chan ++ pend ++ handed outs := by
  intro ops
  induction ops with
  | nil => intro st u pend h _ _; exact ⟨st, u, pend, [], rfl, h, .nil u, by simp [handed]⟩
  | cons o ops ih =>
    intro st u pend h ht hr
    obtain ⟨ht1, ht2⟩ := ht
    obtain ⟨hr1, hr2⟩ := hr
    cases o with
    | put b =>
      obtain ⟨st1, h1, h2, h3, _⟩ := put_inv hsz h b hr1
      obtain ⟨st', u', pend', outs, k1, k2, k3, k4⟩ := ih h2 (ht2 _ h1) (hr2 _ h1)
      exact ⟨st', u', pend', .unit :: outs, by simp only [run, h1, Res.bind, k1], k2, .cons (.put u b) k3, by simp only [handed, k4, h3]⟩
    | grab i n =>
      obtain ⟨st1, o, u1, h1, h2, h3, h4, h5, _⟩ := grab_inv h i n ht1
      obtain ⟨st', u', pend', outs, k1, k2, k3, k4⟩ := ih h2 (ht2 _ h1) (hr2 _ h1)
      exact ⟨st', u', pend', .bytes o :: outs, by simp only [run, h1, Res.bind, k1], k2, .cons h5 k3, by
        simp only [handed, k4, h3, h4, List.append_nil, List.append_assoc]⟩
    | send i =>
      obtain ⟨st1, b, pend1, h1, h2, h3, h4, _⟩ := send_inv h i ht1
      obtain ⟨st', u', pend', outs, k1, k2, k3, k4⟩ := ih h3 (ht2 _ h1) (hr2 _ h1)
      exact ⟨st', u', pend', outs, by simp only [run, h1, Res.bind, k1], k2, k3, by rw [k4, h4, h2]; simp⟩

theorem run_all {sz : Nat} (hsz : sz ≤ 2048) : ∀ (ops : List Op) {st : St} {u pend : List Byte}, Inv sz st u pend →
    Along sz Turn st ops → Along sz (NoOverflow sz) st ops →
    ∃ st' u' pend', run sz st ops = .ok st' ∧ Inv sz st' u' pend' ∧
      st'.chan ++ pend' ++ u' = st.chan ++ pend ++ u ++ written ops := by
  intro ops
  induction ops with
  | nil => intro st u pend h _ _; exact ⟨st, u, pend, rfl, h, by simp [written]⟩
  | cons o ops ih =>
    intro st u pend h ht hr
    obtain ⟨ht1, ht2⟩ := ht
    obtain ⟨hr1, hr2⟩ := hr
    cases o with
    | put b =>
      obtain ⟨st1, h1, h2, h3, _⟩ := put_inv hsz h b (.inr hr1)
      obtain ⟨st', u', pend', k1, k2, k4⟩ := ih h2 (ht2 _ h1) (hr2 _ h1)
      refine ⟨st', u', pend', by simp only [run, h1, Res.bind, k1], k2, ?_⟩
      have hq := h.rep.qty
      have hlt : u.length < sz := by
        have : st.s.qty + unsent st < sz := hr1
        omega
      rw [k4, h3, lastN_le (by simp; omega)]
      simp [written]
    | grab i n =>
      obtain ⟨st1, o, u1, h1, h2, h3, h4, h5, h6, _⟩ := grab_inv h i n ht1
      obtain ⟨st', u', pend', k1, k2, k4⟩ := ih h2 (ht2 _ h1) (hr2 _ h1)
      refine ⟨st', u', pend', by simp only [run, h1, Res.bind, k1], k2, ?_⟩
      rw [k4, h3, h4, h6]; simp [written]
    | send i =>
      obtain ⟨st1, b, pend1, h1, h2, h3, h4, _⟩ := send_inv h i ht1
      obtain ⟨st', u', pend', k1, k2, k4⟩ := ih h3 (ht2 _ h1) (hr2 _ h1)
      refine ⟨st', u', pend', by simp only [run, h1, Res.bind, k1], k2, ?_⟩
      rw [k4, h4, h2]; simp [written]

end Verif.Trc.Flush
