import Verif.Trc.FlushProps
/-
C143 in full: any number of contexts flush, at any time, and records are written at any time. What the channel carries is described by
a program without a ring: it remembers every byte ever written, and a block is a range of positions in that list.
-/
namespace Verif.Trc.Flush.Spec
open Verif

/-- A stream that forgets nothing: all bytes written so far, the position of the first one that is unread, for every flushing context
the position of the next byte to send and the number of bytes left, and the channel. -/
structure Tape where
  w : List Byte
  r : Nat
  fl : List (Option (Nat × Nat))
  chan : List Byte
  deriving DecidableEq, Repr

/-- The size of the next block: the unread bytes, but not beyond the next multiple of the stream's size and not more than asked for. -/
def Tape.block (sz : Nat) (t : Tape) (n : Nat) : Nat := min n (min (t.w.length - t.r) (sz - t.r % sz))

/-- Writing a byte makes the oldest one unreadable if there are more than `sz`. Taking a block marks its bytes as read. Sending a byte of
a block sends, of all bytes written so far whose position differs from it by a multiple of `sz`, the newest. -/
def Tape.step (sz : Nat) (t : Tape) : Op → Tape
  | .put b => { t with w := t.w ++ [b], r := max t.r (t.w.length + 1 - sz) }
  | .grab i n =>
    match t.fl[i]? with
    | some none => { t with r := t.r + t.block sz n, fl := t.fl.set i (if t.block sz n = 0 then none else some (t.r, t.block sz n)) }
    | _ => t
  | .send i =>
    match t.fl[i]? with
    | some (some (g, k)) => { t with chan := t.chan ++ [newest sz t.w g], fl := t.fl.set i (if k - 1 = 0 then none else some (g + 1, k - 1)) }
    | _ => t

/-- After a history with `n` flushing contexts; the first byte is the flag written by the initialisation. -/
def tape (sz n : Nat) (ops : List Op) : Tape := ops.foldl (Tape.step sz) ⟨[FLG], 0, List.replicate n none, []⟩

end Verif.Trc.Flush.Spec

namespace Verif.Trc.Flush
open Verif Trc.Spec Spec

theorem newest_mod {sz : Nat} (h0 : 0 < sz) (w : List Byte) {g : Nat} (hg : g < w.length) : newest sz w (g % sz) = newest sz w g := by
  unfold newest
  have hd := Nat.div_add_mod g sz
  have e : w.length - 1 - g % sz = (w.length - 1 - g) + sz * (g / sz) := by omega
  rw [e, Nat.add_mul_div_left _ _ h0, Nat.mul_add]
  congr 1; omega

/-- The ring and the tape describe the same situation. -/
structure Same (sz : Nat) (st : St) (t : Tape) : Prop where
  ring : Ring sz 0 st.s t.w
  rle : t.r ≤ t.w.length
  full : t.w.length ≤ t.r + sz
  tout : st.s.tout = t.r % sz
  qty : st.s.qty = t.w.length - t.r
  fl : st.fl = t.fl.map (Option.map fun x => (x.1 % sz, x.2))
  flok : ∀ g k, some (g, k) ∈ t.fl → 0 < k ∧ g % sz + k ≤ sz ∧ g + k ≤ t.w.length
  chan : st.chan = t.chan

theorem same_put {sz : Nat} (hsz : sz ≤ 2048) {st : St} {t : Tape} (h : Same sz st t) (b : Byte) :
    ∃ st', step sz st (.put b) = .ok st' ∧ Same sz st' (t.step sz (.put b)) := by
  obtain ⟨s', h1, h2⟩ := ring_put h.ring b
  have h0 : 0 < sz := by have := h.ring.olt; omega
  have hf := h.full
  have hr := h.rle
  have hq := h.qty
  have hmod : (st.s.qty + 1) % qtyMod sz = st.s.qty + 1 := by
    apply Nat.mod_eq_of_lt
    rcases qtyMod_gt hsz with h1 | h1 <;> omega
  have hin : (if st.s.tin + 1 = sz then 0 else st.s.tin + 1) = (t.w.length + 1) % sz := by
    rw [h.ring.tin, mod_succ h0]; simp
  have hput := put_ok h1
  rw [hmod, hin] at hput
  have hto : s'.tout = max t.r (t.w.length + 1 - sz) % sz := by
    rw [hput]
    split
    · show (t.w.length + 1) % sz = _
      by_cases hfull : t.w.length + 1 = t.r + sz
      · rw [show max t.r (t.w.length + 1 - sz) = t.r by omega, hfull, Nat.add_mod_right]
      · rw [show max t.r (t.w.length + 1 - sz) = t.w.length + 1 - sz by omega]
        conv => lhs; rw [show t.w.length + 1 = t.w.length + 1 - sz + sz by omega]
        rw [Nat.add_mod_right]
    · show st.s.tout = _
      rw [show max t.r (t.w.length + 1 - sz) = t.r by omega]; exact h.tout
  have hqt : s'.qty = t.w.length + 1 - max t.r (t.w.length + 1 - sz) := by
    rw [hput]
    split
    · show sz = _; omega
    · show st.s.qty + 1 = _; omega
  refine ⟨{ st with s := s' }, by simp only [step, h1, Res.map'], ?_⟩
  refine ⟨h2, ?_, ?_, hto, ?_, h.fl, ?_, h.chan⟩
  · simp only [Tape.step, List.length_append, List.length_singleton]; omega
  · simp only [Tape.step, List.length_append, List.length_singleton]; omega
  · simp only [Tape.step, List.length_append, List.length_singleton]; exact hqt
  · intro g k hg
    have := h.flok g k hg
    simp only [Tape.step, List.length_append, List.length_singleton]
    omega

theorem map_fl (sz : Nat) (l : List (Option (Nat × Nat))) (i : Nat) :
    (l.map (Option.map fun x : Nat × Nat => (x.1 % sz, x.2)))[i]? = (l[i]?).map (Option.map fun x => (x.1 % sz, x.2)) := by
  rw [List.getElem?_map]

theorem block_eq {sz : Nat} {st : St} {t : Tape} (h : Same sz st t) (n : Nat) :
    (if n < (if st.s.qty < sz - st.s.tout then st.s.qty else sz - st.s.tout) then n
      else (if st.s.qty < sz - st.s.tout then st.s.qty else sz - st.s.tout)) = t.block sz n := by
  unfold Tape.block
  rw [h.qty, h.tout]
  split <;> split <;> omega

theorem same_grab {sz : Nat} {st : St} {t : Tape} (h : Same sz st t) (i n : Nat) :
    ∃ st', step sz st (.grab i n) = .ok st' ∧ Same sz st' (t.step sz (.grab i n)) := by
  have h0 : 0 < sz := by have := h.ring.olt; omega
  have hm := Nat.mod_lt t.r h0
  have hi : st.fl[i]? = (t.fl[i]?).map (Option.map fun x => (x.1 % sz, x.2)) := by rw [h.fl, map_fl]
  simp only [step, Tape.step, hi]
  cases ht : t.fl[i]? with
  | none => exact ⟨st, rfl, h⟩
  | some x =>
    cases x with
    | some y => exact ⟨st, rfl, h⟩
    | none =>
      simp only [Option.map_some, Option.map_none]
      refine ⟨_, rfl, ?_⟩
      have hb := block_eq h n
      have hq := h.qty
      have hto := h.tout
      have hle : t.block sz n ≤ t.w.length - t.r ∧ t.block sz n ≤ sz - t.r % sz := by unfold Tape.block; omega
      have hrle := h.rle
      have hfull := h.full
      have hg : getBlockP sz st.s n = (if st.s.qty = 0 then (st.s, none) else
          ({ st.s with tout := if sz ≤ st.s.tout + t.block sz n then 0 else st.s.tout + t.block sz n, qty := st.s.qty - t.block sz n },
            some (st.s.tout, t.block sz n))) := by
        unfold getBlockP; rw [← hb]
      rw [hg]
      by_cases hz : st.s.qty = 0
      · have hbz : t.block sz n = 0 := by omega
        simp only [hz, if_true, hbz, Nat.add_zero]
        refine ⟨h.ring, h.rle, h.full, h.tout, h.qty, ?_, ?_, h.chan⟩
        · simp [h.fl, List.map_set]
        · intro g k hgk
          simp only at hgk
          rcases List.mem_or_eq_of_mem_set hgk with h' | h'
          · exact h.flok g k h'
          · cases h'
      · simp only [hz, if_false]
        refine ⟨⟨h.ring.len, h.ring.olt, h.ring.tin, h.ring.val⟩, by simp only; omega, by simp only; omega, ?_, by simp only; omega, ?_, ?_, h.chan⟩
        · simp only
          rw [hto]
          have hd := Nat.div_add_mod t.r sz
          have e : (t.r + t.block sz n) % sz = (t.r % sz + t.block sz n) % sz := by
            conv => lhs; rw [← hd, Nat.add_assoc, Nat.mul_add_mod]
          rw [e]
          split
          · rename_i hs
            rw [show t.r % sz + t.block sz n = sz by omega, Nat.mod_self]
          · exact (Nat.mod_eq_of_lt (by omega)).symm
        · simp only [h.fl, List.map_set]
          congr 1
          split <;> simp [hto]
        · intro g k hgk
          simp only at hgk
          rcases List.mem_or_eq_of_mem_set hgk with h' | h'
          · exact h.flok g k h'
          · split at h'
            · cases h'
            · cases h'
              simp only
              omega

theorem same_send {sz : Nat} {st : St} {t : Tape} (h : Same sz st t) (i : Nat) :
    ∃ st', step sz st (.send i) = .ok st' ∧ Same sz st' (t.step sz (.send i)) := by
  have h0 : 0 < sz := by have := h.ring.olt; omega
  have hi : st.fl[i]? = (t.fl[i]?).map (Option.map fun x => (x.1 % sz, x.2)) := by rw [h.fl, map_fl]
  simp only [step, Tape.step, hi]
  cases ht : t.fl[i]? with
  | none => exact ⟨st, rfl, h⟩
  | some x =>
    cases x with
    | none => exact ⟨st, rfl, h⟩
    | some y =>
      obtain ⟨g, k⟩ := y
      have hok := h.flok g k (List.mem_of_getElem? ht)
      have hgm := Nat.mod_lt g h0
      have hgd := Nat.div_add_mod g sz
      have hle := Nat.mod_le g sz
      have hv := h.ring.val (g % sz) hgm (by omega)
      rw [Nat.zero_add, Nat.mod_mod, newest_mod h0 _ (by omega)] at hv
      simp only [Option.map_some, RdyGrp.ix, hv, Res.map']
      refine ⟨_, rfl, ⟨h.ring, h.rle, h.full, h.tout, h.qty, ?_, ?_, by simp only [h.chan]⟩⟩
      · simp only [h.fl, List.map_set]
        congr 1
        split
        · rfl
        · rename_i hk
          have e : (g + 1) % sz = g % sz + 1 := by
            conv => lhs; rw [← hgd, Nat.add_assoc, Nat.mul_add_mod]
            exact Nat.mod_eq_of_lt (by omega)
          simp [e]
      · intro g' k' hgk
        simp only at hgk
        rcases List.mem_or_eq_of_mem_set hgk with h' | h'
        · exact h.flok g' k' h'
        · split at h'
          · cases h'
          · cases h'
            have e : (g + 1) % sz = g % sz + 1 := by
              conv => lhs; rw [← hgd, Nat.add_assoc, Nat.mul_add_mod]
              exact Nat.mod_eq_of_lt (by omega)
            simp only [e]
            omega

theorem same_run {sz : Nat} (hsz : sz ≤ 2048) : ∀ (ops : List Op) {st : St} {t : Tape}, Same sz st t →
    ∃ st', run sz st ops = .ok st' ∧ Same sz st' (ops.foldl (Tape.step sz) t) := by
  intro ops
  induction ops with
  | nil => intro st t h; exact ⟨st, rfl, h⟩
  | cons o ops ih =>
    intro st t h
    obtain ⟨st1, h1, h2⟩ : ∃ st', step sz st o = .ok st' ∧ Same sz st' (t.step sz o) := by
      cases o with
      | put b => exact same_put hsz h b
      | grab i n => exact same_grab h i n
      | send i => exact same_send h i
    obtain ⟨st', k1, k2⟩ := ih h2
    exact ⟨st', by simp only [run, h1, Res.bind, k1], k2⟩

theorem same_start {sz : Nat} (hsz : 0 < sz ∧ sz ≤ 2048) (mem : List Byte) (hm : mem.length = sz) (n : Nat) :
    ∃ st, start sz mem = .ok st ∧ Same sz { st with fl := List.replicate n none } ⟨[FLG], 0, List.replicate n none, []⟩ := by
  obtain ⟨st, h1, h2, h3⟩ := start_inv hsz mem hm
  have hr := rep_ring h2.rep
  have hto : st.s.tout = 0 := by
    have hs := h1
    unfold start streamInit at hs
    rw [Res.map'_eq_ok] at hs
    obtain ⟨s, hs, rfl⟩ := hs
    rw [put_ok hs]
    have : (0 + 1) % qtyMod sz = 1 := by unfold qtyMod; split <;> rfl
    simp only [this]
    split
    · have : sz = 1 := by omega
      subst this; rfl
    · rfl
  rw [hto] at hr
  refine ⟨st, h1, hr, by simp, by simp; omega, by simp [hto], h2.rep.qty, by simp, ?_, h3⟩
  intro g k hg
  rw [List.mem_replicate] at hg
  cases hg.2

/-- **C143** What flushing sends, exactly, for all histories: any number of contexts take blocks of any size and send them byte by byte
while bytes are written, however many. Nothing ever fails, and the channel carries what the description without a ring says. -/
theorem flush_sends_exactly (sz : Nat) (hsz : 0 < sz ∧ sz ≤ 2048) (mem : List Byte) (hm : mem.length = sz) (n : Nat) (ops : List Op) :
    ∃ st st', start sz mem = .ok st ∧ run sz { st with fl := List.replicate n none } ops = .ok st' ∧ st'.chan = (tape sz n ops).chan := by
  obtain ⟨st, h1, h2⟩ := same_start hsz mem hm n
  obtain ⟨st', k1, k2⟩ := same_run hsz.2 ops h2
  exact ⟨st, st', h1, k1, k2.chan⟩

/-- **C143** The byte sent for position `g` is the byte written there, if at most `sz` bytes have been written from it on … -/
theorem sent_is_taken {sz : Nat} {w : List Byte} {g : Nat} (hg : g < w.length) (h : w.length ≤ g + sz) : newest sz w g = w[g] := by
  rw [newest_small hg (by omega), List.getD_eq_getElem?_getD, List.getElem?_eq_getElem hg]; rfl

/-- … and otherwise a newer one, written a multiple of `sz` bytes later: one of the last `sz`. -/
theorem sent_is_newer {sz : Nat} (h0 : 0 < sz) {w : List Byte} {g : Nat} (h : g + sz < w.length) :
    ∃ q, 0 < q ∧ ∃ hj : g + sz * q < w.length, w.length ≤ g + sz * q + sz ∧ newest sz w g = w[g + sz * q] := by
  have hd := Nat.div_add_mod (w.length - 1 - g) sz
  have hm := Nat.mod_lt (w.length - 1 - g) h0
  have hj : g + sz * ((w.length - 1 - g) / sz) < w.length := by omega
  refine ⟨(w.length - 1 - g) / sz, Nat.div_pos (by omega) h0, hj, by omega, ?_⟩
  unfold newest
  rw [List.getD_eq_getElem?_getD, List.getElem?_eq_getElem hj]; rfl

/-- Two contexts; both blocks are overtaken by bytes written while they are being sent. -/
example : (tape 4 2 [.put 1, .grab 0 128, .put 2, .grab 1 128, .put 3, .put 4, .send 1, .put 5, .put 6, .send 0, .send 0]).chan = [2, 4, 5] ∧
    (run 4 { st4 with fl := [none, none] } [.put 1, .grab 0 128, .put 2, .grab 1 128, .put 3, .put 4, .send 1, .put 5, .put 6, .send 0, .send 0]).map'
      (fun st => st.chan) = .ok [2, 4, 5] := by decide +kernel

end Verif.Trc.Flush
