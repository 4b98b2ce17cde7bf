import Verif.Trc.Flush
/-
C142, C143: flushing the trace stream while records are written.
-/
namespace Verif.Trc.Flush
open Verif Trc.Spec Spec

/-! ## C142 -/

/-- **C142** (part) One context flushes. If, while it sends a block, the bytes being written find room beside the block, the flushing
program is as good as one that sends each block at the moment it takes it: what is on the channel, followed by what is still to be
sent, is what the block reads of a stream hand over that keeps the newest `sz` unread bytes (C52). Missing: that this holds without
the room and with several flushing contexts, which is false. -/
theorem flush_sends_what_was_taken_partial (sz : Nat) (hsz : 0 < sz ∧ sz ≤ 2048) (mem : List Byte) (hm : mem.length = sz) (ops : List Op) :
    ∃ st, start sz mem = .ok st ∧ (Along sz Turn st ops → Along sz (Room sz) st ops →
      ∃ st' outs u, run sz st ops = .ok st' ∧ Trc.Spec.Run sz [FLG] (calls ops) outs u ∧
        ∃ rest, rest.length = unsent st' ∧ st'.chan ++ rest = handed outs) := by
  obtain ⟨st, h1, h2, h3⟩ := start_inv hsz mem hm
  refine ⟨st, h1, fun ht hr => ?_⟩
  obtain ⟨st', u', pend', outs, k1, k2, k3, k4⟩ := run_inv hsz.2 ops h2 ht hr
  exact ⟨st', outs, u', k1, k3, pend', (unsent_inv k2).symm, by rw [k4, h3]; simp⟩

/-- **C142** (part) If moreover the stream never overflows (counting the block being sent), every byte written is sent exactly once, in
the order of writing: the channel carries the initial flag and the bytes written, except for those still to be sent. -/
theorem flush_sends_everything_partial (sz : Nat) (hsz : 0 < sz ∧ sz ≤ 2048) (mem : List Byte) (hm : mem.length = sz) (ops : List Op) :
    ∃ st, start sz mem = .ok st ∧ (Along sz Turn st ops → Along sz (NoOverflow sz) st ops →
      ∃ st' rest, run sz st ops = .ok st' ∧ rest.length = unsent st' + st'.s.qty ∧ st'.chan ++ rest = FLG :: written ops) := by
  obtain ⟨st, h1, h2, h3⟩ := start_inv hsz mem hm
  refine ⟨st, h1, fun ht hr => ?_⟩
  obtain ⟨st', u', pend', k1, k2, k4⟩ := run_all hsz.2 ops h2 ht hr
  refine ⟨st', pend' ++ u', k1, ?_, ?_⟩
  · rw [unsent_inv k2, k2.rep.qty]; simp
  · rw [← List.append_assoc, k4, h3]; rfl

/-- A stream of four bytes; a block of two bytes is sent while a byte is written. -/
def okDemo : List Op := [.put 1, .put 2, .grab 0 2, .send 0, .put 3, .send 0, .put 4, .grab 0 9, .send 0, .send 0, .grab 0 9, .send 0]

instance : ∀ (st : St) (o : Op), Decidable (Turn st o)
  | _, .put _ => isTrue trivial
  | st, .grab i n => (inferInstance : Decidable (st.fl[i]? = some none))
  | st, .send i => match h : st.fl[i]? with
    | some (some (p, r)) => isTrue ⟨p, r, h⟩
    | some none => isFalse (by rintro ⟨p, r, h'⟩; rw [h] at h'; cases h')
    | none => isFalse (by rintro ⟨p, r, h'⟩; rw [h] at h'; cases h')

instance (sz : Nat) : ∀ (st : St) (o : Op), Decidable (NoOverflow sz st o)
  | st, .put _ => (inferInstance : Decidable (st.s.qty + unsent st < sz))
  | _, .grab _ _ => isTrue trivial
  | _, .send _ => isTrue trivial

instance (sz : Nat) : ∀ (st : St) (o : Op), Decidable (Room sz st o)
  | st, .put _ => (inferInstance : Decidable (unsent st = 0 ∨ st.s.qty + unsent st < sz))
  | _, .grab _ _ => isTrue trivial
  | _, .send _ => isTrue trivial

instance decAlong (sz : Nat) (P : St → Op → Prop) [∀ st o, Decidable (P st o)] : ∀ (st : St) (l : List Op), Decidable (Along sz P st l)
  | _, [] => isTrue trivial
  | st, o :: l =>
    if hp : P st o then
      match h : step sz st o with
      | .ok st' =>
        match decAlong sz P st' l with
        | isTrue k => isTrue ⟨hp, fun st'' h' => by rw [h] at h'; cases h'; exact k⟩
        | isFalse k => isFalse fun k' => k (k'.2 _ h)
      | .assert => isTrue ⟨hp, fun st'' h' => by rw [h] at h'; cases h'⟩
      | .ub => isTrue ⟨hp, fun st'' h' => by rw [h] at h'; cases h'⟩
    else isFalse fun k => hp k.1

/-- The initial program of the demos: four bytes. -/
def st4 : St := ⟨⟨[FLG, 0, 0, 0], 1, 0, 1⟩, [none], []⟩

/-- The hypotheses are met, and all bytes are sent in order although some were written while a block was being sent. -/
example : start 4 [0, 0, 0, 0] = .ok st4 ∧ Along 4 Turn st4 okDemo ∧ Along 4 (Room 4) st4 okDemo ∧ Along 4 (NoOverflow 4) st4 okDemo ∧
    (run 4 st4 okDemo).map' (fun st => (st.chan, st.fl)) = .ok ([FLG, 1, 2, 3, 4], [none]) := by decide +kernel

/-- **C142** fails if records are written faster than a block is sent: a full stream is taken as one block, and a byte written before
the first byte is sent takes its place. It is on the channel twice, first of all before bytes that are older, and the flag is lost. -/
theorem flush_sends_newer_bytes :
    ∃ ops, Along 4 Turn st4 ops ∧ written ops = [1, 2, 3, 9] ∧ (run 4 st4 ops).map' (fun st => (st.chan, st.fl)) = .ok ([9, 1, 2, 3, 9], [none]) ∧
      ∀ st', run 4 st4 ops = .ok st' → st'.s.qty = 0 := by
  refine ⟨[.put 1, .put 2, .put 3, .grab 0 128, .put 9, .send 0, .send 0, .send 0, .send 0, .grab 0 128, .send 0], by decide +kernel, by decide,
    by decide +kernel, ?_⟩
  intro st' h
  have : (run 4 st4 [.put 1, .put 2, .put 3, .grab 0 128, .put 9, .send 0, .send 0, .send 0, .send 0, .grab 0 128, .send 0]).map' (fun st => st.s.qty) = .ok 0 := by
    decide +kernel
  rw [h] at this
  simpa [Res.map'] using this

/-- **C142** fails if two contexts flush (a record of a symbol is flushed by whoever writes it, rkhtrc_record.c:187-221, and the idle
processing flushes as well): without any overflow the bytes are sent in another order. -/
theorem two_flushes_reorder :
    ∃ ops, Along 4 Turn { st4 with fl := [none, none] } ops ∧ Along 4 (NoOverflow 4) { st4 with fl := [none, none] } ops ∧ written ops = [1, 2] ∧
      (run 4 { st4 with fl := [none, none] } ops).map' (fun st => (st.chan, st.s.qty)) = .ok ([2, FLG, 1], 0) :=
  ⟨[.put 1, .grab 0 128, .put 2, .grab 1 128, .send 1, .send 0, .send 0], by decide +kernel, by decide +kernel, by decide, by decide +kernel⟩

/-! ## C143 -/

/-- After the bytes `w`, written from place `o` of the ring on, every place holds the newest of them. -/
structure Ring (sz o : Nat) (s : Stream) (w : List Byte) : Prop where
  len : s.mem.length = sz
  olt : o < sz
  tin : s.tin = (o + w.length) % sz
  val : ∀ k, k < sz → k < w.length → s.mem[(o + k) % sz]? = some (newest sz w k)

theorem idx_mod {sz o i : Nat} (ho : o < sz) (hi : i ≤ sz) : idx sz o i = (o + i) % sz := by
  unfold idx
  split
  · rename_i h; exact (Nat.mod_eq_of_lt h).symm
  · rw [Nat.mod_eq_sub_mod (by omega), Nat.mod_eq_of_lt (by omega)]

theorem newest_small {sz : Nat} {w : List Byte} {i : Nat} (hi : i < w.length) (h : w.length ≤ sz + i) : newest sz w i = w.getD i 0#8 := by
  unfold newest
  rw [Nat.div_eq_of_lt (by omega)]; rfl

theorem rep_ring {sz : Nat} {s : Stream} {u : List Byte} (h : Rep sz s u) : Ring sz s.tout s u := by
  refine ⟨h.len, h.tout, by rw [h.tin, idx_mod h.tout h.le], ?_⟩
  intro k hk hku
  rw [← idx_mod h.tout (by omega), h.val k hku, newest_small hku (by have := h.le; omega), List.getD_eq_getElem?_getD, List.getElem?_eq_getElem hku]
  rfl

theorem newest_snoc {sz : Nat} (h0 : 0 < sz) (w : List Byte) (b : Byte) (k : Nat) (hk : k < sz) (hkw : k ≤ w.length) :
    newest sz (w ++ [b]) k = if (w.length - k) % sz = 0 then b else newest sz w k := by
  unfold newest
  have e : (w ++ [b]).length - 1 - k = w.length - k := by simp
  rw [e]
  have hd := Nat.div_add_mod (w.length - k) sz
  split
  · rename_i h
    have : k + sz * ((w.length - k) / sz) = w.length := by omega
    rw [this]
    simp [List.getD_eq_getElem?_getD]
  · rename_i h
    have hlt : k < w.length := by
      rcases Nat.lt_or_ge k w.length with h' | h'
      · exact h'
      · exfalso; apply h; rw [show w.length - k = 0 by omega]; simp
    have hq : (w.length - 1 - k) / sz = (w.length - k) / sz := by
      have h1 : w.length - 1 - k = sz * ((w.length - k) / sz) + ((w.length - k) % sz - 1) := by omega
      have hm := Nat.mod_lt (w.length - k) h0
      have hm' : (w.length - k) % sz - 1 < sz := by omega
      rw [h1, Nat.mul_add_div h0, Nat.div_eq_of_lt hm']
      simp
    rw [hq]
    have hi : k + sz * ((w.length - k) / sz) < w.length := by omega
    rw [List.getD_eq_getElem?_getD, List.getD_eq_getElem?_getD, List.getElem?_append_left hi]

theorem mod_succ {a sz : Nat} (h : 0 < sz) : (if a % sz + 1 = sz then 0 else a % sz + 1) = (a + 1) % sz := by
  have h1 := Nat.mod_lt a h
  split
  · rename_i h2
    rw [Nat.add_mod]
    by_cases h3 : sz = 1
    · subst h3; simp [Nat.mod_one]
    · rw [Nat.mod_eq_of_lt (show 1 < sz by omega), h2, Nat.mod_self]
  · rename_i h2
    have h3 : a % sz + 1 < sz := by omega
    rw [Nat.add_mod, Nat.mod_eq_of_lt (show 1 < sz by omega), Nat.mod_eq_of_lt h3]

theorem mod_inj {sz o k j : Nat} (hk : k < sz) (h : (o + k) % sz = (o + j) % sz) : j % sz = k := by
  have h0 : 0 < sz := by omega
  have e : ∀ x, (o + x) % sz = (o % sz + x % sz) % sz := fun x => Nat.add_mod ..
  rw [e, e] at h
  have h1 := Nat.mod_lt o h0
  have h2 := Nat.mod_lt j h0
  rw [Nat.mod_eq_of_lt hk] at h
  have f : ∀ x, x < sz → (o % sz + x) % sz = if o % sz + x < sz then o % sz + x else o % sz + x - sz := by
    intro x hx
    split
    · rw [Nat.mod_eq_of_lt ‹_›]
    · rw [Nat.mod_eq_sub_mod (by omega), Nat.mod_eq_of_lt (by omega)]
  rw [f _ hk, f _ h2] at h
  split at h <;> split at h <;> omega

theorem ring_put {sz o : Nat} {s : Stream} {w : List Byte} (h : Ring sz o s w) (b : Byte) :
    ∃ s', put sz s b = .ok s' ∧ Ring sz o s' (w ++ [b]) := by
  have h0 : 0 < sz := by have := h.olt; omega
  have hin : s.tin < sz := by rw [h.tin]; exact Nat.mod_lt _ h0
  have : ∃ s', put sz s b = .ok s' := by
    have hw : wr s.mem s.tin b = .ok (s.mem.set s.tin b) := by unfold wr; rw [if_pos (by rw [h.len]; exact hin)]
    exact ⟨_, by unfold put; rw [hw]; rfl⟩
  obtain ⟨s', hs⟩ := this
  refine ⟨s', hs, by rw [put_mem hs]; simp [h.len], h.olt, ?_, ?_⟩
  · rw [put_tin hs, h.tin, mod_succ h0]; simp [Nat.add_assoc]
  · intro k hk hkw
    rw [put_mem hs, List.getElem?_set, h.len]
    simp only [List.length_append, List.length_singleton] at hkw
    rw [newest_snoc h0 w b k hk (by omega)]
    by_cases hd : (w.length - k) % sz = 0
    · have hw : s.tin = (o + k) % sz := by
        rw [h.tin]
        have := Nat.div_add_mod (w.length - k) sz
        have e : o + w.length = o + k + sz * ((w.length - k) / sz) := by omega
        rw [e, Nat.add_mul_mod_self_left]
      rw [if_pos hw, if_pos hin, if_pos hd]
    · have hlt : k < w.length := by
        rcases Nat.lt_or_ge k w.length with h' | h'
        · exact h'
        · exfalso; apply hd; rw [show w.length - k = 0 by omega]; simp
      have hw : s.tin ≠ (o + k) % sz := by
        intro he
        rw [h.tin] at he
        have := mod_inj hk he.symm
        apply hd
        have h1 := Nat.div_add_mod w.length sz
        have e : w.length - k = sz * (w.length / sz) := by omega
        rw [e, Nat.mul_mod_right]
      rw [if_neg hw, if_neg hd]
      exact h.val k hk hlt

theorem ring_puts {sz o : Nat} : ∀ (bs : List Byte) {st : St} {w : List Byte}, Ring sz o st.s w →
    ∃ st', run sz st (bs.map .put) = .ok st' ∧ Ring sz o st'.s (w ++ bs) ∧ st'.chan = st.chan ∧ st'.fl = st.fl := by
  intro bs
  induction bs with
  | nil => intro st w h; exact ⟨st, rfl, by simpa using h, rfl, rfl⟩
  | cons b bs ih =>
    intro st w h
    obtain ⟨s', h1, h2⟩ := ring_put h b
    obtain ⟨st', k1, k2, k3, k4⟩ := ih (st := { st with s := s' }) h2
    exact ⟨st', by simp only [List.map_cons, run, step, h1, Res.map', Res.bind, k1], by simpa using k2, k3, k4⟩

theorem sends {sz : Nat} (f : Nat → Byte) : ∀ (k : Nat) {st : St} {p r : Nat}, st.fl = [some (p, r)] → k ≤ r →
    (∀ i, i < r → st.s.mem[p + i]? = some (f i)) →
    ∃ st', run sz st (List.replicate k (.send 0)) = .ok st' ∧ st'.chan = st.chan ++ (List.range k).map f := by
  intro k
  induction k generalizing f with
  | zero => intro st p r _ _ _; exact ⟨st, rfl, by simp⟩
  | succ k ih =>
    intro st p r hf hk hv
    have hb := hv 0 (by omega)
    simp only [Nat.add_zero] at hb
    have hstep : step sz st (.send 0) = .ok { st with chan := st.chan ++ [f 0], fl := [if r - 1 = 0 then none else some (p + 1, r - 1)] } := by
      simp only [step, hf, List.getElem?_cons_zero, RdyGrp.ix, hb, Res.map', List.set_cons_zero]
    by_cases h0 : r - 1 = 0
    · have : k = 0 := by omega
      subst this
      exact ⟨{ st with chan := st.chan ++ [f 0], fl := [if r - 1 = 0 then none else some (p + 1, r - 1)] }, by
        simp only [List.replicate, run, hstep, Res.bind], by simp [List.range_succ]⟩
    · rw [if_neg h0] at hstep
      obtain ⟨st', k1, k2⟩ := ih (fun i => f (i + 1)) (st := { st with chan := st.chan ++ [f 0], fl := [some (p + 1, r - 1)] }) rfl
        (by omega) (by
          intro i hi
          have := hv (i + 1) (by omega)
          rw [← this]
          congr 1; omega)
      refine ⟨st', by simp only [List.replicate_succ, run, hstep, Res.bind, k1], ?_⟩
      rw [k2, List.range_succ_eq_map, List.map_cons, List.map_map, List.append_assoc]
      rfl

theorem run_append {sz : Nat} : ∀ (l m : List Op) {st st' : St}, run sz st l = .ok st' → run sz st (l ++ m) = run sz st' m := by
  intro l
  induction l with
  | nil => intro m st st' h; simp only [run, Res.ok.injEq] at h; rw [h]; rfl
  | cons o l ih =>
    intro m st st' h
    simp only [run, List.cons_append] at h ⊢
    obtain ⟨a, h1, h2⟩ := Res.bind'_eq_ok.1 h
    rw [h1]; exact ih m h2

/-- **C143** What is sent if records are written while a block is being sent: after a history with unread bytes `u`, the flushing
context takes a block of `m` bytes and any bytes `bs` are written, however many. Then the byte sent for place `i` of the block is the
newest of the bytes `u ++ bs` whose position is `i` modulo the size of the stream. -/
theorem bytes_sent_exactly (sz : Nat) (hsz : 0 < sz ∧ sz ≤ 2048) (mem : List Byte) (hm : mem.length = sz) (ops : List Op) {st st1 : St}
    (h0 : start sz mem = .ok st) (ht : Along sz Turn st ops) (hr : Along sz (Room sz) st ops) (h1 : run sz st ops = .ok st1)
    (hidle : st1.fl = [none]) (n : Nat) :
    ∃ u outs m, Trc.Spec.Run sz [FLG] (calls ops) outs u ∧ m ≤ n ∧ m ≤ u.length ∧ (0 < n → u ≠ [] → 0 < m) ∧
      ∀ (bs : List Byte) (k : Nat), k ≤ m →
        ∃ st2, run sz st1 (.grab 0 n :: bs.map .put ++ List.replicate k (.send 0)) = .ok st2 ∧
          st2.chan = st1.chan ++ (List.range k).map (newest sz (u ++ bs)) := by
  obtain ⟨st0, e1, e2, _⟩ := start_inv hsz mem hm
  rw [h0] at e1; cases e1
  obtain ⟨st', u, pend, outs, k1, k2, k3, _⟩ := run_inv hsz.2 ops e2 ht hr
  rw [h1] at k1; cases k1
  obtain ⟨st2, o, u2, g1, g2, g3, g4, g5, g6, g7, g8, g9, g10⟩ := grab_inv k2 0 n (by simp [Turn, hidle])
  have hto := k2.rep.tout
  refine ⟨u, outs, o.length, k3, ?_, by rw [g6]; simp, ?_, ?_⟩
  · rw [g7]; split <;> split <;> omega
  · intro hn hu
    have : 0 < u.length := by cases u with
      | nil => exact absurd rfl hu
      | cons _ _ => simp
    rw [g7]; split <;> split <;> omega
  · intro bs k hk
    have hring : Ring sz st1.s.tout st2.s u := by
      have := rep_ring k2.rep
      exact ⟨by rw [g9]; exact this.len, this.olt, by rw [g10]; exact this.tin, by rw [g9]; exact this.val⟩
    obtain ⟨st3, f1, f2, f3, f4⟩ := ring_puts bs hring
    have hrun : ∀ m, run sz st1 (.grab 0 n :: bs.map .put ++ m) = run sz st3 m := by
      intro m
      rw [List.cons_append]
      simp only [run, g1, Res.bind]
      exact run_append _ _ f1
    rw [hrun]
    by_cases hk0 : k = 0
    · subst hk0
      exact ⟨st3, rfl, by rw [f3, g3]; simp⟩
    · have hfl := g8 (by omega)
      have hlen : o.length ≤ u.length ∧ st1.s.tout + o.length ≤ sz := by
        constructor
        · rw [g6]; simp
        · rw [g7]; split <;> (try split) <;> omega
      obtain ⟨st4, c1, c2⟩ := sends (sz := sz) (newest sz (u ++ bs)) k (st := st3) (p := st1.s.tout) (r := o.length) (by rw [f4, hfl]) hk (by
        intro i hi
        have := f2.val i (by omega) (by simp; omega)
        rwa [Nat.mod_eq_of_lt (by omega)] at this)
      exact ⟨st4, c1, by rw [c2, f3, g3]⟩

/-- **C143** So the byte of place `i` is the one that was taken if not more than `sz + i - |u|` bytes have been written since, … -/
theorem byte_intact {sz : Nat} {u bs : List Byte} {i : Nat} (hi : i < u.length) (h : u.length + bs.length ≤ sz + i) :
    newest sz (u ++ bs) i = u.getD i 0#8 := by
  rw [newest_small (by simp; omega) (by simpa using h), List.getD_eq_getElem?_getD, List.getD_eq_getElem?_getD, List.getElem?_append_left hi]

/-- … and otherwise one of those that have been written since. -/
theorem byte_overwritten {sz : Nat} {u bs : List Byte} {i : Nat} (h0 : 0 < sz) (hu : u.length ≤ sz) (h : sz + i < u.length + bs.length) :
    ∃ j, sz + i ≤ u.length + j ∧ ∃ hj : j < bs.length, newest sz (u ++ bs) i = bs[j] := by
  have hd := Nat.div_add_mod ((u ++ bs).length - 1 - i) sz
  have hq : 1 ≤ ((u ++ bs).length - 1 - i) / sz := by
    rw [Nat.le_div_iff_mul_le h0]; simp; omega
  have hm : sz ≤ sz * (((u ++ bs).length - 1 - i) / sz) := Nat.le_mul_of_pos_right sz hq
  have hlen : (u ++ bs).length = u.length + bs.length := by simp
  refine ⟨i + sz * (((u ++ bs).length - 1 - i) / sz) - u.length, by omega, by omega, ?_⟩
  unfold newest
  rw [List.getD_eq_getElem?_getD, List.getElem?_append_right (by omega), List.getElem?_eq_getElem (by omega)]
  rfl

/-- The hypotheses are met, and the exact theorem describes the failure above: of the block `[FLG, 1, 2, 3]` the first byte is replaced. -/
example : Along 4 Turn st4 [.put 1, .put 2, .put 3] ∧ Along 4 (Room 4) st4 [.put 1, .put 2, .put 3] ∧
    (List.range 4).map (newest 4 ([FLG, 1, 2, 3] ++ [9])) = [9, 1, 2, 3] := by decide +kernel

end Verif.Trc.Flush
