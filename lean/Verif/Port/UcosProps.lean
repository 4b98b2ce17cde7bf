import Verif.Port.Ucos
/-
Properties C185-C189: what the uC/OS ports put in place of RKH's own tick, queues and priorities.
-/
namespace Verif.Port.Ucos
open Verif

/-! ### C185: the tick -/

theorem osTicks_eq {os rkh : Nat} : ∀ (n cnt : Nat), 0 < cnt → cnt ≤ reload os rkh →
    (osTicks os rkh n cnt).2 = (n + (reload os rkh - cnt)) / reload os rkh := by
  intro n
  induction n with
  | zero =>
    intro cnt h1 h2
    simp only [osTicks]
    rw [Nat.zero_add, Nat.div_eq_of_lt (by omega)]
  | succ n ih =>
    intro cnt h1 h2
    simp only [osTicks, isrTick]
    rw [if_pos (by omega)]
    by_cases h : cnt - 1 = 0
    · rw [if_pos h]
      simp only [if_true]
      rw [ih _ (by omega) (Nat.le_refl _), Nat.sub_self]
      have : n + 1 + (reload os rkh - cnt) = n + reload os rkh := by omega
      rw [this, Nat.add_div_right _ (by omega)]
      rfl
    · rw [if_neg h]
      simp only [Bool.false_eq_true, if_false, Nat.add_zero]
      rw [ih _ (by omega) (by omega)]
      congr 1
      omega

/-- **C185 (exact law).** In `n` ticks of the operating system the framework makes one tick for every `k`, where `k` is the quotient of the rates, rounded down
and cut to 16 bits; none at all if that is 0. -/
theorem framework_ticks (os rkh n : Nat) :
    ticks os rkh n = if os / rkh % 65536 = 0 then 0 else n / (os / rkh % 65536) := by
  unfold ticks
  show _ = if reload os rkh = 0 then 0 else n / reload os rkh
  by_cases hk : reload os rkh = 0
  · rw [if_pos hk, hk]
    have : ∀ n, osTicks os rkh n 0 = (0, 0) := by
      intro n
      induction n with
      | zero => rfl
      | succ n ih => simp [osTicks, isrTick, ih]
    rw [this]
  · rw [if_neg hk, osTicks_eq n _ (by omega) (Nat.le_refl _), Nat.sub_self]
    rfl

/-- **C185, the part that holds.** If the framework's rate divides the operating system's and the quotient fits in 16 bits, the framework makes exactly
`rkh` ticks per second. Missing: all other rates, for which the claim is false. -/
theorem tick_rate_partial (os rkh : Nat) (hr : 0 < rkh) (hd : rkh ∣ os) (ho : 0 < os) (hq : os / rkh < 65536) (seconds : Nat) :
    ticks os rkh (os * seconds) = rkh * seconds := by
  obtain ⟨k, rfl⟩ := hd
  have hk : 0 < k := by
    rcases Nat.eq_zero_or_pos k with h | h
    · subst h; simp at ho
    · exact h
  rw [Nat.mul_div_cancel_left k hr] at hq
  rw [framework_ticks, Nat.mul_div_cancel_left k hr, Nat.mod_eq_of_lt hq, if_neg (by omega)]
  have : rkh * k * seconds = k * (rkh * seconds) := by
    rw [Nat.mul_comm rkh k, Nat.mul_assoc]
  rw [this, Nat.mul_div_cancel_left _ hk]

/-- **C185 is false of the code.** A framework rate above the operating system's is accepted when the port is compiled, whatever the rates are, and no tick ever
takes place. -/
theorem no_tick_at_all (os rkh : Nat) (h : os < rkh) : accepted 0 os = true ∧ ∀ n, ticks os rkh n = 0 := by
  refine ⟨by simp [accepted], fun n => ?_⟩
  rw [framework_ticks, Nat.div_eq_of_lt h]
  rfl

/-- **C185 is false of the code.** If the rate does not divide the operating system's, the framework's clock is too fast: more than `rkh` ticks in a second. -/
theorem tick_too_fast (os rkh : Nat) (hr : 0 < rkh) (hle : rkh ≤ os) (hd : ¬ rkh ∣ os) (hq : os / rkh < 65536) :
    ∃ seconds, rkh * seconds < ticks os rkh (os * seconds) := by
  have hk : 0 < os / rkh := Nat.div_pos hle hr
  refine ⟨os / rkh, ?_⟩
  rw [framework_ticks, Nat.mod_eq_of_lt hq, if_neg (by omega), Nat.mul_div_cancel _ hk]
  have h1 := Nat.div_add_mod os rkh
  have h2 : os % rkh ≠ 0 := fun h => hd (Nat.dvd_of_mod_eq_zero h)
  omega

example : ticks 1000 100 1000 = 100 ∧ ticks 1000 300 1000 = 333 ∧ ticks 1000 2000 1000 = 0 := by decide +kernel

example : (0 : Nat) < 100 ∧ 100 ∣ 1000 ∧ 1000 / 100 < 65536 ∧ ¬ 300 ∣ 1000 := by decide

/-! ### C186: the event queue -/

/-- The message at `pm`. -/
def message (size : Nat) (src : Nat → Nat) (pm : Nat) : List Nat := (List.range size).map fun i => src (pm + i)

/-- Specification: a list of at most `n` messages. -/
def specStep (n size : Nat) (l : List (List Nat)) : Op → List (List Nat) × Out
  | .put lifo osOk src pm =>
    if l.length < n ∧ osOk then (if lifo then message size src pm :: l else l ++ [message size src pm], .put true) else (l, .put false)
  | .get => match l with
    | [] => ([], .get none)
    | m :: l => (l, .get (some m))

/-- Specification of a history. -/
def specRun (n size : Nat) : List (List Nat) → List Op → List (List Nat) × List Out
  | l, [] => (l, [])
  | l, op :: ops => ((specRun n size (specStep n size l op).1 ops).1, (specStep n size l op).2 :: (specRun n size (specStep n size l op).1 ops).2)

theorem copyLoop_eq : ∀ (n : Nat) (src : Nat → Nat) (f : Nat) (dst : Nat → Nat) (t x : Nat),
    copyLoop n src f dst t x = if t ≤ x ∧ x < t + n then src (f + (x - t)) else dst x := by
  intro n
  induction n with
  | zero => intro src f dst t x; simp only [copyLoop]; rw [if_neg (by omega)]
  | succ n ih =>
    intro src f dst t x
    simp only [copyLoop]
    rw [ih]
    by_cases h1 : t + 1 ≤ x ∧ x < t + 1 + n
    · rw [if_pos h1, if_pos (by omega)]
      congr 1; omega
    · rw [if_neg h1]
      by_cases h2 : x = t
      · rw [if_pos h2, if_pos (by omega)]
        congr 1; omega
      · rw [if_neg h2, if_neg (by omega)]

/-- The words of block `b`. -/
def words (s : MsgQ) (b : Nat) : List Nat := (List.range s.size).map fun i => s.mem (b + i)

/-- The state of the queue: blocks are used once, and the messages waiting are `l`. -/
structure Inv (n size base : Nat) (s : MsgQ) (l : List (List Nat)) : Prop where
  cap : s.cap = n
  sz : s.size = size
  live : s.live = true
  blocks : (s.free ++ s.q).Perm ((List.range n).map fun i => base + i * size)
  msgs : s.q.map (words s) = l

theorem blocks_apart {n size base a b : Nat} (ha : a ∈ (List.range n).map fun i => base + i * size) (hb : b ∈ (List.range n).map fun i => base + i * size)
    (h : a ≠ b) : a + size ≤ b ∨ b + size ≤ a := by
  simp only [List.mem_map, List.mem_range] at ha hb
  obtain ⟨i, _, rfl⟩ := ha
  obtain ⟨j, _, rfl⟩ := hb
  rcases Nat.lt_trichotomy i j with h1 | h1 | h1
  · left
    have := Nat.mul_le_mul_right size (show i + 1 ≤ j from h1)
    rw [Nat.add_mul] at this; omega
  · subst h1; exact absurd rfl h
  · right
    have := Nat.mul_le_mul_right size (show j + 1 ≤ i from h1)
    rw [Nat.add_mul] at this; omega

theorem blocks_nodup (n base : Nat) {size : Nat} (hs : 0 < size) : ((List.range n).map fun i => base + i * size).Nodup := by
  rw [List.Nodup, List.pairwise_map]
  refine List.Pairwise.imp ?_ (List.pairwise_lt_range (n := n))
  intro a b h e
  have : a * size = b * size := by omega
  have := Nat.eq_of_mul_eq_mul_right hs this
  omega

theorem inv_step {n size base : Nat} (hs : 0 < size) {s : MsgQ} {l : List (List Nat)} (h : Inv n size base s l) (op : Op) :
    Inv n size base (step s op).1 (specStep n size l op).1 ∧ (step s op).2 = (specStep n size l op).2 := by
  have hlen : s.free.length + s.q.length = n := by
    have := h.blocks.length_eq
    simpa using this
  have hnd : (s.free ++ s.q).Nodup := h.blocks.nodup_iff.mpr (blocks_nodup n base hs)
  have hl : l.length = s.q.length := by rw [← h.msgs]; simp
  cases op with
  | get =>
    simp only [step, msgQGet]
    cases hq : s.q with
    | nil =>
      have : l = [] := by rw [← h.msgs, hq]; rfl
      subst this
      exact ⟨h, rfl⟩
    | cons b q =>
      have hl' : l = words s b :: q.map (words s) := by rw [← h.msgs, hq]; rfl
      subst hl'
      refine ⟨⟨h.cap, h.sz, h.live, ?_, rfl⟩, rfl⟩
      have := h.blocks
      rw [hq] at this
      exact List.perm_middle.symm.trans this
  | put lifo osOk src pm =>
    simp only [step, msgQPut, specStep]
    cases hf : s.free with
    | nil =>
      rw [hf] at hlen
      simp only [List.length_nil, Nat.zero_add] at hlen
      rw [if_neg (by omega)]
      exact ⟨h, rfl⟩
    | cons b free =>
      rw [hf] at hlen
      simp only [List.length_cons] at hlen
      have hb : b ∈ (List.range n).map fun i => base + i * size := h.blocks.subset (by rw [hf]; simp)
      have hother : ∀ a ∈ s.q, words { s with mem := copyLoop s.size src pm s.mem b } a = words s a := by
        intro a ha
        have hane : a ≠ b := by
          intro e
          subst e
          rw [hf] at hnd
          simp only [List.cons_append, List.nodup_cons, List.mem_append, not_or] at hnd
          exact hnd.1.2 ha
        have ha' : a ∈ (List.range n).map fun i => base + i * size := h.blocks.subset (by simp [ha])
        have hap := blocks_apart ha' hb hane
        simp only [words]
        apply List.map_congr_left
        intro i hi
        rw [List.mem_range] at hi
        have := h.sz
        rw [copyLoop_eq, if_neg (by omega)]
      have hmap : s.q.map (words { s with mem := copyLoop s.size src pm s.mem b }) = l := by
        rw [← h.msgs]
        exact List.map_congr_left hother
      simp only []
      by_cases hos : osOk = true
      · have hlt : osOk = true ∧ s.live = true ∧ s.q.length < s.cap := ⟨hos, h.live, by have := h.cap; omega⟩
        rw [if_pos hlt, if_pos (show l.length < n ∧ osOk = true from ⟨by omega, hos⟩)]
        refine ⟨⟨h.cap, h.sz, h.live, ?_, ?_⟩, rfl⟩
        · have := h.blocks
          rw [hf, List.cons_append] at this
          cases lifo with
          | true => exact List.perm_middle.trans this
          | false =>
            refine List.Perm.trans ?_ this
            simp only [Bool.false_eq_true, if_false]
            rw [← List.append_assoc]
            exact (List.perm_append_comm (l₁ := free ++ s.q) (l₂ := [b]))
        · have hnew : words { s with mem := copyLoop s.size src pm s.mem b } b = message size src pm := by
            simp only [words, message, h.sz]
            apply List.map_congr_left
            intro i hi
            rw [List.mem_range] at hi
            rw [copyLoop_eq, if_pos (by omega)]
            congr 1; omega
          cases lifo with
          | true =>
            simp only [if_true]
            show (b :: s.q).map (words { s with mem := copyLoop s.size src pm s.mem b }) = _
            rw [List.map_cons, hnew, hmap]
          | false =>
            simp only [Bool.false_eq_true, if_false]
            show (s.q ++ [b]).map (words { s with mem := copyLoop s.size src pm s.mem b }) = _
            rw [List.map_append, hmap, List.map_singleton, hnew]
      · rw [if_neg (fun hc => hos hc.1), if_neg (fun hc => hos hc.2)]
        refine ⟨⟨h.cap, h.sz, h.live, ?_, hmap⟩, rfl⟩
        have := h.blocks
        rw [hf] at this
        exact this

/-- **C186.** For every size of the queue and of the messages, storage with any contents and history of posts at either end and gets: the results are those
of a list of at most `n` messages (a post is refused exactly if `n` messages wait or the operating system has no message left in its
pool; every message got is one that was put, unaltered), and no block of
the storage is ever lost. -/
theorem os_queue_is_bounded_list (n size base : Nat) (hs : 0 < size) (mem : Nat → Nat) (ops : List Op) :
    (run (create n size base mem) ops).2 = (specRun n size [] ops).2 ∧
    (run (create n size base mem) ops).1.free.length + (specRun n size [] ops).1.length = n := by
  have key : ∀ (ops : List Op) (s : MsgQ) (l : List (List Nat)), Inv n size base s l →
      (run s ops).2 = (specRun n size l ops).2 ∧ Inv n size base (run s ops).1 (specRun n size l ops).1 := by
    intro ops
    induction ops with
    | nil => intro s l h; exact ⟨rfl, h⟩
    | cons op ops ih =>
      intro s l h
      obtain ⟨h1, h2⟩ := inv_step hs h op
      obtain ⟨h3, h4⟩ := ih _ _ h1
      exact ⟨by simp only [run, specRun, h2, h3], h4⟩
  obtain ⟨h1, h2⟩ := key ops (create n size base mem) [] ⟨rfl, rfl, rfl, by simp [create], rfl⟩
  refine ⟨h1, ?_⟩
  have h3 := h2.blocks.length_eq
  have h4 := congrArg List.length h2.msgs
  simp at h3 h4
  omega

/-- Two slots of two words; the third post is refused by the operating system and the fifth for lack of room; the post in front overtakes. -/
example : (run (create 2 2 100 fun _ => 0) [.put false true (fun i => 10 + i) 1, .put true false (fun i => i) 0, .put true true (fun i => 20 + i) 5,
      .put false true (fun i => i) 0, .get, .get, .get]).2 =
    [.put true, .put false, .put true, .put false, .get (some [25, 26]), .get (some [11, 12]), .get none] := by decide

/-! ### C187: a post that is refused -/

/-- The events waiting in a queue of addresses. -/
def waiting (s : Sys) : List Nat := s.q.q.map s.q.mem

/-- The queue is one that a history of posts and gets leaves. -/
def Reached (n base : Nat) (s : Sys) : Prop := ∃ mem ops, s.q = (run (create n 1 base mem) ops).1

theorem reached_inv {n base : Nat} {s : Sys} (h : Reached n base s) : ∃ l, Inv n 1 base s.q l := by
  obtain ⟨mem, ops, h⟩ := h
  have key : ∀ (ops : List Op) (s : MsgQ) (l : List (List Nat)), Inv n 1 base s l → ∃ l, Inv n 1 base (run s ops).1 l := by
    intro ops
    induction ops with
    | nil => intro s l h; exact ⟨l, h⟩
    | cons op ops ih => intro s l h; exact ih _ _ (inv_step (by omega) h op).1
  rw [h]
  exact key ops _ [] ⟨rfl, rfl, rfl, by simp [create], rfl⟩

theorem waiting_length (s : Sys) : (waiting s).length = s.q.q.length := by simp [waiting]

/-- **C187, the part that holds.** While fewer than `n` events wait and the operating system has messages left, a post puts the event at the end, or in front, of those waiting, and counts one reference
if the event is dynamic; nothing else changes. Missing: posts that are refused, for which the claim is false. -/
theorem post_with_room_partial (en lifo : Bool) {n base : Nat} {s : Sys} (h : Reached n base s) (e : Nat) (hroom : (waiting s).length < n) :
    ∃ s', post en lifo true s e = .ok s' ∧ waiting s' = (if lifo then e :: waiting s else waiting s ++ [e]) ∧ s'.pool = s.pool ∧
      ∀ x, s'.nref x = if x = e ∧ s.pool e ≠ 0 then (s.nref e + 1) % 256 else s.nref x := by
  obtain ⟨l, hi⟩ := reached_inv h
  obtain ⟨h1, h2⟩ := inv_step (by omega) hi (.put lifo true (fun _ => e) 0)
  have hl : l.length = s.q.q.length := by rw [← hi.msgs]; simp
  rw [waiting_length] at hroom
  simp only [specStep, step, and_true, if_pos (show l.length < n by omega), Out.put.injEq] at h1 h2
  have hw : ∀ {q : MsgQ} {l : List (List Nat)}, Inv n 1 base q l → q.q.map q.mem = l.map (fun m => m.headD 0) := by
    intro q l hq
    rw [← hq.msgs, List.map_map]
    apply List.map_congr_left
    intro b _
    simp [words, hq.sz]
  have hold := hw hi
  have hnew := hw h1
  have hwait : (msgQPut lifo true s.q (fun _ => e) 0).1.q.map (msgQPut lifo true s.q (fun _ => e) 0).1.mem = if lifo then e :: waiting s else waiting s ++ [e] := by
    rw [hnew]
    unfold waiting
    rw [hold]
    cases lifo <;> simp [message]
  unfold post
  by_cases hp : s.pool e ≠ 0
  · rw [if_pos hp]
    simp only [h2]
    rw [if_neg (by simp)]
    refine ⟨_, rfl, hwait, rfl, fun x => ?_⟩
    by_cases hx : x = e
    · simp [hx, hp]
    · simp [hx]
  · rw [if_neg hp]
    simp only [h2]
    rw [if_neg (by simp)]
    refine ⟨_, rfl, hwait, rfl, fun x => ?_⟩
    rw [if_neg (fun h => hp h.2)]

/-- **C187 is false of the code.** A post to a full queue, or one for which the operating system has no message left, halts the system if assertions are
compiled in. Otherwise the event is dropped silently, and a dynamic event has one reference more than before, though it is in no more places: its memory is
never given back. -/
theorem refused_post_leaks (lifo osOk : Bool) {n base : Nat} {s : Sys} (h : Reached n base s) (e : Nat) (hfull : n ≤ (waiting s).length ∨ osOk = false)
    (hdyn : s.pool e ≠ 0) :
    post true lifo osOk s e = .assert ∧
    ∃ s', post false lifo osOk s e = .ok s' ∧ waiting s' = waiting s ∧ s'.q.free = s.q.free ∧ s'.nref e = (s.nref e + 1) % 256 := by
  obtain ⟨l, hi⟩ := reached_inv h
  rw [waiting_length] at hfull
  obtain ⟨h1, h2⟩ := inv_step (by omega) hi (.put lifo osOk (fun _ => e) 0)
  have hl : l.length = s.q.q.length := by rw [← hi.msgs]; simp
  have hno : ¬ (l.length < n ∧ osOk = true) := by
    rintro ⟨h3, h4⟩
    rcases hfull with h5 | h5
    · omega
    · rw [h4] at h5; cases h5
  simp only [specStep, step, if_neg hno, Out.put.injEq] at h1 h2
  have hmem : (msgQPut lifo osOk s.q (fun _ => e) 0).1.q = s.q.q ∧ (msgQPut lifo osOk s.q (fun _ => e) 0).1.free = s.q.free := by
    unfold msgQPut at h2 ⊢
    split at h2
    · rename_i hf; simp [hf]
    · rename_i hf
      rw [hf]
      simp only [] at h2 ⊢
      split at h2
      · cases h2
      · rename_i hc; rw [if_neg hc]; exact ⟨rfl, rfl⟩
  have hw : ∀ {q : MsgQ} {l : List (List Nat)}, Inv n 1 base q l → q.q.map q.mem = l.map (fun m => m.headD 0) := by
    intro q l hq
    rw [← hq.msgs, List.map_map]
    apply List.map_congr_left
    intro b _
    simp [words, hq.sz]
  have hwait := (hw h1).trans (hw hi).symm
  unfold post
  rw [if_pos hdyn]
  simp only [h2]
  refine ⟨by simp, ⟨_, by rw [if_neg (by simp)], ?_, ?_, ?_⟩⟩
  · exact hwait
  · exact hmem.2
  · simp

/-- **C187 is false of the code.** A post to an object that was terminated (`rkh_sma_terminate` deletes its queue, kds/rkhport.c:227-235) halts the system, or
drops the event and leaks its memory in the same way. -/
theorem post_after_termination_leaks (lifo osOk : Bool) (s : Sys) (e : Nat) (hdel : s.q.live = false) (hdyn : s.pool e ≠ 0) :
    post true lifo osOk s e = .assert ∧
    ∃ s', post false lifo osOk s e = .ok s' ∧ s'.q.q = s.q.q ∧ s'.q.free = s.q.free ∧ s'.nref e = (s.nref e + 1) % 256 := by
  have hp : (msgQPut lifo osOk s.q (fun _ => e) 0).2 = false ∧ (msgQPut lifo osOk s.q (fun _ => e) 0).1.q = s.q.q ∧
      (msgQPut lifo osOk s.q (fun _ => e) 0).1.free = s.q.free := by
    unfold msgQPut
    split
    · exact ⟨rfl, rfl, rfl⟩
    · rename_i hf
      rw [if_neg (by simp [hdel]), hf]; exact ⟨rfl, rfl, rfl⟩
  unfold post
  rw [if_pos hdyn]
  simp only [hp.1]
  exact ⟨by simp, ⟨_, by rw [if_neg (by simp)], hp.2.1, hp.2.2, by simp⟩⟩

/-- A queue of one slot with event 500 in it; event 600 is dynamic. -/
def demo : Sys := ⟨(run (create 1 1 100 fun _ => 7) [.put false true (fun _ => 400) 0, .get, .put true true (fun _ => 500) 0]).1, fun e => if e = 600 then 1 else 0, fun _ => 0⟩

example : Reached 1 100 demo ∧ waiting demo = [500] ∧ demo.pool 600 ≠ 0 := ⟨⟨_, _, rfl⟩, by decide, by decide⟩

example : Reached 2 100 ⟨create 2 1 100 fun _ => 0, fun _ => 1, fun _ => 0⟩ ∧ (waiting ⟨create 2 1 100 fun _ => 0, fun _ => 1, fun _ => 0⟩).length < 2 :=
  ⟨⟨_, [], rfl⟩, by decide⟩

/-! ### C188: the records of posts -/

/-- **C188, the part that holds.** The record of a post shows pool and reference counter of the event with the reference of the queue counted: one more than
before the post for a dynamic event. Missing: what it shows of the queue, which is wrong (`record_shows_address`). -/
theorem record_event_partial (en lifo osOk : Bool) (w addr o1 o2 o3 : Nat) (s t : Sys) (e : Nat) (h : post en lifo osOk s e = .ok t) :
    (record w addr o1 o2 o3 t e).pool = s.pool e ∧
    (record w addr o1 o2 o3 t e).nref = if s.pool e ≠ 0 then (s.nref e + 1) % 256 else s.nref e := by
  unfold post at h
  by_cases hp : s.pool e ≠ 0
  · rw [if_pos hp] at h
    simp only [] at h
    split at h
    · cases h
    · cases h
      simp [record, hp]
  · rw [if_neg hp] at h
    simp only [] at h
    split at h
    · cases h
    · cases h
      simp only [record, if_neg hp]
      exact ⟨trivial, trivial⟩

/-- **C188 is false of the code.** What the record shows as the number of waiting events and as the least free space is the same whatever is in the queue;
so for every queue with two slots or more there are posts that both go through, with different numbers of events waiting afterwards and the same
record. -/
theorem record_shows_address (w addr o1 o2 o3 n base e : Nat) (hn : 2 ≤ n) :
    ∃ s1 s2 t1 t2, Reached n base s1 ∧ Reached n base s2 ∧ post true false true s1 e = .ok t1 ∧ post true false true s2 e = .ok t2 ∧
      (waiting t1).length = 1 ∧ (waiting t2).length = 2 ∧ record w addr o1 o2 o3 t1 e = record w addr o1 o2 o3 t2 e := by
  let s1 : Sys := ⟨create n 1 base fun _ => 0, fun _ => 0, fun _ => 0⟩
  have r1 : Reached n base s1 := ⟨_, [], rfl⟩
  let s2 : Sys := ⟨(run (create n 1 base fun _ => 0) [.put false true (fun _ => e) 0]).1, fun _ => 0, fun _ => 0⟩
  have r2 : Reached n base s2 := ⟨_, _, rfl⟩
  obtain ⟨t1, p1, w1, q1, n1⟩ := post_with_room_partial true false r1 e (by simp [waiting, s1, create]; omega)
  have hw2 : (waiting s2).length = 1 := by
    have := (os_queue_is_bounded_list n 1 base (by omega) (fun _ => 0) [.put false true (fun _ => e) 0]).2
    obtain ⟨l, hi⟩ := reached_inv r2
    have h2 := hi.blocks.length_eq
    rw [waiting_length]
    simp [specRun, specStep, show 0 < n by omega] at this h2
    simp only [s2] at h2 ⊢
    omega
  obtain ⟨t2, p2, w2, q2, n2⟩ := post_with_room_partial true false r2 e (by omega)
  refine ⟨s1, s2, t1, t2, r1, r2, p1, p2, ?_, ?_, ?_⟩
  · rw [w1]; simp [waiting, s1, create]
  · rw [w2]; simp [hw2]
  · simp only [record, q1, q2, n1 e, n2 e]; rfl

example : (record 8 0x20001000 3 2 4 demo 600).nElem = 3 ∧ (record 8 0x20001000 3 2 4 demo 600).nMin = -2 ∧ (waiting demo).length = 1 := by decide

/-! ### C189: priorities -/

/-- **C189, the part that holds.** The tasks of the objects have uC/OS priorities in the order of their RKH priorities, never 0 or 1; for objects of a priority below
OS_CFG_PRIO_MAX - 5 they are none of the three least urgent ones, which belong to uC/OS. Missing: objects of other priorities, which should be
rejected and are not (`reserved_priority_not_rejected`). -/
theorem task_priorities_partial (en : Bool) (prioMax p q : Nat) :
    ∃ tp tq, taskPrio en prioMax p true = .ok tp ∧ taskPrio en prioMax q true = .ok tq ∧ (p < q ↔ tp < tq) ∧ 2 ≤ tp ∧
      (p + 5 < prioMax → tp + 3 < prioMax) := by
  have h : ∀ p, taskPrio en prioMax p true = .ok (p + 2) := by
    intro p
    unfold taskPrio
    split
    · cases en <;> rfl
    · rfl
  exact ⟨p + 2, q + 2, h p, h q, by omega, by omega, by omega⟩

/-- **C189 is false of the code.** The check for reserved priorities never fails: whatever the priority, an object is given a uC/OS priority, also one that belongs to
uC/OS or does not exist. -/
theorem reserved_priority_not_rejected (prioMax : Nat) (h : 4 ≤ prioMax) :
    ∀ reserved, prioMax - 2 ≤ reserved → ∃ p, taskPrio true prioMax p true = .ok reserved := by
  intro r hr
  refine ⟨r - 2, ?_⟩
  have : r - 2 + 2 = r := by omega
  unfold taskPrio
  rw [this]
  split <;> rfl

example : taskPrio true 64 60 true = .ok 62 ∧ taskPrio true 64 61 true = .ok 63 ∧ taskPrio true 64 1 true = .ok 3 := by decide

end Verif.Port.Ucos
