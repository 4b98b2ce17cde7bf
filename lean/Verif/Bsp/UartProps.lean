import Verif.Bsp.Uart
/-
Properties C190-C192: the trace stream on the serial line of the LPC17xx board.
-/
namespace Verif.Bsp.Uart

theorem run_cons (s : St) (e : Ev) (es : List Ev) : run s (e :: es) = run (step s e) es := rfl

theorem run_append (s : St) (a b : List Ev) : run s (a ++ b) = run (run s a) b := by simp [run, List.foldl_append]

/-! ### C190: nothing lost -/

/-- The bytes that are somewhere between the caller and the line. -/
def inside (s : St) : List Nat := s.shift.toList ++ s.thr.toList ++ s.rest

/-- Every byte is in one place; the flag is not set while the holding register is full, except in the window. -/
structure Inv (s : St) : Prop where
  all : s.given = s.wire ++ inside s
  flag : s.pc = .wait → s.txEmpty = true → s.thr = none

theorem inv_step {s : St} (h : Inv s) (e : Ev) : Inv (step s e) := by
  obtain ⟨hall, hflag⟩ := h
  rcases s with ⟨tx, pc, rest, thr, shift, due, pend, prim, nest, wire, given⟩
  simp only [inside] at hall hflag
  cases e with
  | call bytes =>
    simp only [step]
    split
    · refine ⟨?_, hflag⟩
      simp only [inside, hall]
      simp
    · exact ⟨hall, hflag⟩
  | cpu =>
    simp only [step, cpu]
    cases pc with
    | wait =>
      cases rest with
      | nil => exact ⟨hall, hflag⟩
      | cons c rest =>
        simp only []
        split
        · rename_i htx
          have := hflag rfl htx
          subst this
          refine ⟨?_, fun h => by cases h⟩
          simp only [inside, hall]
          simp
        · exact ⟨hall, hflag⟩
    | clear => exact ⟨hall, fun _ h => by cases h⟩
  | load =>
    simp only [step]
    split
    · refine ⟨?_, fun _ _ => rfl⟩
      simp only [inside, hall]
      simp
    · exact ⟨hall, hflag⟩
  | raise => simp only [step]; split <;> exact ⟨hall, hflag⟩
  | shiftOut =>
    simp only [step]
    split
    · refine ⟨?_, hflag⟩
      simp only [inside, hall]
      simp
    · exact ⟨hall, hflag⟩
  | irq =>
    simp only [step]
    split
    · refine ⟨hall, fun _ h => ?_⟩
      simpa [isr] using h
    · exact ⟨hall, hflag⟩
  | enter => exact ⟨hall, hflag⟩
  | leave => exact ⟨hall, hflag⟩
  | dis => exact ⟨hall, hflag⟩
  | ena => exact ⟨hall, hflag⟩

theorem inv_run (evs : List Ev) : Inv (run init evs) := by
  have : ∀ (evs : List Ev) (s : St), Inv s → Inv (run s evs) := by
    intro evs
    induction evs with
    | nil => intro s h; exact h
    | cons e evs ih => intro s h; exact ih _ (inv_step h e)
  exact this evs init ⟨rfl, fun _ _ => rfl⟩

/-- **C190.** However calls, steps of the loop, transmission and interrupts interleave: what has been transmitted, followed by what is in the two registers
and what is still to be sent, is what was given to UARTPutnc. So the line carries the given bytes in order, none lost, repeated or overwritten. -/
theorem line_carries_given_bytes (evs : List Ev) :
    let s := run init evs
    s.given = s.wire ++ (s.shift.toList ++ s.thr.toList ++ s.rest) ∧ s.wire <+: s.given :=
  ⟨(inv_run evs).all, by rw [(inv_run evs).all]; exact List.prefix_append _ _⟩

/-! ### C191: sending ends -/

/-- The lost interrupt: the register is empty, the flag is not set, and no interrupt is to come. -/
def Dead (s : St) : Prop := s.pc = .wait ∧ s.txEmpty = false ∧ s.thr = none ∧ s.due = false ∧ s.pend = false ∧ s.rest ≠ []

theorem dead_step {s : St} (h : Dead s) (e : Ev) : Dead (step s e) ∧ (step s e).rest = s.rest := by
  rcases s with ⟨tx, pc, rest, thr, shift, due, pend, prim, nest, wire, given⟩
  obtain ⟨h1, h2, h3, h4, h5, h6⟩ := h
  simp only at h1 h2 h3 h4 h5 h6
  subst h1 h2 h3 h4 h5
  cases rest with
  | nil => exact absurd rfl h6
  | cons c rest =>
    cases e <;> simp only [step, cpu] <;> (try split) <;> simp_all [Dead]

theorem dead_run : ∀ (evs : List Ev) (s : St), Dead s → (run s evs).rest = s.rest := by
  intro evs
  induction evs with
  | nil => intro s _; rfl
  | cons e evs ih =>
    intro s h
    obtain ⟨h1, h2⟩ := dead_step h e
    rw [run_cons, ih _ h1, h2]

/-- **C191 is false of the code.** If the interrupt that reports the first byte gone comes between the write to THR and the clearing of UART0TxEmpty, the flag the
handler has set is cleared again: whatever happens from then on, the second byte is never sent and UARTPutnc never returns. So for all contents of a block of
two bytes or more. -/
theorem lost_interrupt_stops_sender (a b : Nat) (r : List Nat) :
    ∃ evs, (∀ e ∈ evs, e ≠ .dis ∧ e ≠ .enter) ∧
      ∀ more, (run init (.call (a :: b :: r) :: evs ++ more)).rest = b :: r := by
  refine ⟨[.cpu, .load, .raise, .irq, .cpu], by decide, fun more => ?_⟩
  rw [run_append, dead_run]
  · rfl
  · exact ⟨rfl, rfl, rfl, rfl, rfl, by simp [run, init, step, cpu, isr]⟩

/-- What the hardware, the sending loop and the handler do by themselves. -/
def own : List Ev := [.cpu, .load, .raise, .shiftOut, .irq]

/-- No interrupt in the window. -/
def Clean : St → List Ev → Prop
  | _, [] => True
  | s, e :: es => (e = .irq → s.pc = .wait) ∧ Clean (step s e) es

/-- Someone will set the flag. -/
def Live (s : St) : Prop := (s.pc = .wait ∧ s.txEmpty = true) ∨ s.thr ≠ none ∨ s.due = true ∨ s.pend = true

theorem live_step {s : St} (h : Live s) (e : Ev) (hc : e = .irq → s.pc = .wait) : Live (step s e) := by
  rcases s with ⟨tx, pc, rest, thr, shift, due, pend, prim, nest, wire, given⟩
  simp only [Live] at h
  cases e with
  | call bytes => simp only [step]; split <;> exact h
  | cpu =>
    simp only [step, cpu]
    cases pc with
    | wait =>
      cases rest with
      | nil => exact h
      | cons c rest =>
        simp only []
        split
        · exact Or.inr (Or.inl (by simp))
        · exact h
    | clear =>
      rcases h with h | h
      · exact absurd h.1 (by simp)
      · exact Or.inr h
  | load =>
    simp only [step]
    split
    · exact Or.inr (Or.inr (Or.inl rfl))
    · exact h
  | raise =>
    simp only [step]
    split
    · exact Or.inr (Or.inr (Or.inr rfl))
    · exact h
  | shiftOut => simp only [step]; split <;> exact h
  | irq =>
    have hpc : pc = .wait := hc rfl
    subst hpc
    simp only [step]
    split
    · cases thr with
      | none => exact Or.inl ⟨rfl, rfl⟩
      | some c => exact Or.inr (Or.inl (by simp [isr]))
    · exact h
  | enter => exact h
  | leave => exact h
  | dis => exact h
  | ena => exact h

theorem live_run : ∀ (evs : List Ev) (s : St), Live s → Clean s evs → Live (run s evs) := by
  intro evs
  induction evs with
  | nil => intro s h _; exact h
  | cons e evs ih => intro s h hc; exact ih _ (live_step h e hc.1) hc.2

/-- The steps still to be made for all bytes to leave. -/
def work (s : St) : Nat :=
  6 * s.rest.length + (if s.pc = .clear then 1 else 0) + 4 * s.thr.toList.length + s.shift.toList.length + (if s.due then 2 else 0) + (if s.pend then 1 else 0)

theorem work_step {s : St} (hi : Inv s) {e : Ev} (he : e ∈ own) : step s e = s ∨ work (step s e) < work s := by
  have hflag := hi.flag
  rcases s with ⟨tx, pc, rest, thr, shift, due, pend, prim, nest, wire, given⟩
  simp only at hflag
  simp only [own, List.mem_cons, List.not_mem_nil, or_false] at he
  rcases he with rfl | rfl | rfl | rfl | rfl
  · simp only [step, cpu]
    cases pc with
    | wait =>
      cases rest with
      | nil => exact Or.inl rfl
      | cons c rest =>
        simp only []
        split
        · rename_i htx
          have := hflag rfl htx
          subst this
          right
          simp only [work]
          simp
          cases due <;> cases pend <;> simp <;> omega
        · exact Or.inl rfl
    | clear => right; simp only [work]; simp
  · simp only [step]
    split
    · right
      simp only [work]
      simp
      cases due <;> simp <;> omega
    · exact Or.inl rfl
  · simp only [step]
    split
    · rename_i h; subst h
      right
      simp only [work]
      cases pend <;> simp
    · exact Or.inl rfl
  · simp only [step]
    split
    · right
      simp only [work]
      simp
    · exact Or.inl rfl
  · simp only [step]
    split
    · rename_i h
      right
      simp only [work, isr, h.1]
      exact Nat.lt_succ_self _
    · exact Or.inl rfl

/-- The steps of a schedule that change something. -/
def effective : St → List Ev → Nat
  | _, [] => 0
  | s, e :: es => (if step s e = s then 0 else 1) + effective (step s e) es

/-- Critical sections that are open after a history. -/
def openSections (evs : List Ev) : Nat := evs.foldl (fun n e => match e with | .enter => n + 1 | .leave => n - 1 | _ => n) 0

/-- The last of RKH_DIS_INTERRUPT and RKH_ENA_INTERRUPT in a history was the first. -/
def disabled (evs : List Ev) : Bool := evs.foldl (fun b e => match e with | .dis => true | .ena => false | _ => b) false

theorem step_masks (s : St) (e : Ev) :
    (step s e).nest = (match e with | .enter => s.nest + 1 | .leave => s.nest - 1 | _ => s.nest) ∧
    (step s e).primask = (match e with | .dis => true | .ena => false | _ => s.primask) := by
  cases e <;> simp only [step, cpu] <;> (repeat' split) <;> simp [isr]

theorem run_masks (evs : List Ev) : (run init evs).nest = openSections evs ∧ (run init evs).primask = disabled evs := by
  have : ∀ (evs : List Ev) (s : St),
      (run s evs).nest = evs.foldl (fun n e => match e with | .enter => n + 1 | .leave => n - 1 | _ => n) s.nest ∧
      (run s evs).primask = evs.foldl (fun b e => match e with | .dis => true | .ena => false | _ => b) s.primask := by
    intro evs
    induction evs with
    | nil => intro s; exact ⟨rfl, rfl⟩
    | cons e evs ih =>
      intro s
      have h := ih (step s e)
      rw [(step_masks s e).1, (step_masks s e).2] at h
      exact h
  exact this evs init

/-- **C191, the part that holds.** After any history in which the interrupt was never served between the two statements: (1) as long as not every given byte
has left, interrupts are not disabled and no critical section is open, one of loop, UART and handler can do something; it is not the handler in the window unless the loop can go on as
well; (2) whatever these do, in whatever order, they make at most `work` steps that change anything. So all bytes are sent and UARTPutnc
returns (`work` counts six steps for each byte not begun). Missing: histories in which the interrupt is served in the window, for which the claim is false. -/
theorem sending_ends_partial (evs : List Ev) (hc : Clean init evs) (hp : disabled evs = false) (hn : openSections evs = 0) :
    ((run init evs).wire ≠ (run init evs).given ∨ (run init evs).pc = .clear →
      ∃ e ∈ own, (e = .irq → (run init evs).pc = .wait) ∧ step (run init evs) e ≠ run init evs) ∧
    ∀ sched, (∀ e ∈ sched, e ∈ own) → effective (run init evs) sched ≤ work (run init evs) := by
  rw [← (run_masks evs).2] at hp
  rw [← (run_masks evs).1] at hn
  have hi := inv_run evs
  have hl := live_run evs init (Or.inl ⟨rfl, rfl⟩) hc
  generalize run init evs = s at *
  refine ⟨fun hopen => ?_, ?_⟩
  · have hall := hi.all
    rcases s with ⟨tx, pc, rest, thr, shift, due, pend, prim, nest, wire, given⟩
    simp only at hp hn hall hopen
    subst hp hn
    cases pc with
    | clear => exact ⟨.cpu, by simp [own], fun h => (by cases h), by simp [step, cpu]⟩
    | wait =>
      have hopen : wire ≠ given := by
        rcases hopen with h | h
        · exact h
        · cases h
      cases shift with
      | some c => exact ⟨.shiftOut, by simp [own], fun _ => rfl, by simp [step]⟩
      | none =>
        cases thr with
        | some c => exact ⟨.load, by simp [own], fun _ => rfl, by simp [step]⟩
        | none =>
          cases due with
          | true => exact ⟨.raise, by simp [own], fun _ => rfl, by simp [step]⟩
          | false =>
            cases pend with
            | true => exact ⟨.irq, by simp [own], fun _ => rfl, by simp [step, isr]⟩
            | false =>
              have htx : tx = true := by simpa [Live] using hl
              subst htx
              cases rest with
              | nil => exact absurd (by simpa [inside] using hall.symm) hopen
              | cons c rest => exact ⟨.cpu, by simp [own], fun _ => rfl, by simp [step, cpu]⟩
  · intro sched
    clear hl hp hn hc
    induction sched generalizing s with
    | nil => intro _; simp [effective]
    | cons e es ih =>
      intro hs
      simp only [effective]
      have h1 := ih (step s e) (inv_step hi e) (fun x hx => hs x (by simp [hx]))
      rcases work_step hi (hs e (by simp)) with h | h
      · rw [if_pos h]; rw [h] at h1 ⊢; omega
      · split <;> omega

/-! ### C192: after an assertion -/

/-- Bytes that can be taken while no interrupt is served. -/
theorem masked_step {s : St} (hm : s.primask = true) {e : Ev} (he : e ≠ .ena) (hcall : ∀ b, e ≠ .call b) (k : Nat)
    (hk : (if s.pc = .wait ∧ s.txEmpty then 1 else 0) + k < s.rest.length) :
    (step s e).primask = true ∧
      ∃ k', (if (step s e).pc = .wait ∧ (step s e).txEmpty then 1 else 0) + k' < (step s e).rest.length ∧ k ≤ k' := by
  rcases s with ⟨tx, pc, rest, thr, shift, due, pend, prim, nest, wire, given⟩
  simp only at hm hk
  subst hm
  cases e with
  | call b => exact absurd rfl (hcall b)
  | cpu =>
    simp only [step, cpu]
    cases pc with
    | wait =>
      cases rest with
      | nil => exact ⟨rfl, k, hk, Nat.le_refl _⟩
      | cons c rest =>
        cases tx with
        | true =>
          refine ⟨rfl, k, ?_, Nat.le_refl _⟩
          simp at hk ⊢
          omega
        | false => exact ⟨rfl, k, hk, Nat.le_refl _⟩
    | clear => exact ⟨rfl, k, by simpa using hk, Nat.le_refl _⟩
  | load => simp only [step]; split <;> exact ⟨rfl, k, hk, Nat.le_refl _⟩
  | raise => simp only [step]; split <;> exact ⟨rfl, k, hk, Nat.le_refl _⟩
  | shiftOut => simp only [step]; split <;> exact ⟨rfl, k, hk, Nat.le_refl _⟩
  | irq =>
    have : step ⟨tx, pc, rest, thr, shift, due, pend, true, nest, wire, given⟩ .irq = ⟨tx, pc, rest, thr, shift, due, pend, true, nest, wire, given⟩ := by
      simp [step]
    simp only [this]
    exact ⟨trivial, k, hk, Nat.le_refl _⟩
  | enter => exact ⟨rfl, k, hk, Nat.le_refl _⟩
  | leave => exact ⟨rfl, k, hk, Nat.le_refl _⟩
  | dis => exact ⟨rfl, k, hk, Nat.le_refl _⟩
  | ena => exact absurd rfl he

theorem masked_run : ∀ (evs : List Ev) (s : St), s.primask = true → (∀ e ∈ evs, e ≠ .ena ∧ ∀ b, e ≠ .call b) →
    (if s.pc = .wait ∧ s.txEmpty then 1 else 0) < s.rest.length → (run s evs).rest ≠ [] := by
  intro evs
  induction evs with
  | nil => intro s _ _ h e; simp only [run, List.foldl_nil] at e; rw [e] at h; simp at h
  | cons e evs ih =>
    intro s hm he h
    obtain ⟨h1, k, h2, _⟩ := masked_step hm (he e (by simp)).1 (he e (by simp)).2 0 (by omega)
    exact ih _ h1 (fun x hx => he x (by simp [hx])) (by omega)

/-- **C192 is false of the code.** `rkh_assert` disables interrupts, records the assertion and flushes the stream before it resets the board
(bsp_blinky.c:119-128). Whatever has happened before, if the stream holds two bytes or more (or one, and the last byte sent has not been reported gone), the
flush waits for ever for an interrupt that is disabled: the board is never reset. Entering and leaving critical sections does not help, as they use
another mask. -/
theorem assertion_never_resets (before : List Ev) (bytes : List Nat) (evs : List Ev)
    (hidle : (run init before).pc = .wait ∧ (run init before).rest = [])
    (hb : 2 ≤ bytes.length ∨ (bytes ≠ [] ∧ (run init before).txEmpty = false))
    (hno : ∀ e ∈ evs, e ≠ .ena ∧ ∀ b, e ≠ .call b) :
    (run init (before ++ [.dis, .call bytes] ++ evs)).rest ≠ [] := by
  rw [run_append, run_append]
  generalize run init before = s at *
  rcases s with ⟨tx, pc, rest, thr, shift, due, pend, prim, nest, wire, given⟩
  obtain ⟨h1, h2⟩ := hidle
  simp only at h1 h2 hb
  subst h1 h2
  apply masked_run evs _ rfl hno
  simp only [run, List.foldl_cons, List.foldl_nil, step]
  rcases hb with hb | ⟨hb, htx⟩
  · split <;> omega
  · rw [if_neg (by simp [htx])]
    exact List.length_pos_iff.mpr hb

/-- **C192, the part that holds.** If the stream is empty, or holds one byte and the last byte sent has been reported gone, the flush in `rkh_assert` returns after two
steps. Missing: every other case, for which the claim is false. -/
theorem assertion_resets_partial (before : List Ev) (bytes : List Nat)
    (hidle : (run init before).pc = .wait ∧ (run init before).rest = [])
    (hb : bytes = [] ∨ (bytes.length = 1 ∧ (run init before).txEmpty = true)) :
    (run init (before ++ [.dis, .call bytes, .cpu, .cpu])).rest = [] ∧ (run init (before ++ [.dis, .call bytes, .cpu, .cpu])).pc = .wait := by
  rw [run_append]
  generalize run init before = s at *
  rcases s with ⟨tx, pc, rest, thr, shift, due, pend, prim, nest, wire, given⟩
  obtain ⟨h1, h2⟩ := hidle
  simp only at h1 h2 hb
  subst h1 h2
  rcases hb with rfl | ⟨hb, rfl⟩
  · exact ⟨rfl, rfl⟩
  · match bytes, hb with
    | [c], _ => exact ⟨rfl, rfl⟩

/-! ### Examples -/

/-- Two bytes sent without an interrupt in the window. -/
def good : List Ev := [.call [1, 2], .cpu, .cpu, .load, .raise, .irq, .cpu, .cpu, .shiftOut, .load, .raise, .irq, .shiftOut]

example : Clean init good ∧ (run init good).wire = [1, 2] ∧ (run init good).rest = [] ∧ (run init good).pc = .wait := by
  refine ⟨?_, by decide, by decide, by decide⟩
  simp only [good, Clean]
  decide

example : Clean init [.call [1, 2], .cpu, .cpu] ∧ (run init [.call [1, 2], .cpu, .cpu]).wire ≠ (run init [.call [1, 2], .cpu, .cpu]).given ∧
    work (run init [.call [1, 2], .cpu, .cpu]) = 10 ∧ disabled [.dis, .ena, .enter, .enter, .leave, .leave] = false ∧
    openSections [.dis, .ena, .enter, .enter, .leave, .leave] = 0 := by
  refine ⟨?_, by decide, by decide, by decide, by decide⟩
  simp only [Clean]
  decide

/-- After `good`, an assertion with a record of three bytes: one is sent, and nothing after it. -/
example : (run init (good ++ [.dis, .call [7, 8, 9]] ++ [.cpu, .cpu, .load, .raise, .irq, .shiftOut, .cpu, .irq])).rest = [8, 9] := by decide

end Verif.Bsp.Uart
