import Verif.App.SharedQuiet
/-
Properties of the shared-resource application (C134 to C137).
-/
namespace Verif.App.Shared
open Verif.SM

namespace Spec

/-- Client `i` has been given permission to use the resource, or is using it, or its usage timer is running. -/
def Holds (s : St) (i : Nat) : Prop := (∃ e ∈ s.cq i, e.sig = START) ∨ (s.cli i).state = some client_using ∨ s.use i = true

/-- No key is pressed. -/
def NoKeys (os : List Op) : Prop := ∀ o ∈ os, o ≠ .pauseServer ∧ ∀ i, o ≠ .pauseClient i

/-- The requests in a queue: who asked. -/
def requests (l : List Evt) : List Nat := (l.filter fun e => e.sig == REQ).map Evt.cli

/-- As `run`, for a scheduler that lets a client run only while the server has nothing to do (the server has the highest priority,
server.c:82). -/
def prioRun (n : Nat) (s : St) : List Op → Option St
  | [] => some s
  | .client i :: os => if s.sq = [] then (step n s (.client i)).bind fun t => prioRun n t os else none
  | o :: os => (step n s o).bind fun t => prioRun n t os

end Spec
open Spec (Holds NoKeys prioRun)

/-! ### Sums over the clients -/

/-- The sum of `f` over the clients. -/
def total : Nat → (Nat → Nat) → Nat
  | 0, _ => 0
  | n + 1, f => total n f + f n

theorem total_congr {f g : Nat → Nat} : ∀ {n : Nat}, (∀ i, i < n → f i = g i) → total n f = total n g
  | 0, _ => rfl
  | n + 1, h => by rw [total, total, total_congr fun i hi => h i (by omega), h n (by omega)]

theorem total_le {f : Nat → Nat} {c : Nat} : ∀ {n : Nat}, (∀ i, i < n → f i ≤ c) → total n f ≤ c * n
  | 0, _ => by simp [total]
  | n + 1, h => by
    have h1 := total_le (n := n) fun i hi => h i (by omega)
    have h2 := h n (by omega)
    rw [total, Nat.mul_succ]; omega

theorem total_change {f g : Nat → Nat} {i : Nat} : ∀ {n : Nat}, i < n → (∀ j, j ≠ i → g j = f j) → total n g + f i = total n f + g i
  | 0, h, _ => by omega
  | n + 1, h, hj => by
    rw [total, total]
    by_cases hi : i = n
    · subst hi
      rw [total_congr (f := g) (g := f) fun j hj' => hj j (by omega)]
      omega
    · have := total_change (n := n) (by omega) hj
      rw [hj n fun h => hi h.symm]
      omega

theorem total_add (f g : Nat → Nat) : ∀ n : Nat, total n (fun i => f i + g i) = total n f + total n g
  | 0 => rfl
  | n + 1 => by rw [total, total, total, total_add f g n]; omega

theorem total_count {n : Nat} : ∀ {l : List Nat}, (∀ x ∈ l, x < n) → total n (fun i => l.count i) = l.length := by
  intro l
  induction l with
  | nil =>
    intro _
    have : ∀ n, total n (fun i => List.count i []) = 0 := by
      intro n; induction n with
      | zero => rfl
      | succ n ih => rw [total, ih]; simp
    simpa using this n
  | cons x l ih =>
    intro h
    have h1 := ih fun y hy => h y (List.mem_cons_of_mem _ hy)
    have h2 := total_change (n := n) (f := fun i => l.count i) (g := fun i => (x :: l).count i) (i := x) (h x (List.mem_cons_self ..))
      fun j hj => by rw [List.count_cons_of_ne fun h => hj h.symm]
    simp only [List.count_cons_self] at h2
    rw [List.length_cons]
    omega

/-! ### Bounds -/

theorem Inv.requests_lt {n : Nat} {s : St} (h : Inv n s) : (∀ x ∈ requests s.sq, x < n) ∧ ∀ x ∈ requests s.dq, x < n := by
  constructor
  · intro x hx
    simp only [requests, List.mem_map, List.mem_filter, beq_iff_eq] at hx
    obtain ⟨e, ⟨he, hs⟩, rfl⟩ := hx
    rcases h.sq e he with h1 | h1 | h1
    · exact h1.2
    · rw [hs] at h1; cases h1
    · rw [hs] at h1; cases h1
  · intro x hx
    simp only [requests, List.mem_map, List.mem_filter, beq_iff_eq] at hx
    obtain ⟨e, ⟨he, hs⟩, rfl⟩ := hx
    exact (h.dq e he).2

theorem Inv.requests_length {n : Nat} {s : St} (h : Inv n s) : (requests s.sq).length + (requests s.dq).length +
    total n (fun i => starts (s.cq i)) ≤ n := by
  have h1 := total_count h.requests_lt.1
  have h2 := total_count h.requests_lt.2
  have h3 : total n (fun i => (requests s.sq).count i + (requests s.dq).count i + starts (s.cq i)) ≤ 1 * n :=
    total_le fun i _ => by simp only [h.cnt i]; split <;> omega
  rw [total_add, total_add] at h3
  omega

theorem Inv.dq_length {n : Nat} {s : St} (h : Inv n s) : (requests s.dq).length = s.dq.length := by
  have : s.dq.filter (fun e => e.sig == REQ) = s.dq := List.filter_eq_self.2 fun e he => by rw [(h.dq e he).1]; rfl
  rw [requests, this, List.length_map]

theorem Quiet.sq_length {n : Nat} {s : St} (hi : Inv n s) (h : Quiet s) : s.sq.length = (requests s.sq).length + dones s.sq := by
  have key : ∀ l : List Evt, (∀ e ∈ l, (e.sig = REQ ∧ e.cli < n) ∨ e.sig = DONE ∨ e.sig = PAUSE) → (∀ e ∈ l, e.sig ≠ PAUSE) →
      l.length = (requests l).length + dones l := by
    intro l
    induction l with
    | nil => intro _ _; rfl
    | cons e l ih =>
      intro h1 h2
      have := ih (fun x hx => h1 x (List.mem_cons_of_mem _ hx)) fun x hx => h2 x (List.mem_cons_of_mem _ hx)
      rcases h1 e (List.mem_cons_self ..) with h | h | h
      · rw [requests_cons_req h.1, dones_other (by rw [h.1]; decide)]; simp; omega
      · rw [requests_cons_other (by rw [h]; decide), dones_done h]; simp; omega
      · exact absurd h (h2 e (List.mem_cons_self ..))
  exact key s.sq hi.sq h.noPause

theorem Quiet.dones_le {n : Nat} {s : St} (hi : Inv n s) (h : Quiet s) : dones s.sq ≤ 1 := by
  rcases hi.srv with h0 | h0 | h0
  · have := (h.free h0).1; omega
  · rcases h.busy h0 with h1 | h1
    · omega
    · omega
  · exact absurd h0 h.srv

theorem quiet_of {os : List Op} (h : NoKeys os) : ∀ o ∈ os, o.quiet = true := by
  intro o ho
  obtain ⟨h1, h2⟩ := h o ho
  cases o with
  | pauseServer => exact absurd rfl h1
  | pauseClient i => exact absurd rfl (h2 i)
  | server => rfl
  | client i => rfl
  | waitOver i => rfl
  | useOver i => rfl

/-- Clients that do not exist do nothing. -/
theorem far {n : Nat} {os : List Op} : ∀ {s t : St}, Inv n s → (∀ i, n ≤ i → tok s i = 0) → run n s os = some t → ∀ i, n ≤ i → tok t i = 0 := by
  induction os with
  | nil => intro s t _ h ht; cases ht; exact h
  | cons o os ih =>
    intro s t hi h ht
    simp only [run, Option.bind_eq_some_iff] at ht
    obtain ⟨u, h1, h2⟩ := ht
    refine ih (hi.step h1) (fun j hj => ?_) h2
    have hold := h j hj
    rcases hi.cases h1 with ⟨_, e, r, hq, h1⟩ | ⟨i, e, r, _, hin, hq, h1⟩ | ⟨i, _, hin, _, rfl⟩ | ⟨i, _, hin, _, rfl⟩ | ⟨_, rfl⟩ | ⟨i, _, hin, rfl⟩
    · cases h1 with
      | grant y h0 he hy =>
        have hlt : e.cli < n := by
          rcases hi.sq e (hq ▸ List.mem_cons_self ..) with h1 | h1 | h1
          · exact h1.2
          · rw [he] at h1; cases h1
          · rw [he] at h1; cases h1
        simp only [tok, postC, set_other _ _ (show j ≠ e.cli by omega)]; exact hold
      | release y h0 he hy => obtain ⟨k1, k2, _⟩ := recall_keeps { s with srv := y, sq := r }; simp only [tok, k1, k2]; exact hold
      | resume y h0 he hy => obtain ⟨k1, k2, _⟩ := recall_keeps { s with srv := y, sq := r }; simp only [tok, k1, k2]; exact hold
      | defer y h0 he hy => exact hold
      | pause y h0 he hy => exact hold
      | nothing y h0 he hy => exact hold
    · have hji : j ≠ i := by omega
      cases h1 <;> simp only [tok, postS, set_other _ _ hji] <;> exact hold
    · simp only [tok, postC, set_other _ _ (show j ≠ i by omega)]; exact hold
    · simp only [tok, postC, set_other _ _ (show j ≠ i by omega)]; exact hold
    · exact hold
    · simp only [tok, postC, set_other _ _ (show j ≠ i by omega)]; exact hold

/-! ### C134: one at a time -/

theorem tok_of_holds {s : St} (h : Quiet s) {i : Nat} (hh : Holds s i) : tok s i = 1 := by
  cases h.shape i with
  | idle h0 hu hw hq => rcases hh with ⟨e, he, _⟩ | hh | hh <;> simp_all
  | about h0 hu hw hq =>
    rcases hh with ⟨e, he, hs⟩ | hh | hh
    · rw [hq] at he; rw [List.mem_singleton.1 he] at hs; cases hs
    · rw [h0] at hh; cases hh
    · rw [hu] at hh; cases hh
  | waiting h0 hu hw hq => rcases hh with ⟨e, he, _⟩ | hh | hh <;> simp_all
  | granted h0 hu hw hq => simp only [tok, hq, h0]; rfl
  | inUse h0 hu hw hq => simp only [tok, hq, h0]; rfl
  | over h0 hu hw hq => simp only [tok, hq, h0]; rfl

/-- **C134** (for runs without PAUSE). Whatever the scheduler does and whenever the timers expire, at most one client has permission
to use the resource or uses it, and while one does the server is busy. -/
theorem mutual_exclusion_partial {n : Nat} {os : List Op} (hk : NoKeys os) {s : St} (hr : run n start os = some s) {i j : Nat}
    (hi : Holds s i) (hj : Holds s j) : i = j ∧ s.srv.state = some server_busy := by
  have hinv := (Inv.start n).run hr
  have hq := Quiet.start.run (quiet_of hk) (Inv.start n) hr
  have h1 := tok_of_holds hq hi
  have h2 := tok_of_holds hq hj
  rcases hinv.srv with h0 | h0 | h0
  · have := (hq.free h0).2 i; omega
  · refine ⟨?_, h0⟩
    rcases hq.busy h0 with ⟨_, h3⟩ | ⟨_, k, _, h3⟩
    · have := h3 i; omega
    · have hik : i = k := by
        by_cases h : i = k
        · exact h
        · have := h3 i h; omega
      have hjk : j = k := by
        by_cases h : j = k
        · exact h
        · have := h3 j h; omega
      rw [hik, hjk]
  · exact absurd h0 hq.srv

/-- Client 1 uses the resource, client 0 waits; the key is pressed twice before a client runs; the server resumes as idle and grants the
resource to client 0. -/
def twoUsers : List Op :=
  [.waitOver 1, .client 1, .server, .client 1, .waitOver 0, .client 0, .server,
   .pauseServer, .pauseClient 0, .pauseClient 1, .pauseServer, .pauseClient 0, .pauseClient 1,
   .server, .server, .server, .client 0, .client 0, .client 0]

/-- A view of the state that can be compared. -/
structure Look where
  srv : Option Vid
  sq : List Sig
  dq : List Nat
  cli : List (Option Vid × List Sig)
  timers : List (Bool × Bool)
  asked : List Nat
  granted : List Nat
  deriving DecidableEq

@[inherit_doc Look] def look (n : Nat) (s : St) : Look :=
  ⟨s.srv.state, s.sq.map Evt.sig, s.dq.map Evt.cli, (List.range n).map fun i => ((s.cli i).state, (s.cq i).map Evt.sig),
    (List.range n).map fun i => (s.wait i, s.use i), s.asked, s.granted⟩

/-- **C134** is not met when the application is paused: after PAUSE, PAUSE the server regards the resource as free although a client
still uses it, and two clients use it at the same time, with a scheduler that respects the priorities. -/
theorem mutual_exclusion_fails : ∃ s, prioRun 2 start twoUsers = some s ∧ (s.cli 0).state = some client_using ∧
    (s.cli 1).state = some client_using ∧ s.use 0 = true ∧ s.use 1 = true := by
  have h : (prioRun 2 start twoUsers).map (fun s => ((s.cli 0).state, (s.cli 1).state, s.use 0, s.use 1)) =
      some (some client_using, some client_using, true, true) := by decide +kernel
  cases hs : prioRun 2 start twoUsers with
  | none => rw [hs] at h; cases h
  | some s =>
    rw [hs] at h
    simp only [Option.map_some, Option.some.injEq, Prod.mk.injEq] at h
    exact ⟨s, rfl, h.1, h.2.1, h.2.2.1, h.2.2.2⟩

/-! ### C135: requests -/

theorem pending_perm {n : Nat} {s : St} (h : Inv n s) : (pending s).Perm (requests s.sq ++ requests s.dq) := by
  by_cases h0 : s.srv.state = some 0
  · rcases h.head h0 with hd | ⟨e, r, hq, he⟩
    · rw [pending_idle_nil h0 hd, hd]; simp [requests]
    · rw [pending_idle_req h0 hq he, hq, requests_cons_req he]
      exact .cons _ List.perm_append_comm
  · rw [pending_busy h0]; exact List.perm_append_comm

/-- **C135.** In every run, with or without PAUSE: the resource is granted in the order in which it was requested, each request once
(what was asked for and not yet granted are exactly the requests in the server's queue and in its queue of deferred requests); a client
that waits has exactly one request or permission under way, and any other client none; the state machines never fail. -/
theorem requests_are_kept {n : Nat} {os : List Op} {s : St} (hr : run n start os = some s) :
    (∃ rest, s.asked = s.granted ++ rest ∧ rest.Perm (Spec.requests s.sq ++ Spec.requests s.dq)) ∧
    (∀ i, (Spec.requests s.sq).count i + (Spec.requests s.dq).count i + (s.cq i).countP (fun e => e.sig == START) =
      if (s.cli i).state = some client_waiting then 1 else 0) ∧
    (s.sq ≠ [] → (step n s .server).isSome = true) ∧ (∀ i, i < n → s.cq i ≠ [] → (step n s (.client i)).isSome = true) := by
  have h := (Inv.start n).run hr
  refine ⟨⟨pending s, h.order, pending_perm h⟩, h.cnt, fun hne => ?_, fun i hi hne => ?_⟩
  · cases hq : s.sq with
    | nil => exact absurd hq hne
    | cons e r =>
      have he : e.sig = REQ ∨ e.sig = DONE ∨ e.sig = PAUSE := by
        rcases h.sq e (hq ▸ List.mem_cons_self ..) with h | h | h
        · exact .inl h.1
        · exact .inr (.inl h)
        · exact .inr (.inr h)
      obtain ⟨t, ht, _⟩ := srv_step (n := n) hq h.srv he
      rw [ht]; rfl
  · cases hq : s.cq i with
    | nil => exact absurd hq hne
    | cons e r =>
      obtain ⟨t, ht, _⟩ := cli_step hi hq (h.cli i) (h.cq i e (hq ▸ List.mem_cons_self ..))
      rw [ht]; rfl

/-! ### C136: sizes of the queues -/

/-- **C136**, the queue of deferred requests: at most one request per client, in all runs. (MAX_SIZEOF_QREQ is twice that.) Requests and
permissions, the dynamic events of the program, are at most one per client. -/
theorem deferred_fit {n : Nat} {os : List Op} {s : St} (hr : run n start os = some s) :
    s.dq.length ≤ n ∧ (Spec.requests s.sq).length + s.dq.length + total n (fun i => (s.cq i).countP fun e => e.sig == START) ≤ n := by
  have h := (Inv.start n).run hr
  have h1 := h.requests_length
  have h2 := h.dq_length
  refine ⟨by omega, ?_⟩
  have h3 : (Spec.requests s.sq).length = (requests s.sq).length := rfl
  have h4 : total n (fun i => (s.cq i).countP fun e => e.sig == START) = total n (fun i => starts (s.cq i)) := rfl
  omega

/-- **C136** (event queues; without PAUSE). With any scheduler the server's queue never holds more than `n + 1` events and a client's
queue never more than one; with a scheduler that respects the priorities the server's queue never holds more than one. -/
theorem queues_fit_partial {n : Nat} {os : List Op} (hk : NoKeys os) {s : St} :
    (run n start os = some s → s.sq.length ≤ n + 1 ∧ ∀ i, (s.cq i).length ≤ 1) ∧
    (prioRun n start os = some s → s.sq.length ≤ 1 ∧ ∀ i, (s.cq i).length ≤ 1) := by
  have cqs : ∀ {s : St}, Quiet s → ∀ i, (s.cq i).length ≤ 1 := by
    intro s h i
    cases h.shape i with
    | idle _ _ _ hq => simp [hq]
    | about _ _ _ hq => simp [hq]
    | waiting _ _ _ hq => simp [hq]
    | granted _ _ _ hq => simp [hq]
    | inUse _ _ _ hq => simp [hq]
    | over _ _ _ hq => simp [hq]
  constructor
  · intro hr
    have hinv := (Inv.start n).run hr
    have hq := Quiet.start.run (quiet_of hk) (Inv.start n) hr
    have h1 := hq.sq_length hinv
    have h2 := hq.dones_le hinv
    have h3 := hinv.requests_length
    exact ⟨by omega, cqs hq⟩
  · have key : ∀ {os : List Op} {s t : St}, (∀ o ∈ os, o.quiet = true) → Inv n s → Quiet s → s.sq.length ≤ 1 → prioRun n s os = some t →
        t.sq.length ≤ 1 ∧ Quiet t := by
      intro os
      induction os with
      | nil => intro s t _ _ hq hl ht; cases ht; exact ⟨hl, hq⟩
      | cons o os ih =>
        intro s t ho hi hq hl ht
        have hob := ho o (List.mem_cons_self ..)
        have step1 : ∃ u, step n s o = some u ∧ (∀ i, o = .client i → s.sq = []) ∧ prioRun n u os = some t := by
          cases o with
          | client i =>
            simp only [prioRun] at ht
            split at ht
            · rename_i he
              simp only [Option.bind_eq_some_iff] at ht
              obtain ⟨u, h1, h2⟩ := ht
              exact ⟨u, h1, fun _ _ => he, h2⟩
            · cases ht
          | server =>
            simp only [prioRun, Option.bind_eq_some_iff] at ht
            obtain ⟨u, h1, h2⟩ := ht
            exact ⟨u, h1, (fun _ h => by cases h), h2⟩
          | waitOver i =>
            simp only [prioRun, Option.bind_eq_some_iff] at ht
            obtain ⟨u, h1, h2⟩ := ht
            exact ⟨u, h1, (fun _ h => by cases h), h2⟩
          | useOver i =>
            simp only [prioRun, Option.bind_eq_some_iff] at ht
            obtain ⟨u, h1, h2⟩ := ht
            exact ⟨u, h1, (fun _ h => by cases h), h2⟩
          | pauseServer => cases hob
          | pauseClient i => cases hob
        obtain ⟨u, h1, h2, h3⟩ := step1
        have hm := hq.move hi hob h1
        refine ih (fun o' ho' => ho o' (List.mem_cons_of_mem _ ho')) (hi.step h1) (hq.step hi hm) ?_ h3
        rcases hi.cases h1 with ⟨_, e, r, hsq, hs⟩ | ⟨i, e, r, ho', _, _, hs⟩ | ⟨i, _, _, _, rfl⟩ | ⟨i, _, _, _, rfl⟩ | ⟨rfl, _⟩ | ⟨i, rfl, _⟩
        · have hr0 : r.length = 0 := by rw [hsq] at hl; simpa using hl
          have hrec : ∀ y : Mem, (recall { s with srv := y, sq := r }).sq.length ≤ 1 := by
            intro y
            rcases recall_cases { s with srv := y, sq := r } with ⟨_, h⟩ | ⟨_, _, _, h⟩ <;> rw [h] <;> simp [hr0]
          cases hs with
          | grant => simp only [postC]; omega
          | defer => simp only; omega
          | release y => exact hrec y
          | resume y => exact hrec y
          | pause => simp only; omega
          | nothing => simp only; omega
        · have h0 := h2 i ho'
          cases hs <;> simp [postS, h0]
        · exact hl
        · exact hl
        · cases hob
        · cases hob
    intro hr
    obtain ⟨h1, h2⟩ := key (quiet_of hk) (Inv.start n) Quiet.start (by simp [start]) hr
    exact ⟨h1, cqs h2⟩

/-- All four clients ask; client 0 is served, finishes and asks again before the server runs again. -/
def fiveEvents : List Op :=
  [.waitOver 0, .client 0, .server, .client 0, .waitOver 1, .client 1, .waitOver 2, .client 2, .waitOver 3, .client 3,
   .useOver 0, .client 0, .waitOver 0, .client 0]

/-- **C136** is not met with threads: with four clients five events can wait for the server, whose queue has room for four
(QSTO_SIZE, main.c:24, 62). -/
theorem queues_fit_fails : ∃ s, run 4 start fiveEvents = some s ∧ NoKeys fiveEvents ∧ s.sq.length = 5 := by
  have h : (run 4 start fiveEvents).map (fun s => s.sq.length) = some 5 := by decide +kernel
  cases hs : run 4 start fiveEvents with
  | none => rw [hs] at h; cases h
  | some s =>
    rw [hs] at h
    simp only [Option.map_some, Option.some.injEq] at h
    refine ⟨s, rfl, ?_, h⟩
    intro o ho
    simp only [fiveEvents, List.mem_cons, List.not_mem_nil, or_false] at ho
    rcases ho with rfl | rfl | rfl | rfl | rfl | rfl | rfl | rfl | rfl | rfl | rfl | rfl | rfl | rfl <;> simp

/-! ### C137: every request is granted -/

/-- How much a client can still do before it waits for the server. -/
def weight (s : St) (i : Nat) : Nat :=
  if (s.cli i).state = some 0 then (if s.wait i then 3 else 2)
  else if (s.cli i).state = some 1 then 8 * starts (s.cq i)
  else if s.use i then 7 else 6

def potential (n : Nat) (s : St) : Nat := total n (weight s) + (requests s.sq).length + 2 * dones s.sq

theorem move_potential {n : Nat} {s t : St} (hi : Inv n s) (h : Move n s t) :
    (potential n t + 1 ≤ potential n s ∧ t.granted = s.granted) ∨
    (potential n t = potential n s + 7 ∧ ∃ i, t.granted = s.granted ++ [i]) := by
  cases h with
  | waitOver i hin hs h0 hw hu hq =>
    left
    refine ⟨?_, rfl⟩
    have h1 := total_change (n := n) (f := weight s) (g := weight (postC { s with wait := set s.wait i false } i ⟨TOUT_REQ, i⟩)) hin
      fun j hj => by simp only [weight, postC, set_other _ _ hj] <;> rfl
    have h2 : weight s i = 3 := by simp [weight, h0, hw]
    have h3 : weight (postC { s with wait := set s.wait i false } i ⟨TOUT_REQ, i⟩) i = 2 := by simp [weight, postC, set_self, h0]
    simp only [potential]
    simp only [postC] at h1 h3 ⊢
    omega
  | ask i hin y h0 hw hu hq hy =>
    left
    refine ⟨?_, rfl⟩
    have h1 := total_change (n := n) (f := weight s)
      (g := weight { postS { s with cli := set s.cli i y, cq := set s.cq i [] } ⟨REQ, i⟩ with asked := s.asked ++ [i] }) hin
      fun j hj => by simp only [weight, postS, set_other _ _ hj] <;> rfl
    have h2 : weight s i = 2 := by simp [weight, h0, hw]
    have h3 : weight { postS { s with cli := set s.cli i y, cq := set s.cq i [] } ⟨REQ, i⟩ with asked := s.asked ++ [i] } i = 0 := by
      simp [weight, postS, set_self, hy, starts]
    have h4 : (requests (s.sq ++ [⟨REQ, i⟩])).length = (requests s.sq).length + 1 := by rw [requests_append]; simp [requests]
    have h5 : dones (s.sq ++ [⟨REQ, i⟩]) = dones s.sq := by rw [dones_append]; rfl
    simp only [potential]
    simp only [postS] at h1 h3 ⊢
    omega
  | begin i hin y h0 hw hu hq hy =>
    left
    refine ⟨?_, rfl⟩
    have h1 := total_change (n := n) (f := weight s)
      (g := weight { s with cli := set s.cli i y, cq := set s.cq i [], use := set s.use i true }) hin
      fun j hj => by simp only [weight, set_other _ _ hj]
    have h2 : weight s i = 8 := by simp [weight, h0, hq, starts]
    have h3 : weight { s with cli := set s.cli i y, cq := set s.cq i [], use := set s.use i true } i = 7 := by
      simp [weight, set_self, hy]
    simp only [potential]
    omega
  | useOver i hin h0 hw hu hq =>
    left
    refine ⟨?_, rfl⟩
    have h1 := total_change (n := n) (f := weight s) (g := weight (postC { s with use := set s.use i false } i ⟨TOUT_USING, i⟩)) hin
      fun j hj => by simp only [weight, postC, set_other _ _ hj] <;> rfl
    have h2 : weight s i = 7 := by simp [weight, h0, hu]
    have h3 : weight (postC { s with use := set s.use i false } i ⟨TOUT_USING, i⟩) i = 6 := by simp [weight, postC, set_self, h0]
    simp only [potential]
    simp only [postC] at h1 h3 ⊢
    omega
  | finish i hin y h0 hw hu hq hy =>
    left
    refine ⟨?_, rfl⟩
    have h1 := total_change (n := n) (f := weight s)
      (g := weight { postS { s with cli := set s.cli i y, cq := set s.cq i [] } ⟨DONE, i⟩ with wait := set s.wait i true }) hin
      fun j hj => by simp only [weight, postS, set_other _ _ hj] <;> rfl
    have h2 : weight s i = 6 := by simp [weight, h0, hu]
    have h3 : weight { postS { s with cli := set s.cli i y, cq := set s.cq i [] } ⟨DONE, i⟩ with wait := set s.wait i true } i = 3 := by
      simp [weight, postS, set_self, hy]
    have h4 : (requests (s.sq ++ [⟨DONE, i⟩])).length = (requests s.sq).length := by rw [requests_append]; simp [requests]
    have h5 : dones (s.sq ++ [⟨DONE, i⟩]) = dones s.sq + 1 := by rw [dones_append]; rfl
    simp only [potential]
    simp only [postS] at h1 h3 ⊢
    omega
  | grant e r hn y hq h0 he hy hc hw hu hcq =>
    right
    refine ⟨?_, e.cli, rfl⟩
    have h1 := total_change (n := n) (f := weight s)
      (g := weight { postC { s with srv := y, sq := r } e.cli ⟨START, e.cli⟩ with granted := s.granted ++ [e.cli] }) hn
      fun j hj => by simp only [weight, postC, set_other _ _ hj] <;> rfl
    have h2 : weight s e.cli = 0 := by simp [weight, hc, hcq, starts]
    have h3 : weight { postC { s with srv := y, sq := r } e.cli ⟨START, e.cli⟩ with granted := s.granted ++ [e.cli] } e.cli = 8 := by
      simp [weight, postC, set_self, hc, hcq, starts]
    have h4 : (requests s.sq).length = (requests r).length + 1 := by rw [hq, requests_cons_req he]; rfl
    have h5 : dones s.sq = dones r := by rw [hq, dones_other (by rw [he]; decide)]
    simp only [potential]
    simp only [postC] at h1 h3 ⊢
    omega
  | defer e r y hq h0 he hy =>
    left
    refine ⟨?_, rfl⟩
    have h4 : (requests s.sq).length = (requests r).length + 1 := by rw [hq, requests_cons_req he]; rfl
    have h5 : dones s.sq = dones r := by rw [hq, dones_other (by rw [he]; decide)]
    have h6 : total n (weight { s with srv := y, sq := r, dq := s.dq ++ [e] }) = total n (weight s) := rfl
    simp only [potential]
    omega
  | release e r y hq h0 he hy =>
    left
    obtain ⟨k1, k2, k3, k4, k5, k6, k7⟩ := recall_keeps { s with srv := y, sq := r }
    refine ⟨?_, k6⟩
    have h4 : (requests s.sq).length = (requests r).length := by rw [hq, requests_cons_other (by rw [he]; decide)]
    have h5 : dones s.sq = dones r + 1 := by rw [hq, dones_done he]
    have h6 : total n (weight (recall { s with srv := y, sq := r })) = total n (weight s) :=
      total_congr fun i _ => by simp only [weight, k1, k2, k3, k4]
    have h7 : (requests (recall { s with srv := y, sq := r }).sq).length ≤ (requests r).length + 1 ∧
        dones (recall { s with srv := y, sq := r }).sq = dones r := by
      rcases recall_cases { s with srv := y, sq := r } with ⟨_, hrc⟩ | ⟨x, d, hd, hrc⟩
      · rw [hrc]; exact ⟨by simp only; omega, rfl⟩
      · rw [hrc]
        have hx : x.sig = REQ := (hi.dq x (by simp only at hd; rw [hd]; exact List.mem_cons_self ..)).1
        refine ⟨?_, ?_⟩
        · simp only; rw [requests_cons_req hx]; simp
        · simp only; rw [dones_other (by rw [hx]; decide)]
    simp only [potential]
    omega

theorem potential_le {n : Nat} {s : St} (hi : Inv n s) (h : Quiet s) : potential n s ≤ 8 * n + 2 := by
  have h1 := total_count hi.requests_lt.1
  have h2 := h.dones_le hi
  have h3 : total n (fun i => weight s i + (requests s.sq).count i) ≤ 8 * n := by
    refine total_le fun i _ => ?_
    have hc := hi.cnt i
    cases h.shape i with
    | idle h0 hu hw hq => simp only [h0, weight, hw] at hc ⊢; simp at hc ⊢; omega
    | about h0 hu hw hq => simp only [h0, weight, hw] at hc ⊢; simp at hc ⊢; omega
    | waiting h0 hu hw hq => simp only [h0, weight, hq] at hc ⊢; simp [starts] at hc ⊢; omega
    | granted h0 hu hw hq => simp only [h0, weight, hq] at hc ⊢; simp [starts] at hc ⊢; omega
    | inUse h0 hu hw hq => simp only [h0, weight, hu] at hc ⊢; simp at hc ⊢; omega
    | over h0 hu hw hq => simp only [h0, weight, hu] at hc ⊢; simp at hc ⊢; omega
  rw [total_add] at h3
  simp only [potential]
  have h4 : total n (fun i => weight s i) = total n (weight s) := rfl
  omega

theorem run_potential {n : Nat} {os : List Op} (ho : ∀ o ∈ os, o.quiet = true) : ∀ {s t : St}, Inv n s → Quiet s → run n s os = some t →
    ∃ g, t.granted = s.granted ++ g ∧ potential n t + os.length ≤ potential n s + 8 * g.length := by
  induction os with
  | nil => intro s t _ _ ht; cases ht; exact ⟨[], by simp, by simp⟩
  | cons o os ih =>
    intro s t hi hq ht
    simp only [run, Option.bind_eq_some_iff] at ht
    obtain ⟨u, h1, h2⟩ := ht
    have hm := hq.move hi (ho o (List.mem_cons_self ..)) h1
    obtain ⟨g, h3, h4⟩ := ih (fun o' ho' => ho o' (List.mem_cons_of_mem _ ho')) (hi.step h1) (hq.step hi hm) h2
    rw [List.length_cons]
    rcases move_potential hi hm with ⟨h5, h6⟩ | ⟨h5, i, h6⟩
    · exact ⟨g, by rw [h3, h6], by omega⟩
    · exact ⟨i :: g, by rw [h3, h6]; simp, by rw [List.length_cons]; omega⟩

theorem run_asked {n : Nat} {os : List Op} : ∀ {s t : St}, Inv n s → run n s os = some t → ∃ a, t.asked = s.asked ++ a := by
  induction os with
  | nil => intro s t _ ht; cases ht; exact ⟨[], by simp⟩
  | cons o os ih =>
    intro s t hi ht
    simp only [run, Option.bind_eq_some_iff] at ht
    obtain ⟨u, h1, h2⟩ := ht
    obtain ⟨a, h3⟩ := ih (hi.step h1) h2
    have h4 : ∃ b, u.asked = s.asked ++ b := by
      rcases hi.cases h1 with ⟨_, e, r, hq, h1⟩ | ⟨i, e, r, _, hin, hq, h1⟩ | ⟨i, _, hin, _, rfl⟩ | ⟨i, _, hin, _, rfl⟩ | ⟨_, rfl⟩ | ⟨i, _, hin, rfl⟩
      · cases h1 with
        | release y => exact ⟨[], by rw [(recall_keeps _).2.2.2.2.2.2]; simp⟩
        | resume y => exact ⟨[], by rw [(recall_keeps _).2.2.2.2.2.2]; simp⟩
        | grant => exact ⟨[], by simp [postC]⟩
        | defer => exact ⟨[], by simp⟩
        | pause => exact ⟨[], by simp⟩
        | nothing => exact ⟨[], by simp⟩
      · cases h1 with
        | ask => exact ⟨[i], rfl⟩
        | begin => exact ⟨[], by simp⟩
        | finish => exact ⟨[], by simp [postS]⟩
        | late => exact ⟨[], by simp [postS]⟩
        | pause => exact ⟨[], by simp⟩
        | resume => exact ⟨[], by simp⟩
        | nothing => exact ⟨[], by simp⟩
      · exact ⟨[], by simp [postC]⟩
      · exact ⟨[], by simp [postC]⟩
      · exact ⟨[], by simp [postS]⟩
      · exact ⟨[], by simp [postC]⟩
    obtain ⟨b, h4⟩ := h4
    exact ⟨b ++ a, by rw [h3, h4]; simp⟩

/-- Overtaking: while a request waits, fewer than `n` requests are granted. -/
theorem waiting_grants {n : Nat} {os : List Op} {s t : St} (hi : Inv n s) (hr : run n s os = some t) {i : Nat}
    (hp : i ∈ requests s.sq ∨ i ∈ requests s.dq) {g : List Nat} (hg : t.granted = s.granted ++ g) (hn : i ∉ g) : g.length < n := by
  have hp : i ∈ pending s := (pending_perm hi).mem_iff.2 (List.mem_append.2 hp)
  obtain ⟨a, ha⟩ := run_asked hi hr
  have h1 := (hi.run hr).order
  rw [ha, hi.order, hg, List.append_assoc, List.append_assoc] at h1
  have h1 := List.append_cancel_left h1
  have h2 : (pending s).length ≤ n := by
    have h3 := (pending_perm hi).length_eq
    have h4 := hi.requests_length
    rw [List.length_append] at h3
    omega
  rcases Nat.lt_or_ge g.length (pending s).length with h3 | h3
  · omega
  · have : pending s <+: g := by
      have hpre : pending s <+: g ++ pending t := ⟨a, h1⟩
      exact List.prefix_of_prefix_length_le hpre (List.prefix_append g _) h3
    exact absurd (this.subset hp) hn

/-- **C137** (without PAUSE). Once a client's request has been posted, it is granted within `16 n` steps of the application, whatever the
scheduler and the timers do, and fewer than `n` other requests are granted before it. -/
theorem request_is_granted {n : Nat} {os os' : List Op} (hk : NoKeys os) (hk' : NoKeys os') {s t : St} (hr : run n start os = some s)
    (ht : run n s os' = some t) {i : Nat} (hp : i ∈ Spec.requests s.sq ∨ i ∈ Spec.requests s.dq) :
    ∃ g, t.granted = s.granted ++ g ∧ (i ∉ g → g.length < n ∧ os'.length < 16 * n) := by
  have hinv := (Inv.start n).run hr
  have hq := Quiet.start.run (quiet_of hk) (Inv.start n) hr
  obtain ⟨g, h1, h2⟩ := run_potential (quiet_of hk') hinv hq ht
  refine ⟨g, h1, fun hn => ?_⟩
  have h3 := waiting_grants hinv ht hp h1 hn
  have h4 := potential_le hinv hq
  exact ⟨h3, by omega⟩

/-- **C137**, the application does not stop: as long as there are clients, some step other than a key is possible. -/
theorem never_stuck {n : Nat} (hn : 0 < n) {os : List Op} (hk : NoKeys os) {s : St} (hr : run n start os = some s) :
    ∃ o, NoKeys [o] ∧ (step n s o).isSome = true := by
  have hinv := (Inv.start n).run hr
  have hq := Quiet.start.run (quiet_of hk) (Inv.start n) hr
  have hfar := far (Inv.start n) (fun i _ => by
    have := (Quiet.start.free (by show mem0s.state = some 0; decide +kernel)).2 i; exact this) hr
  have key := requests_are_kept hr
  have cl : ∀ i, i < n → s.cq i ≠ [] → ∃ o, NoKeys [o] ∧ (step n s o).isSome = true := fun i hi hne =>
    ⟨.client i, by intro o ho; rw [List.mem_singleton.1 ho]; simp, key.2.2.2 i hi hne⟩
  by_cases hsq : s.sq = []
  case neg => exact ⟨.server, by intro o ho; rw [List.mem_singleton.1 ho]; simp, key.2.2.1 hsq⟩
  cases hq.shape 0 with
  | idle h0 hu hw hc =>
    exact ⟨.waitOver 0, by intro o ho; rw [List.mem_singleton.1 ho]; simp, by simp [step, hn, hw]⟩
  | about h0 hu hw hc => exact cl 0 hn (by rw [hc]; simp)
  | granted h0 hu hw hc => exact cl 0 hn (by rw [hc]; simp)
  | over h0 hu hw hc => exact cl 0 hn (by rw [hc]; simp)
  | inUse h0 hu hw hc =>
    exact ⟨.useOver 0, by intro o ho; rw [List.mem_singleton.1 ho]; simp, by simp [step, hn, hu]⟩
  | waiting h0 hu hw hc =>
    have hcnt := hinv.cnt 0
    rw [h0, hc, hsq, if_pos rfl] at hcnt
    have hd : s.dq ≠ [] := by
      intro hd
      rw [hd] at hcnt
      simp [requests, starts] at hcnt
    rcases hinv.srv with hs | hs | hs
    · rcases hinv.head hs with h1 | ⟨e, r, h1, _⟩
      · exact absurd h1 hd
      · rw [hsq] at h1; cases h1
    · rcases hq.busy hs with ⟨h1, _⟩ | ⟨_, k, h1, _⟩
      · rw [hsq] at h1; simp [dones] at h1
      · have hk : k < n := by
          rcases Nat.lt_or_ge k n with h | h
          · exact h
          · have := hfar k h; omega
        cases hq.shape k with
        | idle g0 _ _ gc => simp only [tok, g0, gc] at h1; simp [starts] at h1
        | about g0 _ _ gc => exact cl k hk (by rw [gc]; simp)
        | waiting g0 _ _ gc => simp only [tok, g0, gc] at h1; simp [starts] at h1
        | granted g0 _ _ gc => exact cl k hk (by rw [gc]; simp)
        | over g0 _ _ gc => exact cl k hk (by rw [gc]; simp)
        | inUse g0 gu _ gc => exact ⟨.useOver k, by intro o ho; rw [List.mem_singleton.1 ho]; simp, by simp [step, hk, gu]⟩
    · exact absurd hs hq.srv

/-! ### Cases -/

/-- Three clients ask in the order 2, 0, 1; two have been served. -/
def threeAsk : List Op :=
  [.waitOver 2, .waitOver 0, .waitOver 1, .client 2, .client 0, .client 1, .server, .server, .client 2, .server, .useOver 2, .client 2, .server,
   .server, .client 0]

-- mutual_exclusion_partial, requests_are_kept, deferred_fit, queues_fit_partial: client 0 uses the resource, client 1 waits
example : (run 3 start threeAsk).map (look 3) = some ⟨some server_busy, [], [1],
    [(some client_using, []), (some client_waiting, []), (some client_idle, [])], [(false, true), (false, false), (true, false)],
    [2, 0, 1], [2, 0]⟩ := by decide +kernel
example : threeAsk.all Op.quiet = true := by decide +kernel
-- request_is_granted: the request of client 1 waits in the deferred queue
example : (run 3 start threeAsk).map (fun s => Spec.requests s.dq) = some [1] := by decide +kernel

end Verif.App.Shared
