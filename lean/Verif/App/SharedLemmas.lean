import Verif.App.Shared
/-
Invariants of the shared-resource application.
-/
namespace Verif.App.Shared
open Verif.SM Verif.SM.Spec

/-! ### What the engine makes of the tables -/

/-- A memory in state `v`. -/
def rep (v : Vid) : Mem := ⟨some v, fun _ => none, []⟩

/-- Next state and calls of the server and of a client. -/
def srvTab (v : Vid) (e : Sig) : Vid × List Obs :=
  if v = 0 then
    (if e = 0 then (1, [.exit 0, .act 1 0, .entry 1, .stable 1]) else if e = 5 then (2, [.exit 0, .entry 2, .stable 2])
     else if e = 6 then (0, [.act 4 6]) else (0, []))
  else if v = 1 then
    (if e = 0 then (1, [.act 3 0]) else if e = 2 then (0, [.exit 1, .act 2 2, .entry 0, .stable 0])
     else if e = 5 then (2, [.exit 1, .entry 2, .stable 2]) else if e = 6 then (1, [.act 4 6]) else (1, []))
  else
    (if e = 0 then (2, [.act 3 0]) else if e = 5 then (0, [.exit 2, .entry 0, .stable 0])
     else if e = 6 then (2, [.act 4 6]) else (2, []))
@[inherit_doc srvTab] def cliTab (v : Vid) (e : Sig) : Vid × List Obs :=
  if v = 0 then
    (if e = 3 then (1, [.exit 0, .act 1 3, .entry 1, .stable 1]) else if e = 5 then (3, [.exit 0, .entry 3, .stable 3]) else (0, []))
  else if v = 1 then (if e = 1 then (2, [.exit 1, .act 2 1, .entry 2, .stable 2]) else (1, []))
  else if v = 2 then
    (if e = 4 then (0, [.exit 2, .act 3 4, .entry 0, .stable 0]) else if e = 5 then (3, [.exit 2, .entry 3, .stable 3]) else (2, []))
  else (if e = 4 then (3, [.act 3 4]) else if e = 5 then (0, [.exit 3, .entry 0, .stable 0]) else (3, []))

/-- Observations of `deliver` that can be compared. -/
def view (p : Option (Mem × List Obs)) : Option (Option Vid × List Obs) := p.map fun x => (x.1.state, x.2)

theorem srv_rep : ∀ v : Nat, v < 3 → ∀ e : Nat, e < 7 →
    view (deliver serverM e (rep v)) = some (some (srvTab v e).1, (srvTab v e).2) := by decide +kernel
theorem cli_rep : ∀ v : Nat, v < 4 → ∀ e : Nat, e < 7 →
    view (deliver clientM e (rep v)) = some (some (cliTab v e).1, (cliTab v e).2) := by decide +kernel

theorem deliver_same {m : Machine} (hm : ∀ h d p trn, m.vert h ≠ some (.hist d p trn)) {x : Mem} {v : Vid} (hx : x.state = some v) (e : Sig) :
    view (deliver m e x) = view (deliver m e (rep v)) := by
  have hs : SameSituation m env x (rep v) := ⟨hx, fun h d p trn hv => absurd hv (hm _ _ _ _), fun _ _ _ => rfl⟩
  obtain ⟨h1, h2, d, h3, h4⟩ := Unif.op (m := m) (env := env) 30 (.dispatch e) x (rep v) hs
  simp only [op] at h1 h2 h3 h4
  unfold deliver
  rcases e1 : dispatch m env 30 e x with ⟨y, a⟩
  rcases e2 : dispatch m env 30 e (rep v) with ⟨z, b⟩
  rw [e1] at h1 h2 h3
  rw [e2] at h1 h2 h4
  simp only at h1 h2 h3 h4
  subst h1
  have hl : y.log.drop x.log.length = z.log.drop (rep v).log.length := by rw [h3, h4]; simp
  have hst := h2.state
  rcases a with _ | c
  · simp only [view, Option.map_some, hl, hst]
  · rcases c with c | _ | _ | _
    · cases c <;> simp only [view, Option.map_some, Option.map_none, hl, hst]
    all_goals rfl

theorem server_noHist (h : Vid) (d : Bool) (p : Option Vid) (trn : Tr) : serverM.vert h ≠ some (.hist d p trn) := by
  rcases Nat.lt_or_ge h 3 with h1 | h1
  · have : ∀ h : Nat, h < 3 → (match serverM.vert h with | some (.hist _ _ _) => false | _ => true) = true := by decide +kernel
    have := this h h1
    intro hh; rw [hh] at this; cases this
  · have : serverM.vert h = none := List.getElem?_eq_none h1
    rw [this]; simp

theorem client_noHist (h : Vid) (d : Bool) (p : Option Vid) (trn : Tr) : clientM.vert h ≠ some (.hist d p trn) := by
  rcases Nat.lt_or_ge h 4 with h1 | h1
  · have : ∀ h : Nat, h < 4 → (match clientM.vert h with | some (.hist _ _ _) => false | _ => true) = true := by decide +kernel
    have := this h h1
    intro hh; rw [hh] at this; cases this
  · have : clientM.vert h = none := List.getElem?_eq_none h1
    rw [this]; simp

theorem srv_deliver {x : Mem} {v e : Nat} (hx : x.state = some v) (hv : v < 3) (he : e < 7) :
    ∃ y, deliver serverM e x = some (y, (srvTab v e).2) ∧ y.state = some (srvTab v e).1 := by
  have h := deliver_same server_noHist hx e
  rw [srv_rep v hv e he] at h
  simp only [view, Option.map_eq_some_iff] at h
  obtain ⟨⟨y, d⟩, h1, h2⟩ := h
  simp only [Prod.mk.injEq] at h2
  exact ⟨y, by rw [h1, h2.2], h2.1⟩

theorem cli_deliver {x : Mem} {v e : Nat} (hx : x.state = some v) (hv : v < 4) (he : e < 7) :
    ∃ y, deliver clientM e x = some (y, (cliTab v e).2) ∧ y.state = some (cliTab v e).1 := by
  have h := deliver_same client_noHist hx e
  rw [cli_rep v hv e he] at h
  simp only [view, Option.map_eq_some_iff] at h
  obtain ⟨⟨y, d⟩, h1, h2⟩ := h
  simp only [Prod.mk.injEq] at h2
  exact ⟨y, by rw [h1, h2.2], h2.1⟩

/-! ### The server's and the clients' steps, case by case -/

theorem set_self {α : Type} (f : Nat → α) (i : Nat) (x : α) : set f i x i = x := by simp [set]
theorem set_other {α : Type} (f : Nat → α) {i j : Nat} (x : α) (h : j ≠ i) : set f i x j = f j := by simp [set, h]

/-- Step of the server in words. -/
inductive SrvStep (s : St) (e : Evt) (r : List Evt) : St → Prop where
  | grant (y : Mem) (h : s.srv.state = some 0) (he : e.sig = REQ) (hy : y.state = some 1) :
      SrvStep s e r { postC { s with srv := y, sq := r } e.cli ⟨START, e.cli⟩ with granted := s.granted ++ [e.cli] }
  | defer (y : Mem) (h : s.srv.state = some 1 ∨ s.srv.state = some 2) (he : e.sig = REQ) (hy : y.state = s.srv.state) :
      SrvStep s e r { s with srv := y, sq := r, dq := s.dq ++ [e] }
  | release (y : Mem) (h : s.srv.state = some 1) (he : e.sig = DONE) (hy : y.state = some 0) :
      SrvStep s e r (recall { s with srv := y, sq := r })
  | resume (y : Mem) (h : s.srv.state = some 2) (he : e.sig = PAUSE) (hy : y.state = some 0) :
      SrvStep s e r (recall { s with srv := y, sq := r })
  | pause (y : Mem) (h : s.srv.state = some 0 ∨ s.srv.state = some 1) (he : e.sig = PAUSE) (hy : y.state = some 2) :
      SrvStep s e r { s with srv := y, sq := r }
  | nothing (y : Mem) (he : e.sig = DONE) (h : s.srv.state = some 0 ∨ s.srv.state = some 2) (hy : y.state = s.srv.state) :
      SrvStep s e r { s with srv := y, sq := r }

theorem srv_step {n : Nat} {s : St} {e : Evt} {r : List Evt} (hq : s.sq = e :: r)
    (hs : s.srv.state = some 0 ∨ s.srv.state = some 1 ∨ s.srv.state = some 2)
    (he : e.sig = REQ ∨ e.sig = DONE ∨ e.sig = PAUSE) : ∃ t, step n s .server = some t ∧ SrvStep s e r t := by
  have key : ∀ v : Nat, s.srv.state = some v → v < 3 → ∃ y, deliver serverM e.sig s.srv = some (y, (srvTab v e.sig).2) ∧
      y.state = some (srvTab v e.sig).1 := fun v hv hlt => srv_deliver hv hlt (by rcases he with h | h | h <;> rw [h] <;> decide)
  have hstep : ∀ {v : Nat} {y : Mem}, deliver serverM e.sig s.srv = some (y, (srvTab v e.sig).2) →
      step n s .server = some ((srvTab v e.sig).2.foldl (srvDo e) { s with srv := y, sq := r }) := by
    intro v y h
    simp only [step, hq, h, Option.map_some]
  rcases hs with h0 | h0 | h0
  · obtain ⟨y, h1, h2⟩ := key 0 h0 (by decide)
    refine ⟨_, hstep h1, ?_⟩
    rcases he with he | he | he <;> rw [he] at h2 ⊢
    · exact .grant y h0 he h2
    · exact .nothing y he (.inl h0) (by rw [h0]; exact h2)
    · exact .pause y (.inl h0) he h2
  · obtain ⟨y, h1, h2⟩ := key 1 h0 (by decide)
    refine ⟨_, hstep h1, ?_⟩
    rcases he with he | he | he <;> rw [he] at h2 ⊢
    · exact .defer y (.inl h0) he (by rw [h0]; exact h2)
    · exact .release y h0 he h2
    · exact .pause y (.inr h0) he h2
  · obtain ⟨y, h1, h2⟩ := key 2 h0 (by decide)
    refine ⟨_, hstep h1, ?_⟩
    rcases he with he | he | he <;> rw [he] at h2 ⊢
    · exact .defer y (.inr h0) he (by rw [h0]; exact h2)
    · exact .nothing y he (.inr h0) (by rw [h0]; exact h2)
    · exact .resume y h0 he h2

/-- Step of client `i` in words. -/
inductive CliStep (i : Nat) (s : St) (e : Evt) (r : List Evt) : St → Prop where
  | ask (y : Mem) (h : (s.cli i).state = some 0) (he : e.sig = TOUT_REQ) (hy : y.state = some 1) :
      CliStep i s e r { postS { s with cli := set s.cli i y, cq := set s.cq i r } ⟨REQ, i⟩ with asked := s.asked ++ [i] }
  | begin (y : Mem) (h : (s.cli i).state = some 1) (he : e.sig = START) (hy : y.state = some 2) :
      CliStep i s e r { s with cli := set s.cli i y, cq := set s.cq i r, use := set s.use i true }
  | finish (y : Mem) (h : (s.cli i).state = some 2) (he : e.sig = TOUT_USING) (hy : y.state = some 0) :
      CliStep i s e r { postS { s with cli := set s.cli i y, cq := set s.cq i r } ⟨DONE, i⟩ with wait := set s.wait i true }
  | late (y : Mem) (h : (s.cli i).state = some 3) (he : e.sig = TOUT_USING) (hy : y.state = some 3) :
      CliStep i s e r (postS { s with cli := set s.cli i y, cq := set s.cq i r } ⟨DONE, i⟩)
  | pause (y : Mem) (h : (s.cli i).state = some 0 ∨ (s.cli i).state = some 2) (he : e.sig = PAUSE) (hy : y.state = some 3) :
      CliStep i s e r { s with cli := set s.cli i y, cq := set s.cq i r, wait := set s.wait i false }
  | resume (y : Mem) (h : (s.cli i).state = some 3) (he : e.sig = PAUSE) (hy : y.state = some 0) :
      CliStep i s e r { s with cli := set s.cli i y, cq := set s.cq i r, wait := set s.wait i true }
  | nothing (y : Mem) (v : Vid) (hv : (s.cli i).state = some v)
      (h : (v = 0 ∧ (e.sig = START ∨ e.sig = TOUT_USING)) ∨ (v = 1 ∧ e.sig ≠ START) ∨ (v = 2 ∧ (e.sig = START ∨ e.sig = TOUT_REQ)) ∨
        (v = 3 ∧ (e.sig = START ∨ e.sig = TOUT_REQ))) (hy : y.state = (s.cli i).state) :
      CliStep i s e r { s with cli := set s.cli i y, cq := set s.cq i r }

theorem cli_step {n i : Nat} (hi : i < n) {s : St} {e : Evt} {r : List Evt} (hq : s.cq i = e :: r)
    (hs : (s.cli i).state = some 0 ∨ (s.cli i).state = some 1 ∨ (s.cli i).state = some 2 ∨ (s.cli i).state = some 3)
    (he : e.sig = START ∨ e.sig = TOUT_REQ ∨ e.sig = TOUT_USING ∨ e.sig = PAUSE) :
    ∃ t, step n s (.client i) = some t ∧ CliStep i s e r t := by
  have key : ∀ v : Nat, (s.cli i).state = some v → v < 4 → ∃ y, deliver clientM e.sig (s.cli i) = some (y, (cliTab v e.sig).2) ∧
      y.state = some (cliTab v e.sig).1 := fun v hv hlt => cli_deliver hv hlt (by rcases he with h | h | h | h <;> rw [h] <;> decide)
  have hstep : ∀ {v : Nat} {y : Mem}, deliver clientM e.sig (s.cli i) = some (y, (cliTab v e.sig).2) →
      step n s (.client i) = some ((cliTab v e.sig).2.foldl (cliDo i) { s with cli := set s.cli i y, cq := set s.cq i r }) := by
    intro v y h
    simp only [step, hq, h, Option.map_some, if_pos hi]
  rcases hs with h0 | h0 | h0 | h0
  · obtain ⟨y, h1, h2⟩ := key 0 h0 (by decide)
    refine ⟨_, hstep h1, ?_⟩
    rcases he with he | he | he | he <;> rw [he] at h2 ⊢
    · exact .nothing y 0 h0 (.inl ⟨rfl, .inl he⟩) (by rw [h0]; exact h2)
    · exact .ask y h0 he h2
    · exact .nothing y 0 h0 (.inl ⟨rfl, .inr he⟩) (by rw [h0]; exact h2)
    · exact .pause y (.inl h0) he h2
  · obtain ⟨y, h1, h2⟩ := key 1 h0 (by decide)
    refine ⟨_, hstep h1, ?_⟩
    rcases he with he | he | he | he <;> rw [he] at h2 ⊢
    · exact .begin y h0 he h2
    all_goals exact .nothing y 1 h0 (.inr (.inl ⟨rfl, by rw [he]; decide⟩)) (by rw [h0]; exact h2)
  · obtain ⟨y, h1, h2⟩ := key 2 h0 (by decide)
    refine ⟨_, hstep h1, ?_⟩
    rcases he with he | he | he | he <;> rw [he] at h2 ⊢
    · exact .nothing y 2 h0 (.inr (.inr (.inl ⟨rfl, .inl he⟩))) (by rw [h0]; exact h2)
    · exact .nothing y 2 h0 (.inr (.inr (.inl ⟨rfl, .inr he⟩))) (by rw [h0]; exact h2)
    · exact .finish y h0 he h2
    · exact .pause y (.inr h0) he h2
  · obtain ⟨y, h1, h2⟩ := key 3 h0 (by decide)
    refine ⟨_, hstep h1, ?_⟩
    rcases he with he | he | he | he <;> rw [he] at h2 ⊢
    · exact .nothing y 3 h0 (.inr (.inr (.inr ⟨rfl, .inl he⟩))) (by rw [h0]; exact h2)
    · exact .nothing y 3 h0 (.inr (.inr (.inr ⟨rfl, .inr he⟩))) (by rw [h0]; exact h2)
    · exact .late y h0 he h2
    · exact .resume y h0 he h2

/-! ### What always holds -/

/-- The requests among some events: who asked. -/
def requests (l : List Evt) : List Nat := (l.filter fun e => e.sig == REQ).map Evt.cli
/-- The permissions among some events. -/
def starts (l : List Evt) : Nat := l.countP fun e => e.sig == START

theorem requests_append (a b : List Evt) : requests (a ++ b) = requests a ++ requests b := by simp [requests]
theorem requests_cons_req {e : Evt} (h : e.sig = REQ) (l : List Evt) : requests (e :: l) = e.cli :: requests l := by
  simp [requests, h]
theorem requests_cons_other {e : Evt} (h : e.sig ≠ REQ) (l : List Evt) : requests (e :: l) = requests l := by
  simp [requests, h]

/-- The requests not yet granted, in the order in which they will be. A recalled request is in front of the queue while the server is
idle. -/
def pending (s : St) : List Nat :=
  if s.srv.state = some 0 then
    match s.sq with
    | [] => requests s.dq
    | e :: r => if e.sig = REQ then e.cli :: (requests s.dq ++ requests r) else requests s.dq ++ requests r
  else requests s.dq ++ requests s.sq

/-- Invariant of all runs. -/
structure Inv (n : Nat) (s : St) : Prop where
  srv : s.srv.state = some 0 ∨ s.srv.state = some 1 ∨ s.srv.state = some 2
  cli : ∀ i, (s.cli i).state = some 0 ∨ (s.cli i).state = some 1 ∨ (s.cli i).state = some 2 ∨ (s.cli i).state = some 3
  sq : ∀ e ∈ s.sq, (e.sig = REQ ∧ e.cli < n) ∨ e.sig = DONE ∨ e.sig = PAUSE
  dq : ∀ e ∈ s.dq, e.sig = REQ ∧ e.cli < n
  cq : ∀ i, ∀ e ∈ s.cq i, e.sig = START ∨ e.sig = TOUT_REQ ∨ e.sig = TOUT_USING ∨ e.sig = PAUSE
  cnt : ∀ i, (requests s.sq).count i + (requests s.dq).count i + starts (s.cq i) = if (s.cli i).state = some 1 then 1 else 0
  head : s.srv.state = some 0 → s.dq = [] ∨ ∃ e r, s.sq = e :: r ∧ e.sig = REQ
  order : s.asked = s.granted ++ pending s

theorem pending_idle_nil {s : St} (h : s.srv.state = some 0) (hd : s.dq = []) : pending s = requests s.sq := by
  simp only [pending, h, hd, if_true]
  cases s.sq with
  | nil => rfl
  | cons e r =>
    simp only
    split
    · rename_i he; rw [requests_cons_req he]; rfl
    · rename_i he; rw [requests_cons_other he]; rfl

theorem pending_idle_req {s : St} {e : Evt} {r : List Evt} (h : s.srv.state = some 0) (hq : s.sq = e :: r) (he : e.sig = REQ) :
    pending s = e.cli :: (requests s.dq ++ requests r) := by simp [pending, h, hq, he]

theorem pending_busy {s : St} (h : s.srv.state ≠ some 0) : pending s = requests s.dq ++ requests s.sq := by simp [pending, h]

theorem pending_post {s : St} (hh : s.srv.state = some 0 → s.dq = [] ∨ ∃ e r, s.sq = e :: r ∧ e.sig = REQ) (e : Evt) :
    pending (postS s e) = pending s ++ requests [e] := by
  by_cases h : s.srv.state = some 0
  · rcases hh h with hd | ⟨x, r, hq, hx⟩
    · rw [pending_idle_nil (s := postS s e) h hd, pending_idle_nil h hd, postS, requests_append]
    · rw [pending_idle_req h hq hx, pending_idle_req (s := postS s e) (r := r ++ [e]) h (by simp [postS, hq]) hx, postS, requests_append]
      simp
  · rw [pending_busy h, pending_busy (s := postS s e) h, postS, requests_append]
    simp

theorem Inv.start (n : Nat) : Inv n start := by
  have h0 : mem0c.state = some 0 := by decide +kernel
  have h1 : mem0s.state = some 0 := by decide +kernel
  refine ⟨.inl h1, fun _ => .inl h0, ?_, ?_, ?_, ?_, fun _ => .inl rfl, ?_⟩
  · intro e he; cases he
  · intro e he; cases he
  · intro i e he; cases he
  · intro i
    show 0 = if mem0c.state = some 1 then 1 else 0
    rw [h0]; rfl
  · rw [pending_idle_nil (s := Shared.start) h1 rfl]; rfl

theorem recall_cases (s : St) : (s.dq = [] ∧ recall s = s) ∨
    ∃ e r, s.dq = e :: r ∧ recall s = { s with dq := r, sq := e :: s.sq } := by
  unfold recall
  cases h : s.dq with
  | nil => exact .inl ⟨rfl, rfl⟩
  | cons e r => exact .inr ⟨e, r, rfl, rfl⟩

/-- The server goes to idle and recalls, after an event that is no request. -/
theorem Inv.recalled {n : Nat} {s : St} (h : Inv n s) {e : Evt} {r : List Evt} (hq : s.sq = e :: r) (hs : s.srv.state ≠ some 0)
    (he : e.sig ≠ REQ) {y : Mem} (hy : y.state = some 0) : Inv n (recall { s with srv := y, sq := r }) := by
  have hpend := h.order
  rw [pending_busy hs, hq, requests_cons_other he] at hpend
  have hsq : ∀ x ∈ r, (x.sig = REQ ∧ x.cli < n) ∨ x.sig = DONE ∨ x.sig = PAUSE := fun x hx => h.sq x (hq ▸ List.mem_cons_of_mem _ hx)
  have hcnt : ∀ i, (requests r).count i + (requests s.dq).count i + starts (s.cq i) = if (s.cli i).state = some 1 then 1 else 0 := by
    intro i; have := h.cnt i; rwa [hq, requests_cons_other he] at this
  rcases recall_cases { s with srv := y, sq := r } with ⟨hd, hr⟩ | ⟨x, d, hd, hr⟩
  · rw [hr]
    simp only at hd
    refine ⟨.inl hy, h.cli, hsq, h.dq, h.cq, hcnt, fun _ => .inl hd, ?_⟩
    rw [pending_idle_nil (s := { s with srv := y, sq := r }) hy hd]
    simpa [hd, requests] using hpend
  · rw [hr]
    simp only at hd
    have hx := h.dq x (by rw [hd]; exact List.mem_cons_self ..)
    refine ⟨.inl hy, h.cli, ?_, fun z hz => h.dq z (by rw [hd]; exact List.mem_cons_of_mem _ hz), h.cq, ?_, fun _ => .inr ⟨x, r, rfl, hx.1⟩, ?_⟩
    · intro z hz
      rcases List.mem_cons.1 hz with rfl | hz
      · exact .inl hx
      · exact hsq z hz
    · intro i
      have := hcnt i
      rw [hd, requests_cons_req hx.1] at this
      simp only [requests_cons_req hx.1]
      rw [List.count_cons] at this ⊢
      omega
    · rw [pending_idle_req (s := { s with srv := y, sq := x :: r, dq := d }) hy rfl hx.1]
      rw [hd, requests_cons_req hx.1] at hpend
      simpa using hpend

theorem Inv.server {n : Nat} {s : St} (h : Inv n s) {e : Evt} {r : List Evt} (hq : s.sq = e :: r) {t : St} (ht : SrvStep s e r t) :
    Inv n t := by
  have hsq : ∀ x ∈ r, (x.sig = REQ ∧ x.cli < n) ∨ x.sig = DONE ∨ x.sig = PAUSE := fun x hx => h.sq x (hq ▸ List.mem_cons_of_mem _ hx)
  have hee := h.sq e (hq ▸ List.mem_cons_self ..)
  cases ht with
  | grant y h0 he hy =>
    have hpend := h.order
    rw [pending_idle_req h0 hq he] at hpend
    refine ⟨.inr (.inl hy), h.cli, hsq, h.dq, ?_, ?_, fun hc => ?_, ?_⟩
    · intro i x hx
      by_cases hi : i = e.cli
      · subst hi
        simp only [postC, set_self] at hx
        rcases List.mem_append.1 hx with hx | hx
        · exact h.cq _ x hx
        · rw [List.mem_singleton.1 hx]; exact .inl rfl
      · simp only [postC, set_other _ _ hi] at hx
        exact h.cq _ x hx
    · intro i
      have hc := h.cnt i
      rw [hq, requests_cons_req he, List.count_cons] at hc
      by_cases hi : i = e.cli
      · subst hi
        simp only [postC, set_self, starts, List.countP_append]
        simp only [starts] at hc
        simp only [beq_self_eq_true, if_true] at hc
        refine Eq.trans ?_ hc
        simp only [List.countP_cons, List.countP_nil, beq_self_eq_true, if_true]
        omega
      · simp only [postC, set_other _ _ hi]
        rw [if_neg (by simpa using fun h => hi h.symm)] at hc
        exact hc
    · have hc' : y.state = some 0 := hc
      rw [hy] at hc'; cases hc'
    · rw [pending_busy (by show y.state ≠ some 0; rw [hy]; simp)]
      simp only [postC]
      rw [hpend]; simp
  | defer y h0 he hy =>
    have hne : s.srv.state ≠ some 0 := by rcases h0 with h0 | h0 <;> rw [h0] <;> simp
    have hpend := h.order
    rw [pending_busy hne, hq, requests_cons_req he] at hpend
    have hreq : requests [e] = [e.cli] := requests_cons_req he []
    refine ⟨?_, h.cli, hsq, ?_, h.cq, ?_, fun hc => ?_, ?_⟩
    · rw [← hy] at h0; exact .inr h0
    · intro x hx
      rcases List.mem_append.1 hx with hx | hx
      · exact h.dq x hx
      · rw [List.mem_singleton.1 hx]
        rcases hee with hee | hee | hee
        · exact hee
        · rw [he] at hee; cases hee
        · rw [he] at hee; cases hee
    · intro i
      have := h.cnt i
      rw [hq, requests_cons_req he, List.count_cons] at this
      simp only [requests_append, hreq, List.count_append, List.count_singleton]
      omega
    · have hc' : y.state = some 0 := hc
      rw [hy] at hc'; exact absurd hc' hne
    · rw [pending_busy (by show y.state ≠ some 0; rw [hy]; exact hne)]
      simp only [requests_append, hreq]
      rw [hpend]; simp
  | release y h0 he hy => exact h.recalled hq (by rw [h0]; simp) (by rw [he]; decide) hy
  | resume y h0 he hy => exact h.recalled hq (by rw [h0]; simp) (by rw [he]; decide) hy
  | pause y h0 he hy =>
    have hne : e.sig ≠ REQ := by rw [he]; decide
    refine ⟨.inr (.inr hy), h.cli, hsq, h.dq, h.cq, ?_, fun hc => ?_, ?_⟩
    · intro i; have := h.cnt i; rwa [hq, requests_cons_other hne] at this
    · have hc' : y.state = some 0 := hc
      rw [hy] at hc'; cases hc'
    · rw [pending_busy (by show y.state ≠ some 0; rw [hy]; simp)]
      simp only
      rw [h.order]
      congr 1
      rcases h0 with h0 | h0
      · rcases h.head h0 with hd | ⟨x, r', hq', hx⟩
        · rw [pending_idle_nil h0 hd, hq, requests_cons_other hne, hd]; rfl
        · rw [hq] at hq'; cases hq'; exact absurd hx hne
      · rw [pending_busy (by rw [h0]; simp), hq, requests_cons_other hne]
  | nothing y he h0 hy =>
    have hne : e.sig ≠ REQ := by rw [he]; decide
    have hd : s.srv.state = some 0 → s.dq = [] := by
      intro h1
      rcases h.head h1 with hd | ⟨x, r', hq', hx⟩
      · exact hd
      · rw [hq] at hq'; cases hq'; exact absurd hx hne
    refine ⟨?_, h.cli, hsq, h.dq, h.cq, ?_, fun hc => ?_, ?_⟩
    · have := h.srv; rw [← hy] at this; exact this
    · intro i; have := h.cnt i; rwa [hq, requests_cons_other hne] at this
    · have hc' : y.state = some 0 := hc
      rw [hy] at hc'; exact .inl (hd hc')
    · refine h.order.trans (congrArg (s.granted ++ ·) ?_)
      rcases h0 with h0 | h0
      · rw [pending_idle_nil h0 (hd h0), hq, requests_cons_other hne]
        exact (pending_idle_nil (s := { s with srv := y, sq := r }) (by show y.state = some 0; rw [hy]; exact h0) (hd h0)).symm
      · rw [pending_busy (by rw [h0]; simp), hq, requests_cons_other hne]
        exact (pending_busy (s := { s with srv := y, sq := r }) (by show y.state ≠ some 0; rw [hy, h0]; simp)).symm

/-- A client's step changes only its own part and may append to the server's queue. -/
theorem Inv.other {n i : Nat} {s : St} (h : Inv n s) {e : Evt} {r : List Evt} (hq : s.cq i = e :: r) {y : Mem} {w u : Nat → Bool}
    (hy : y.state = some 0 ∨ y.state = some 1 ∨ y.state = some 2 ∨ y.state = some 3)
    (hc : starts r + (if (s.cli i).state = some 1 then 1 else 0) = starts (e :: r) + (if y.state = some 1 then 1 else 0)) :
    Inv n { s with cli := set s.cli i y, cq := set s.cq i r, wait := w, use := u } := by
  refine ⟨h.srv, ?_, h.sq, h.dq, ?_, ?_, h.head, h.order⟩
  · intro j
    by_cases hj : j = i
    · subst hj; simp only [set_self]; exact hy
    · simp only [set_other _ _ hj]; exact h.cli j
  · intro j x hx
    by_cases hj : j = i
    · subst hj; simp only [set_self] at hx; exact h.cq j x (hq ▸ List.mem_cons_of_mem _ hx)
    · simp only [set_other _ _ hj] at hx; exact h.cq j x hx
  · intro j
    have := h.cnt j
    by_cases hj : j = i
    · subst hj
      simp only [set_self]
      rw [hq] at this
      omega
    · simp only [set_other _ _ hj]; exact this

theorem Inv.post {n : Nat} {s : St} (h : Inv n s) {e : Evt} (he : e.sig = DONE ∨ e.sig = PAUSE) : Inv n (postS s e) := by
  have hne : e.sig ≠ REQ := by rcases he with he | he <;> rw [he] <;> decide
  have hreq : requests [e] = [] := requests_cons_other hne []
  refine ⟨h.srv, h.cli, ?_, h.dq, h.cq, ?_, fun hc => ?_, ?_⟩
  · intro x hx
    rcases List.mem_append.1 hx with hx | hx
    · exact h.sq x hx
    · rw [List.mem_singleton.1 hx]; exact .inr he
  · intro i
    have := h.cnt i
    simp only [postS, requests_append, hreq, List.append_nil]
    exact this
  · rcases h.head hc with h1 | ⟨x, r, h1, h2⟩
    · exact .inl h1
    · exact .inr ⟨x, r ++ [e], by simp [postS, h1], h2⟩
  · rw [pending_post h.head, hreq, List.append_nil]; exact h.order

theorem Inv.postClient {n i : Nat} {s : St} (h : Inv n s) {e : Evt} (he : e.sig = TOUT_REQ ∨ e.sig = TOUT_USING ∨ e.sig = PAUSE)
    {w u : Nat → Bool} : Inv n (postC { s with wait := w, use := u } i e) := by
  refine ⟨h.srv, h.cli, h.sq, h.dq, ?_, ?_, h.head, h.order⟩
  · intro j x hx
    by_cases hj : j = i
    · subst hj
      simp only [postC, set_self] at hx
      rcases List.mem_append.1 hx with hx | hx
      · exact h.cq j x hx
      · rw [List.mem_singleton.1 hx]; exact .inr he
    · simp only [postC, set_other _ _ hj] at hx; exact h.cq j x hx
  · intro j
    have := h.cnt j
    by_cases hj : j = i
    · subst hj
      have hne : starts [e] = 0 := by rcases he with he | he | he <;> simp only [starts] <;> simp [he, List.countP_cons] <;> decide
      have : starts (s.cq j ++ [e]) = starts (s.cq j) := by
        have : starts (s.cq j ++ [e]) = starts (s.cq j) + starts [e] := by simp [starts]
        omega
      simp only [postC, set_self, this]
      assumption
    · simp only [postC, set_other _ _ hj]; exact this

theorem starts_other {e : Evt} (he : e.sig ≠ START) (r : List Evt) : starts (e :: r) = starts r := by simp [starts, he]
theorem starts_start {e : Evt} (he : e.sig = START) (r : List Evt) : starts (e :: r) = starts r + 1 := by simp [starts, he]

theorem Inv.noStart {n i : Nat} {s : St} (h : Inv n s) (hs : (s.cli i).state ≠ some 1) {e : Evt} {r : List Evt} (hq : s.cq i = e :: r) :
    e.sig ≠ START := by
  intro he
  have := h.cnt i
  rw [hq, starts_start he, if_neg hs] at this
  omega

theorem Inv.client {n i : Nat} {s : St} (hi : i < n) (h : Inv n s) {e : Evt} {r : List Evt} (hq : s.cq i = e :: r) {t : St}
    (ht : CliStep i s e r t) : Inv n t := by
  cases ht with
  | ask y h0 he hy =>
    have hcnt := h.cnt i
    rw [hq, starts_other (by rw [he]; decide), h0, if_neg (by simp)] at hcnt
    have hreq : requests [⟨REQ, i⟩] = [i] := rfl
    refine ⟨h.srv, ?_, ?_, h.dq, ?_, ?_, fun hc => ?_, ?_⟩
    · intro j
      by_cases hj : j = i
      · subst hj; simp only [postS, set_self]; exact .inr (.inl hy)
      · simp only [postS, set_other _ _ hj]; exact h.cli j
    · intro x hx
      rcases List.mem_append.1 hx with hx | hx
      · exact h.sq x hx
      · rw [List.mem_singleton.1 hx]; exact .inl ⟨rfl, hi⟩
    · intro j x hx
      by_cases hj : j = i
      · subst hj; simp only [postS, set_self] at hx; exact h.cq j x (hq ▸ List.mem_cons_of_mem _ hx)
      · simp only [postS, set_other _ _ hj] at hx; exact h.cq j x hx
    · intro j
      simp only [postS, requests_append, hreq, List.count_append, List.count_singleton]
      by_cases hj : j = i
      · subst hj
        simp only [set_self, hy, beq_self_eq_true, if_true]
        omega
      · simp only [set_other _ _ hj]
        rw [if_neg (by simpa using fun h => hj h.symm)]
        exact h.cnt j
    · rcases h.head hc with h1 | ⟨x, r, h1, h2⟩
      · exact .inl h1
      · exact .inr ⟨x, r ++ [⟨REQ, i⟩], by simp [postS, h1], h2⟩
    · have hp := pending_post (s := { s with cli := set s.cli i y, cq := set s.cq i r }) h.head ⟨REQ, i⟩
      rw [hreq] at hp
      have hp2 : pending { postS { s with cli := set s.cli i y, cq := set s.cq i r } ⟨REQ, i⟩ with asked := s.asked ++ [i] } =
        pending s ++ [i] := hp
      rw [hp2]
      show s.asked ++ [i] = s.granted ++ (pending s ++ [i])
      rw [h.order, List.append_assoc]
  | begin y h0 he hy =>
    exact h.other hq (.inr (.inr (.inl hy))) (by rw [h0, hy, starts_start he]; simp)
  | finish y h0 he hy =>
    have h1 := h.other (w := set s.wait i true) (u := s.use) hq (.inl hy) (by rw [h0, hy, starts_other (by rw [he]; decide)]; simp)
    exact h1.post (e := ⟨DONE, i⟩) (.inl rfl)
  | late y h0 he hy =>
    have h1 := h.other (w := s.wait) (u := s.use) hq (.inr (.inr (.inr hy))) (by rw [h0, hy, starts_other (by rw [he]; decide)])
    exact h1.post (e := ⟨DONE, i⟩) (.inl rfl)
  | pause y h0 he hy =>
    exact h.other hq (.inr (.inr (.inr hy))) (by rw [hy, starts_other (by rw [he]; decide)]; rcases h0 with h0 | h0 <;> rw [h0] <;> simp)
  | resume y h0 he hy =>
    exact h.other hq (.inl hy) (by rw [hy, h0, starts_other (by rw [he]; decide)]; simp)
  | nothing y v hv h0 hy =>
    have hns : e.sig ≠ START := by
      rcases h0 with h0 | h0 | h0 | h0
      · exact h.noStart (by rw [hv, h0.1]; simp) hq
      · exact h0.2
      · exact h.noStart (by rw [hv, h0.1]; simp) hq
      · exact h.noStart (by rw [hv, h0.1]; simp) hq
    refine h.other (w := s.wait) (u := s.use) hq ?_ (by rw [hy, starts_other hns])
    rw [hy]; exact h.cli i

/-- What a step is, given the invariant. -/
theorem Inv.cases {n : Nat} {s : St} (h : Inv n s) {o : Op} {t : St} (ht : step n s o = some t) :
    (o = .server ∧ ∃ e r, s.sq = e :: r ∧ SrvStep s e r t) ∨
    (∃ i e r, o = .client i ∧ i < n ∧ s.cq i = e :: r ∧ CliStep i s e r t) ∨
    (∃ i, o = .waitOver i ∧ i < n ∧ s.wait i = true ∧ t = postC { s with wait := set s.wait i false } i ⟨TOUT_REQ, i⟩) ∨
    (∃ i, o = .useOver i ∧ i < n ∧ s.use i = true ∧ t = postC { s with use := set s.use i false } i ⟨TOUT_USING, i⟩) ∨
    (o = .pauseServer ∧ t = postS s ⟨PAUSE, 0⟩) ∨
    (∃ i, o = .pauseClient i ∧ i < n ∧ t = postC s i ⟨PAUSE, i⟩) := by
  cases o with
  | server =>
    cases hq : s.sq with
    | nil => simp [step, hq] at ht
    | cons e r =>
      have he : e.sig = REQ ∨ e.sig = DONE ∨ e.sig = PAUSE := by
        rcases h.sq e (hq ▸ List.mem_cons_self ..) with h | h | h
        · exact .inl h.1
        · exact .inr (.inl h)
        · exact .inr (.inr h)
      obtain ⟨t', h1, h2⟩ := srv_step (n := n) hq h.srv he
      rw [h1] at ht; cases ht
      exact .inl ⟨rfl, e, r, rfl, h2⟩
  | client i =>
    by_cases hi : i < n
    · cases hq : s.cq i with
      | nil => simp [step, hq] at ht
      | cons e r =>
        obtain ⟨t', h1, h2⟩ := cli_step hi hq (h.cli i) (h.cq i e (hq ▸ List.mem_cons_self ..))
        rw [h1] at ht; cases ht
        exact .inr (.inl ⟨i, e, r, rfl, hi, hq, h2⟩)
    · simp [step, hi] at ht
  | waitOver i =>
    simp only [step] at ht
    split at ht
    · rename_i hc; cases ht; exact .inr (.inr (.inl ⟨i, rfl, hc.1, hc.2, rfl⟩))
    · cases ht
  | useOver i =>
    simp only [step] at ht
    split at ht
    · rename_i hc; cases ht; exact .inr (.inr (.inr (.inl ⟨i, rfl, hc.1, hc.2, rfl⟩)))
    · cases ht
  | pauseServer => simp only [step] at ht; cases ht; exact .inr (.inr (.inr (.inr (.inl ⟨rfl, rfl⟩))))
  | pauseClient i =>
    simp only [step] at ht
    split at ht
    · rename_i hc; cases ht; exact .inr (.inr (.inr (.inr (.inr ⟨i, rfl, hc, rfl⟩))))
    · cases ht

theorem Inv.step {n : Nat} {s : St} (h : Inv n s) {o : Op} {t : St} (ht : step n s o = some t) : Inv n t := by
  rcases h.cases ht with ⟨_, e, r, hq, h1⟩ | ⟨i, e, r, _, hi, hq, h1⟩ | ⟨i, _, _, _, rfl⟩ | ⟨i, _, _, _, rfl⟩ | ⟨_, rfl⟩ | ⟨i, _, _, rfl⟩
  · exact h.server hq h1
  · exact h.client hi hq h1
  · exact h.postClient (w := set s.wait i false) (u := s.use) (.inl rfl)
  · exact h.postClient (w := s.wait) (u := set s.use i false) (.inr (.inl rfl))
  · exact h.post (.inr rfl)
  · exact h.postClient (w := s.wait) (u := s.use) (.inr (.inr rfl))

theorem Inv.run {n : Nat} {os : List Op} : ∀ {s t : St}, Inv n s → run n s os = some t → Inv n t := by
  induction os with
  | nil => intro s t h ht; cases ht; exact h
  | cons o os ih =>
    intro s t h ht
    simp only [Shared.run, Option.bind_eq_some_iff] at ht
    obtain ⟨u, h1, h2⟩ := ht
    exact ih (h.step h1) h2

end Verif.App.Shared
