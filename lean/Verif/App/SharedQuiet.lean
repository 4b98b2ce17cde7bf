import Verif.App.SharedLemmas
/-
Runs of the shared-resource application without PAUSE.
-/
namespace Verif.App.Shared
open Verif.SM

/-! ### Without PAUSE -/

/-- Where a client is in its cycle. -/
inductive Shape (s : St) (i : Nat) : Prop where
  | idle (h : (s.cli i).state = some 0) (hu : s.use i = false) (hw : s.wait i = true) (hq : s.cq i = [])
  | about (h : (s.cli i).state = some 0) (hu : s.use i = false) (hw : s.wait i = false) (hq : s.cq i = [⟨TOUT_REQ, i⟩])
  | waiting (h : (s.cli i).state = some 1) (hu : s.use i = false) (hw : s.wait i = false) (hq : s.cq i = [])
  | granted (h : (s.cli i).state = some 1) (hu : s.use i = false) (hw : s.wait i = false) (hq : s.cq i = [⟨START, i⟩])
  | inUse (h : (s.cli i).state = some 2) (hu : s.use i = true) (hw : s.wait i = false) (hq : s.cq i = [])
  | over (h : (s.cli i).state = some 2) (hu : s.use i = false) (hw : s.wait i = false) (hq : s.cq i = [⟨TOUT_USING, i⟩])

/-- Whether the client has permission to use the resource. -/
def tok (s : St) (i : Nat) : Nat := starts (s.cq i) + if (s.cli i).state = some 2 then 1 else 0
def dones (l : List Evt) : Nat := l.countP fun e => e.sig == DONE

theorem dones_append (a b : List Evt) : dones (a ++ b) = dones a + dones b := by simp [dones]
theorem dones_done {e : Evt} (h : e.sig = DONE) (l : List Evt) : dones (e :: l) = dones l + 1 := by simp [dones, h]
theorem dones_other {e : Evt} (h : e.sig ≠ DONE) (l : List Evt) : dones (e :: l) = dones l := by simp [dones, h]

/-- Invariant of the runs without PAUSE. -/
structure Quiet (s : St) : Prop where
  shape : ∀ i, Shape s i
  srv : s.srv.state ≠ some 2
  noPause : ∀ e ∈ s.sq, e.sig ≠ PAUSE
  free : s.srv.state = some 0 → dones s.sq = 0 ∧ ∀ i, tok s i = 0
  busy : s.srv.state = some 1 → (dones s.sq = 1 ∧ ∀ i, tok s i = 0) ∨ (dones s.sq = 0 ∧ ∃ k, tok s k = 1 ∧ ∀ j, j ≠ k → tok s j = 0)

theorem Quiet.start : Quiet start := by
  have h0 : mem0c.state = some 0 := by decide +kernel
  have h1 : mem0s.state = some 0 := by decide +kernel
  refine ⟨fun i => .idle h0 rfl rfl rfl, ?_, ?_, fun _ => ⟨rfl, fun i => ?_⟩, fun h => ?_⟩
  · show mem0s.state ≠ _; rw [h1]; simp
  · intro e he; cases he
  · show 0 + (if mem0c.state = some 2 then 1 else 0) = 0; rw [h0]; rfl
  · have : mem0s.state = some 1 := h
    rw [h1] at this; cases this

theorem Shape.congr {s t : St} {i : Nat} (h : Shape s i) (h1 : t.cli i = s.cli i) (h2 : t.cq i = s.cq i) (h3 : t.wait i = s.wait i)
    (h4 : t.use i = s.use i) : Shape t i := by
  cases h with
  | idle a b c d => exact .idle (by rw [h1]; exact a) (by rw [h4]; exact b) (by rw [h3]; exact c) (by rw [h2]; exact d)
  | about a b c d => exact .about (by rw [h1]; exact a) (by rw [h4]; exact b) (by rw [h3]; exact c) (by rw [h2]; exact d)
  | waiting a b c d => exact .waiting (by rw [h1]; exact a) (by rw [h4]; exact b) (by rw [h3]; exact c) (by rw [h2]; exact d)
  | granted a b c d => exact .granted (by rw [h1]; exact a) (by rw [h4]; exact b) (by rw [h3]; exact c) (by rw [h2]; exact d)
  | inUse a b c d => exact .inUse (by rw [h1]; exact a) (by rw [h4]; exact b) (by rw [h3]; exact c) (by rw [h2]; exact d)
  | over a b c d => exact .over (by rw [h1]; exact a) (by rw [h4]; exact b) (by rw [h3]; exact c) (by rw [h2]; exact d)

theorem recall_keeps (s : St) : (recall s).cli = s.cli ∧ (recall s).cq = s.cq ∧ (recall s).wait = s.wait ∧ (recall s).use = s.use ∧
    (recall s).srv = s.srv ∧ (recall s).granted = s.granted ∧ (recall s).asked = s.asked := by
  rcases recall_cases s with ⟨_, h⟩ | ⟨e, r, _, h⟩ <;> rw [h] <;> exact ⟨rfl, rfl, rfl, rfl, rfl, rfl, rfl⟩

/-- The pause-free steps. `i` is the client concerned. -/
inductive Move (n : Nat) (s : St) : St → Prop where
  | waitOver (i : Nat) (hi : i < n) (hs : Shape s i) (h : (s.cli i).state = some 0) (hw : s.wait i = true) (hu : s.use i = false) (hq : s.cq i = []) :
      Move n s (postC { s with wait := set s.wait i false } i ⟨TOUT_REQ, i⟩)
  | ask (i : Nat) (hi : i < n) (y : Mem) (h : (s.cli i).state = some 0) (hw : s.wait i = false) (hu : s.use i = false)
      (hq : s.cq i = [⟨TOUT_REQ, i⟩]) (hy : y.state = some 1) :
      Move n s { postS { s with cli := set s.cli i y, cq := set s.cq i [] } ⟨REQ, i⟩ with asked := s.asked ++ [i] }
  | begin (i : Nat) (hi : i < n) (y : Mem) (h : (s.cli i).state = some 1) (hw : s.wait i = false) (hu : s.use i = false)
      (hq : s.cq i = [⟨START, i⟩]) (hy : y.state = some 2) :
      Move n s { s with cli := set s.cli i y, cq := set s.cq i [], use := set s.use i true }
  | useOver (i : Nat) (hi : i < n) (h : (s.cli i).state = some 2) (hw : s.wait i = false) (hu : s.use i = true) (hq : s.cq i = []) :
      Move n s (postC { s with use := set s.use i false } i ⟨TOUT_USING, i⟩)
  | finish (i : Nat) (hi : i < n) (y : Mem) (h : (s.cli i).state = some 2) (hw : s.wait i = false) (hu : s.use i = false)
      (hq : s.cq i = [⟨TOUT_USING, i⟩]) (hy : y.state = some 0) :
      Move n s { postS { s with cli := set s.cli i y, cq := set s.cq i [] } ⟨DONE, i⟩ with wait := set s.wait i true }
  | grant (e : Evt) (r : List Evt) (hn : e.cli < n) (y : Mem) (hq : s.sq = e :: r) (h : s.srv.state = some 0) (he : e.sig = REQ) (hy : y.state = some 1)
      (hc : (s.cli e.cli).state = some 1) (hw : s.wait e.cli = false) (hu : s.use e.cli = false) (hcq : s.cq e.cli = []) :
      Move n s { postC { s with srv := y, sq := r } e.cli ⟨START, e.cli⟩ with granted := s.granted ++ [e.cli] }
  | defer (e : Evt) (r : List Evt) (y : Mem) (hq : s.sq = e :: r) (h : s.srv.state = some 1) (he : e.sig = REQ) (hy : y.state = some 1) :
      Move n s { s with srv := y, sq := r, dq := s.dq ++ [e] }
  | release (e : Evt) (r : List Evt) (y : Mem) (hq : s.sq = e :: r) (h : s.srv.state = some 1) (he : e.sig = DONE) (hy : y.state = some 0) :
      Move n s (recall { s with srv := y, sq := r })

/-- The steps that are not a key. -/
def Op.quiet : Op → Bool
  | .pauseServer | .pauseClient _ => false
  | _ => true

theorem Quiet.move {n : Nat} {s : St} (hi : Inv n s) (h : Quiet s) {o : Op} (ho : o.quiet = true) {t : St} (ht : step n s o = some t) :
    Move n s t := by
  rcases hi.cases ht with ⟨_, e, r, hq, h1⟩ | ⟨i, e, r, _, hin, hq, h1⟩ | ⟨i, _, hin, hw, rfl⟩ | ⟨i, _, hin, hu, rfl⟩ | ⟨rfl, _⟩ | ⟨i, rfl, _⟩
  · have hne := h.noPause e (hq ▸ List.mem_cons_self ..)
    cases h1 with
    | grant y h0 he hy =>
      have hn : e.cli < n := by
        rcases hi.sq e (hq ▸ List.mem_cons_self ..) with h1 | h1 | h1
        · exact h1.2
        · rw [he] at h1; cases h1
        · rw [he] at h1; cases h1
      have hcnt := hi.cnt e.cli
      rw [hq, requests_cons_req he, List.count_cons_self] at hcnt
      have hst : (s.cli e.cli).state = some 1 := by
        by_cases hc : (s.cli e.cli).state = some 1
        · exact hc
        · rw [if_neg hc] at hcnt; omega
      rw [if_pos hst] at hcnt
      cases h.shape e.cli with
      | waiting h1 hu hw hq' => exact .grant e r hn y hq h0 he hy hst hw hu hq'
      | granted h1 hu hw hq' => rw [hq', starts_start rfl] at hcnt; omega
      | idle h1 => rw [h1] at hst; cases hst
      | about h1 => rw [h1] at hst; cases hst
      | inUse h1 => rw [h1] at hst; cases hst
      | over h1 => rw [h1] at hst; cases hst
    | defer y h0 he hy =>
      rcases h0 with h0 | h0
      · exact .defer e r y hq h0 he (by rw [hy]; exact h0)
      · exact absurd h0 h.srv
    | release y h0 he hy => exact .release e r y hq h0 he hy
    | resume y h0 he hy => exact absurd he hne
    | pause y h0 he hy => exact absurd he hne
    | nothing y he h0 hy =>
      rcases h0 with h0 | h0
      · have := (h.free h0).1
        rw [hq, dones_done he] at this; omega
      · exact absurd h0 h.srv
  · cases h.shape i with
    | idle _ _ _ hq' => rw [hq] at hq'; cases hq'
    | waiting _ _ _ hq' => rw [hq] at hq'; cases hq'
    | inUse _ _ _ hq' => rw [hq] at hq'; cases hq'
    | about h0 hu hw hq' =>
      rw [hq] at hq'
      cases hq'
      cases h1 with
      | ask y _ he hy => exact .ask i hin y h0 hw hu hq hy
      | nothing y v hv hc hy =>
        rw [h0] at hv; cases hv
        rcases hc with ⟨_, hc | hc⟩ | ⟨hc, _⟩ | ⟨hc, _⟩ | ⟨hc, _⟩ <;> cases hc
      | begin y hx he => cases he
      | finish y hx he => cases he
      | late y hx he => cases he
      | pause y hx he => cases he
      | resume y hx he => cases he
    | granted h0 hu hw hq' =>
      rw [hq] at hq'
      cases hq'
      cases h1 with
      | begin y _ he hy => exact .begin i hin y h0 hw hu hq hy
      | nothing y v hv hc hy =>
        rw [h0] at hv; cases hv
        rcases hc with ⟨hc, _⟩ | ⟨_, hc⟩ | ⟨hc, _⟩ | ⟨hc, _⟩
        · cases hc
        · exact absurd rfl hc
        · cases hc
        · cases hc
      | ask y hx he => cases he
      | finish y hx he => cases he
      | late y hx he => cases he
      | pause y hx he => cases he
      | resume y hx he => cases he
    | over h0 hu hw hq' =>
      rw [hq] at hq'
      cases hq'
      cases h1 with
      | finish y _ he hy => exact .finish i hin y h0 hw hu hq hy
      | nothing y v hv hc hy =>
        rw [h0] at hv; cases hv
        rcases hc with ⟨hc, _⟩ | ⟨hc, _⟩ | ⟨_, hc | hc⟩ | ⟨hc, _⟩ <;> cases hc
      | ask y hx he => cases he
      | begin y hx he => cases he
      | late y hx => rw [h0] at hx; cases hx
      | pause y hx he => cases he
      | resume y hx he => cases he
  · cases h.shape i with
    | idle h0 hu _ hq => exact .waitOver i hin (h.shape i) h0 hw hu hq
    | about _ _ hw' => rw [hw] at hw'; cases hw'
    | waiting _ _ hw' => rw [hw] at hw'; cases hw'
    | granted _ _ hw' => rw [hw] at hw'; cases hw'
    | inUse _ _ hw' => rw [hw] at hw'; cases hw'
    | over _ _ hw' => rw [hw] at hw'; cases hw'
  · cases h.shape i with
    | inUse h0 _ hw hq => exact .useOver i hin h0 hw hu hq
    | idle _ hu' => rw [hu] at hu'; cases hu'
    | about _ hu' => rw [hu] at hu'; cases hu'
    | waiting _ hu' => rw [hu] at hu'; cases hu'
    | granted _ hu' => rw [hu] at hu'; cases hu'
    | over _ hu' => rw [hu] at hu'; cases hu'
  · cases ho
  · cases ho

/-- Steps of client `i` that leave the permissions alone and post no DONE. -/
theorem Quiet.same {s t : St} (h : Quiet s) {i : Nat} (hs : Shape t i) (ho : ∀ j, j ≠ i → t.cli j = s.cli j ∧ t.cq j = s.cq j ∧
    t.wait j = s.wait j ∧ t.use j = s.use j) (hsrv : t.srv = s.srv) (hp : ∀ e ∈ t.sq, e.sig ≠ PAUSE) (hd : dones t.sq = dones s.sq)
    (ht : tok t i = tok s i) : Quiet t := by
  have htok : ∀ j, tok t j = tok s j := by
    intro j
    by_cases hj : j = i
    · subst hj; exact ht
    · simp only [tok, (ho j hj).1, (ho j hj).2.1]
  refine ⟨fun j => ?_, by rw [hsrv]; exact h.srv, hp, fun hz => ?_, fun hz => ?_⟩
  · by_cases hj : j = i
    · subst hj; exact hs
    · exact (h.shape j).congr (ho j hj).1 (ho j hj).2.1 (ho j hj).2.2.1 (ho j hj).2.2.2
  · rw [hsrv] at hz
    obtain ⟨h1, h2⟩ := h.free hz
    exact ⟨by rw [hd]; exact h1, fun j => by rw [htok]; exact h2 j⟩
  · rw [hsrv] at hz
    rcases h.busy hz with ⟨h1, h2⟩ | ⟨h1, k, h2, h3⟩
    · exact .inl ⟨by rw [hd]; exact h1, fun j => by rw [htok]; exact h2 j⟩
    · exact .inr ⟨by rw [hd]; exact h1, k, by rw [htok]; exact h2, fun j hj => by rw [htok]; exact h3 j hj⟩

theorem Quiet.step {n : Nat} {s : St} (h : Quiet s) (hi : Inv n s) {t : St} (hm : Move n s t) : Quiet t := by
  cases hm with
  | waitOver i hin hs h0 hw hu hq =>
    refine h.same (i := i) (.about h0 hu ?_ ?_) (fun j hj => ⟨rfl, ?_, ?_, rfl⟩) rfl h.noPause rfl ?_
    · simp only [postC, set_self]
    · simp only [postC, set_self, hq]; rfl
    · simp only [postC, set_other _ _ hj]
    · simp only [postC, set_other _ _ hj]
    · simp only [tok, postC, set_self, hq]; rfl
  | ask i hin y h0 hw hu hq hy =>
    refine h.same (i := i) (.waiting ?_ hu hw ?_) (fun j hj => ⟨?_, ?_, rfl, rfl⟩) rfl ?_ ?_ ?_
    · simp only [postS, set_self, hy]
    · simp only [postS, set_self]
    · simp only [postS, set_other _ _ hj]
    · simp only [postS, set_other _ _ hj]
    · intro e he
      rcases List.mem_append.1 he with he | he
      · exact h.noPause e he
      · rw [List.mem_singleton.1 he]; exact fun h => by cases h
    · simp only [postS, dones_append]; rfl
    · simp only [tok, postS, set_self, hq, hy, h0]; rfl
  | begin i hin y h0 hw hu hq hy =>
    refine h.same (i := i) (.inUse ?_ ?_ hw ?_) (fun j hj => ⟨?_, ?_, rfl, ?_⟩) rfl h.noPause rfl ?_
    · simp only [set_self, hy]
    · simp only [set_self]
    · simp only [set_self]
    · simp only [set_other _ _ hj]
    · simp only [set_other _ _ hj]
    · simp only [set_other _ _ hj]
    · simp only [tok, set_self, hq, hy, h0]; rfl
  | useOver i hin h0 hw hu hq =>
    refine h.same (i := i) (.over h0 ?_ hw ?_) (fun j hj => ⟨rfl, ?_, rfl, ?_⟩) rfl h.noPause rfl ?_
    · simp only [postC, set_self]
    · simp only [postC, set_self, hq]; rfl
    · simp only [postC, set_other _ _ hj]
    · simp only [postC, set_other _ _ hj]
    · simp only [tok, postC, set_self, hq]; rfl
  | finish i hin y h0 hw hu hq hy =>
    have hti : tok s i = 1 := by simp only [tok, hq, h0]; rfl
    have hb : s.srv.state = some 1 → dones s.sq = 0 ∧ ∀ j, j ≠ i → tok s j = 0 := by
      intro hb
      rcases h.busy hb with ⟨h1, h2⟩ | ⟨h1, k, h2, h3⟩
      · have := h2 i; omega
      · have hk : k = i := by
          by_cases hk : k = i
          · exact hk
          · have := h3 i fun h => hk h.symm; omega
        subst hk; exact ⟨h1, h3⟩
    refine ⟨fun j => ?_, h.srv, ?_, fun hz => ?_, fun hz => ?_⟩
    · by_cases hj : j = i
      · subst hj
        exact .idle (by simp only [postS, set_self, hy]) hu (by simp only [postS, set_self]) (by simp only [postS, set_self])
      · exact (h.shape j).congr (by simp only [postS, set_other _ _ hj]) (by simp only [postS, set_other _ _ hj])
          (by simp only [postS, set_other _ _ hj]) rfl
    · intro e he
      rcases List.mem_append.1 he with he | he
      · exact h.noPause e he
      · rw [List.mem_singleton.1 he]; exact fun h => by cases h
    · have := (h.free hz).2 i; omega
    · obtain ⟨h1, h2⟩ := hb hz
      refine .inl ⟨?_, fun j => ?_⟩
      · simp only [postS, dones_append, h1]; rfl
      · by_cases hj : j = i
        · subst hj; simp only [tok, postS, set_self, hy]; decide
        · have := h2 j hj
          simp only [tok, postS, set_other _ _ hj]; exact this
  | grant e r hn y hq h0 he hy hc hw hu hcq =>
    obtain ⟨h1, h2⟩ := h.free h0
    rw [hq, dones_other (by rw [he]; decide)] at h1
    refine ⟨fun j => ?_, ?_, ?_, fun hz => ?_, fun hz => .inr ⟨h1, e.cli, ?_, fun j hj => ?_⟩⟩
    · by_cases hj : j = e.cli
      · subst hj
        exact .granted hc hu hw (by simp only [postC, set_self, hcq]; rfl)
      · exact (h.shape j).congr rfl (by simp only [postC, set_other _ _ hj]) rfl rfl
    · show y.state ≠ _; rw [hy]; simp
    · exact fun x hx => h.noPause x (hq ▸ List.mem_cons_of_mem _ hx)
    · have : y.state = some 0 := hz
      rw [hy] at this; cases this
    · simp only [tok, postC, set_self, hcq, hc]; rfl
    · have := h2 j
      simp only [tok, postC, set_other _ _ hj]; exact this
  | defer e r y hq h0 he hy =>
    have hd : dones r = dones s.sq := by rw [hq, dones_other (by rw [he]; decide)]
    refine ⟨fun j => (h.shape j).congr rfl rfl rfl rfl, ?_, ?_, fun hz => ?_, fun hz => ?_⟩
    · show y.state ≠ _; rw [hy]; simp
    · exact fun x hx => h.noPause x (hq ▸ List.mem_cons_of_mem _ hx)
    · have : y.state = some 0 := hz
      rw [hy] at this; cases this
    · have := h.busy h0
      rw [← hd] at this
      exact this
  | release e r y hq h0 he hy =>
    obtain ⟨k1, k2, k3, k4, k5, k6, k7⟩ := recall_keeps { s with srv := y, sq := r }
    have hdn : dones s.sq = dones r + 1 := by rw [hq, dones_done he]
    have hfree : dones r = 0 ∧ ∀ i, tok s i = 0 := by
      rcases h.busy h0 with ⟨h1, h2⟩ | ⟨h1, _⟩
      · exact ⟨by omega, h2⟩
      · omega
    have hst : (recall { s with srv := y, sq := r }).srv.state = some 0 := by rw [k5]; exact hy
    have htok : ∀ j, tok (recall { s with srv := y, sq := r }) j = 0 := by
      intro j
      have := hfree.2 j
      simp only [tok, k1, k2] at this ⊢
      exact this
    have hsq : (∀ x ∈ (recall { s with srv := y, sq := r }).sq, x.sig ≠ PAUSE) ∧ dones (recall { s with srv := y, sq := r }).sq = 0 := by
      have hr : ∀ x ∈ r, x.sig ≠ PAUSE := fun x hx => h.noPause x (hq ▸ List.mem_cons_of_mem _ hx)
      rcases recall_cases { s with srv := y, sq := r } with ⟨_, hrc⟩ | ⟨x, d, hd, hrc⟩
      · rw [hrc]; exact ⟨hr, hfree.1⟩
      · rw [hrc]
        have hx : x.sig = REQ := (hi.dq x (by simp only at hd; rw [hd]; exact List.mem_cons_self ..)).1
        refine ⟨fun z hz => ?_, ?_⟩
        · rcases List.mem_cons.1 hz with rfl | hz
          · rw [hx]; decide
          · exact hr z hz
        · simp only; rw [dones_other (by rw [hx]; decide)]; exact hfree.1
    refine ⟨fun j => (h.shape j).congr (by rw [k1]) (by rw [k2]) (by rw [k3]) (by rw [k4]), by rw [hst]; simp, hsq.1,
      fun _ => ⟨hsq.2, htok⟩, fun hz => ?_⟩
    rw [hst] at hz; cases hz

theorem Quiet.run {n : Nat} {os : List Op} (ho : ∀ o ∈ os, o.quiet = true) : ∀ {s t : St}, Inv n s → Quiet s → run n s os = some t →
    Quiet t := by
  induction os with
  | nil => intro s t _ h ht; cases ht; exact h
  | cons o os ih =>
    intro s t hi h ht
    simp only [Shared.run, Option.bind_eq_some_iff] at ht
    obtain ⟨u, h1, h2⟩ := ht
    exact ih (fun o ho' => ho o (List.mem_cons_of_mem _ ho')) (hi.step h1) (h.step hi (h.move hi (ho o (List.mem_cons_self ..)) h1)) h2

end Verif.App.Shared
