import Verif.Subm.Lemmas5
import Verif.SM.Memory
namespace Verif.Subm
open Spec
open SM (Vid Sig Act Guard Tr Obs Env RC Stop Ans sigAny sigCompletion sigCreation)

variable {m : Machine} {N : Nat} {home : Vid → Option Vid} {rank : Option Vid → Nat} {D : Vid → Option Vid}

theorem addTargetLoop_prefix (U : SM.Machine) : ∀ f st acc r, SM.addTargetLoop U none f st acc = .ok r → ∃ d, r = acc ++ d := by
  intro f
  induction f with
  | zero => intro st acc r h; cases h
  | succ f ih =>
    intro st acc r h
    unfold SM.addTargetLoop at h
    split at h
    · cases h; exact ⟨[], by simp⟩
    · split at h
      · cases h
      · split at h
        · split at h
          · cases h
          · obtain ⟨d, hd⟩ := ih _ _ _ h
            exact ⟨_, by rw [hd, List.append_assoc]⟩
        · cases h

theorem addTargetLoop_head {U : SM.Machine} {f : Nat} {ts : Vid} {r : List Vid} (h : SM.addTargetLoop U none f (some ts) [] = .ok r) : Heads ts r := by
  cases f with
  | zero => cases h
  | succ f =>
    unfold SM.addTargetLoop at h
    simp only [reduceCtorEq, if_false] at h
    split at h
    · split at h
      · cases h
      · obtain ⟨d, hd⟩ := addTargetLoop_prefix _ _ _ _ _ h
        right; rw [hd]; rfl
    · cases h

/-- The initial transition. -/
theorem Sim.create (P : Proper m N home rank) (hA : m.assertEn = true) {E : Vid → Option Vid} (env : Env) (e : Sig) : ∀ f,
    Sim N D E (Subm.segLoop m env e true m.istate f false m.istate m.istate m.iaction false)
      (SM.segLoop (inserted m N) (seenBy N env) e true (inserted m N).istate f false (inserted m N).istate (inserted m N).istate (inserted m N).iaction false)
      (SameEnd m N home D 0) := by
  have hs := P.initial.1
  have hlt := isState_lt P hs
  have hc : Ctx m N home D 0 (home m.istate) := by rw [P.initial.2]; exact .main
  have hi : (inserted m N).istate = occ N 0 m.istate := by simp [inserted, occ]
  intro f
  rw [hi]
  cases f with
  | zero => exact Sim.bad (by simp)
  | succ f =>
    unfold Subm.segLoop SM.segLoop
    refine (Sim.pushAct hA [] m.iaction).bind ?_
    rintro D1 al al' ⟨hD, rfl⟩
    rw [hD]
    cases f with
    | zero =>
      intro s t hd hl
      exact ⟨fun t' b h => (by cases h), fun t' b h => (by cases h)⟩
    | succ f =>
      rw [resolve_state hs, resolve_copy P hs]
      refine Sim.bind (Q := fun D' x y => D' = D ∧ x = (m.istate, al) ∧ y = (occ N 0 m.istate, occ N 0 m.istate, al)) (Sim.pure ⟨rfl, rfl, rfl⟩) ?_
      rintro D2 _ _ ⟨hD2, rfl, rfl⟩
      rw [hD2]
      simp only [stage4, SM.stage4]
      rw [addTarget_state hs, addTarget_copy P hs]
      obtain ⟨h1, h2⟩ := addTarget_main (D := D) P (f + 1) (st := some (occ N 0 m.istate)) (acc := [])
        (fun o h => by cases h; exact ⟨Occ.mk' hlt hc, by rw [vtx_occ hlt]; exact P.initial.2⟩) (fun o h => by cases h)
      simp only [Option.map_some, vtx_occ hlt, List.map_nil] at h1
      refine Sim.bind (Q := fun D' x y => D' = D ∧ x = y.map (vtx N) ∧ (∀ o ∈ y, Occ m N home D o) ∧ Heads (occ N 0 m.istate) y) (Sim.lift ?_ h2) ?_
      · intro r hr
        exact ⟨_, (h1 r hr).1, rfl, rfl, (h1 r hr).2.1, addTargetLoop_head hr⟩
      · rintro D3 _ ent ⟨hD3, rfl, ho, hh⟩
        rw [hD3]
        exact Sim.tail P env e true m.istate (occ N 0 m.istate) (f + 1) hs hc al false ho hh
          (fun compl h h' => Sim.micro P hA env e true _ _ (f + 1) compl h h')

/-! ## Calls -/

/-- The two machines agree. -/
structure Agree (m : Machine) (N : Nat) (home : Vid → Option Vid) (s : Mem) (t : SM.Mem) : Prop where
  log : s.log = t.log.map (seen N)
  state : ∃ cs, t.state = some cs ∧ s.state = some (vtx N cs) ∧ Occ m N home s.dyp cs ∧
    ((∃ l, stables t.log = l ++ [cs]) ∨ (stables t.log = [] ∧ ctx N cs = 0))

theorem _root_.Verif.Subm.Spec.OneAtATime.left {a b : List Vid} (h : OneAtATime m N (a ++ b)) : OneAtATime m N a :=
  fun l1 x y l2 e => h l1 x y (l2 ++ b) (by rw [e]; simp)

/-- A step that keeps the state. -/
theorem Agree.keep {s s' : Mem} {t t' : SM.Mem} (h : Agree m N home s t) (hd : s'.dyp = s.dyp) (hg : Grown N s s' t t') : Agree m N home s' t' := by
  obtain ⟨hl, cs, h1, h2, h3, h4⟩ := h
  exact ⟨hg.same hl, cs, hg.there.trans h1, hg.here.trans h2, hd ▸ h3, hg.stables ▸ h4⟩

theorem Agree.compatible {s : Mem} {t : SM.Mem} (h : Agree m N home s t) {cs : Vid} (hcs : t.state = some cs) {b : Vid} (ho : OneAtATime m N (stables t.log ++ [b])) :
    Compatible m N cs b := by
  obtain ⟨hl, cs', h1, h2, h3, h4⟩ := h
  rw [hcs] at h1
  cases h1
  rcases h4 with ⟨l, e⟩ | ⟨_, e⟩
  · exact ho l cs b [] (by rw [e]; simp)
  · intro x y M hx
    cases hx with
    | here h => rw [e] at h; cases h
    | out h => rw [e] at h; cases h

theorem finish_inserted {f : Nat} {b : Vid} {t t' : SM.Mem} {r : Ans Unit} (h : SM.finish (inserted m N) f b t = (t', r)) :
    (∃ q, r = .stop q ∧ ∀ c, q ≠ .rc c) ∨ (r = .ok () ∧ t'.state = some b ∧ t'.log = t.log ++ [.stable b]) := by
  have key : ∀ f p acc q, SM.deepTargets (inserted m N) f p acc = .stop q → ∀ c, q ≠ .rc c := by
    intro f
    induction f with
    | zero => intro p acc q h; cases h; simp
    | succ f ih =>
      intro p acc q h
      cases p with
      | none => cases h
      | some s =>
        unfold SM.deepTargets at h
        split at h
        · split at h
          · exact ih _ _ _ h
          · split at h
            · exact ih _ _ _ h
            · cases h; simp
            · exact ih _ _ _ h
        · cases h; simp
  unfold SM.finish at h
  cases hp : (inserted m N).parent b with
  | none => rw [hp] at h; cases h; exact .inl ⟨_, rfl, by simp⟩
  | some p =>
    rw [hp] at h
    change SM.Eng.bind (SM.Eng.lift _) _ t = _ at h
    unfold SM.Eng.bind SM.Eng.lift at h
    cases hk : SM.deepTargets (inserted m N) f p [] with
    | stop q => rw [hk] at h; cases h; exact .inl ⟨q, rfl, key _ _ _ _ hk⟩
    | ok ks => rw [hk] at h; cases h; exact .inr ⟨rfl, rfl, rfl⟩

/-- Stage 8. -/
theorem Agree.finish {s s' : Mem} {t t' t'' : SM.Mem} {f : Nat} {b : Vid} {r : Ans Unit} (hl : s.log = t.log.map (seen N)) (hg : Grown N s s' t t')
    (ho : Occ m N home s'.dyp b) (h : SM.finish (inserted m N) f b t' = (t'', r)) :
    (∃ q, r = .stop q ∧ ∀ c, q ≠ .rc c) ∨ (r = .ok () ∧ t''.log = t'.log ++ [.stable b] ∧
      ∃ s'', Subm.finish (vtx N b) s' = (s'', .ok ()) ∧ Agree m N home s'' t'') := by
  rcases finish_inserted h with h | ⟨h1, h2, h3⟩
  · exact .inl h
  · refine .inr ⟨h1, h3, _, rfl, ?_, b, h2, rfl, ho, .inl ⟨stables t'.log, ?_⟩⟩
    · show s'.log ++ [.stable (vtx N b)] = _
      rw [h3, hg.same hl]
      simp [seen]
    · rw [h3, stables_append]; rfl

theorem run_stop {α γ : Type} {x : Eng α} {g : α → Eng γ} {s s' : Mem} {q : Stop} (h : x s = (s', .stop q)) : (x >>= g) s = (s', .stop q) := by
  show Eng.bind x g s = _
  unfold Eng.bind
  rw [h]

theorem bind_cases {β γ : Type} {y : SM.Eng β} {g : β → SM.Eng γ} {t t' : SM.Mem} {r : Ans γ} (h : (y >>= g) t = (t', r)) :
    (∃ q, y t = (t', .stop q) ∧ r = .stop q) ∨ ∃ t1 b, y t = (t1, .ok b) ∧ g b t1 = (t', r) := by
  change SM.Eng.bind y g t = _ at h
  unfold SM.Eng.bind at h
  cases hy : y t with
  | mk t1 r1 =>
    rw [hy] at h
    cases r1 with
    | ok b => exact .inr ⟨t1, b, rfl, h⟩
    | stop q => cases h; exact .inl ⟨q, rfl, rfl⟩

/-- An answer after which the application goes on. -/
def Goes {α : Type} (r : Ans α) : Prop := ∀ q, r = .stop q → ∃ c, q = .rc c

theorem Agree.compound (P : Proper m N home rank) (hA : m.assertEn = true) (env : Env) (f : Nat) (e : Sig) (cr : Bool) {s : Mem} {t t' : SM.Mem} {r : Ans Bool}
    (h : Agree m N home s t) (hr : SM.compound (inserted m N) (seenBy N env) f e cr t = (t', r)) (hgo : Goes r) (ho : OneAtATime m N (stables t'.log)) :
    ∃ s', Subm.compound m env f e cr s = (s', r) ∧ Agree m N home s' t' := by
  have last : ∀ {s : Mem} {t : SM.Mem} {x : Eng (Vid × Bool)} {t1 : SM.Mem} {b : Vid × Bool} {s1 : Mem} {a : Vid × Bool}, s.log = t.log.map (seen N) → x s = (s1, .ok a) → a.2 = b.2 → a.1 = vtx N b.1 → Occ m N home s1.dyp b.1 →
      Grown N s s1 t t1 → (SM.finish (inserted m N) f b.1 >>= fun _ => (pure b.2 : SM.Eng Bool)) t1 = (t', r) →
      ∃ s', (x >>= fun r => Subm.finish r.1 >>= fun _ => (pure r.2 : Eng Bool)) s = (s', r) ∧ Agree m N home s' t' := by
    intro s t x t1 b s1 a hl hx h1 h2 h3 h4 h5
    rw [run_bind hx]
    rcases bind_cases h5 with ⟨q, k1, k2⟩ | ⟨t2, _, k1, k2⟩
    · rcases Agree.finish hl h4 h3 k1 with ⟨q', z1, z2⟩ | ⟨z1, _⟩
      · cases z1
        obtain ⟨c, hc⟩ := hgo _ k2
        exact absurd hc (z2 c)
      · cases z1
    · rcases Agree.finish hl h4 h3 k1 with ⟨q', z1, z2⟩ | ⟨z1, z2, s2, z3, z4⟩
      · cases z1
      · cases k2
        refine ⟨s2, ?_, z4⟩
        rw [h2, run_bind z3, h1]
        rfl
  have fin : ∀ {t1 : SM.Mem} {b : Vid × Bool}, (SM.finish (inserted m N) f b.1 >>= fun _ => (pure b.2 : SM.Eng Bool)) t1 = (t', r) → t'.log = t1.log ++ [.stable b.1] := by
    intro t1 b h5
    rcases bind_cases h5 with ⟨q, k1, k2⟩ | ⟨t2, _, k1, k2⟩
    · rcases finish_inserted k1 with ⟨q', z1, z2⟩ | ⟨z1, _⟩
      · cases z1
        obtain ⟨c, hc⟩ := hgo _ k2
        exact absurd hc (z2 c)
      · cases z1
    · rcases finish_inserted k1 with ⟨q', z1, z2⟩ | ⟨_, _, z2⟩
      · cases z1
      · cases k2; exact z2
  cases cr with
  | true =>
    obtain ⟨p1, p2⟩ := Sim.create (D := s.dyp) (E := s.dyp) P hA env e f s t rfl h.log
    rcases bind_cases hr with ⟨q, k1, k2⟩ | ⟨t1, b, k1, k2⟩
    · obtain ⟨c, hc⟩ := hgo _ k2
      subst hc k2
      obtain ⟨s', z1, z2, z3⟩ := p2 _ _ k1
      exact ⟨s', run_stop z1, h.keep z2 z3⟩
    · obtain ⟨s1, a, z1, ⟨y1, y2, y3, y4, y5⟩, z3⟩ := p1 _ _ k1
      exact last h.log z1 y2 y3 (y1 ▸ y4) z3 k2
  | false =>
    obtain ⟨cs, hcs, hcs', hocc, hlast⟩ := h.state
    have e1 : Subm.compound m env f e false s = (Subm.searchUp m env e f (vtx N cs) >>= fun r =>
      match r with
      | none => Eng.stop (.rc .evtNFound)
      | some (s, t) =>
        match t.target with
        | none => do
          let al ← Subm.pushAct m [] t.action
          Subm.exec e al
          pure false
        | some v => Subm.segLoop m env e false (vtx N cs) f false s v t.action false >>= fun r => Subm.finish r.1 >>= fun _ => pure r.2) s := by
      unfold Subm.compound
      show Eng.bind Eng.get _ s = _
      unfold Eng.bind Eng.get
      simp only [hcs']
      rfl
    have e2 : SM.compound (inserted m N) (seenBy N env) f e false t = (SM.searchUp (inserted m N) (seenBy N env) e f cs >>= fun r =>
      match r with
      | none => SM.Eng.stop (.rc .evtNFound)
      | some (s, t) =>
        match t.target with
        | none => do
          let al ← SM.pushAct (inserted m N) [] t.action
          SM.exec e al
          pure false
        | some v => SM.segLoop (inserted m N) (seenBy N env) e false cs f false s v t.action false >>= fun r => SM.finish (inserted m N) f r.1 >>= fun _ => pure r.2) t := by
      unfold SM.compound
      show SM.Eng.bind SM.Eng.get _ t = _
      unfold SM.Eng.bind SM.Eng.get
      simp only [hcs]
      rfl
    rw [e2] at hr
    rw [e1]
    obtain ⟨p1, p2⟩ := Sim.searchUp (E := s.dyp) P env e f hocc s t rfl h.log
    rcases bind_cases hr with ⟨q, k1, k2⟩ | ⟨t1, b, k1, k2⟩
    · obtain ⟨c, hc⟩ := hgo _ k2
      subst hc k2
      obtain ⟨s', z1, z2, z3⟩ := p2 _ _ k1
      exact ⟨s', run_stop z1, h.keep z2 z3⟩
    · obtain ⟨s1, a, z1, ⟨y1, y2⟩, z3⟩ := p1 _ _ k1
      rw [run_bind z1]
      have hl1 := z3.same h.log
      have h1 := h.keep y1 z3
      cases b with
      | none =>
        cases a with
        | some a => exact y2.elim
        | none => cases k2; exact ⟨s1, rfl, h1⟩
      | some b =>
        cases a with
        | none => exact y2.elim
        | some a =>
          obtain ⟨v, tr⟩ := a
          obtain ⟨o, tr'⟩ := b
          obtain ⟨w1, w2, ⟨l, w3, w4⟩, w5⟩ := y2
          subst w5
          simp only at k2 ⊢
          cases htg : tr.target with
          | none =>
            rw [htg] at k2
            simp only [Option.map_none] at k2
            have hs := (Sim.pushAct (N := N) (D := s1.dyp) (E := s1.dyp) hA [] tr.action).bind (g := fun al => SM.exec e al >>= fun _ => (pure false : SM.Eng Bool))
              (f := fun al => Subm.exec e al >>= fun _ => (pure false : Eng Bool)) (Q' := fun D' a b => D' = s1.dyp ∧ a = b) (by
              rintro D1 al al' ⟨hD, rfl⟩
              rw [hD]
              refine (Sim.exec e al).bind ?_
              rintro D2 _ _ ⟨hD2, _⟩
              rw [hD2]
              exact Sim.pure ⟨rfl, rfl⟩)
            obtain ⟨g1, g2⟩ := hs s1 t1 rfl hl1
            cases r with
            | ok r =>
              obtain ⟨s', a, q1, ⟨q2, rfl⟩, q3⟩ := g1 _ _ k2
              exact ⟨s', q1, h1.keep q2 q3⟩
            | stop q =>
              obtain ⟨c, hc⟩ := hgo _ rfl
              subst hc
              obtain ⟨s', q1, q2, q3⟩ := g2 _ _ k2
              exact ⟨s', q1, h1.keep q2 q3⟩
          | some w =>
            rw [htg] at k2
            simp only [Option.map_some] at k2
            have hok : okTrs m home v l = true := by
              unfold Machine.trtbl at w3
              cases hv : m.vert v with
              | none => rw [hv] at w3; cases w3
              | some x =>
                have := P.ok _ _ hv
                rw [hv] at w3
                cases x <;> simp only [Option.some.injEq, reduceCtorEq] at w3 <;> subst w3 <;> simp only [okVertex, Bool.and_eq_true] at this
                · exact this.2
                · exact this.1.1.2
                · simp [okTrs]
                · exact this.1.1.1.2
            obtain ⟨j1, j2⟩ := okTarget_iff (okTrs_mem hok w4 htg)
            have hocc1 : Occ m N home s1.dyp cs := y1 ▸ hocc
            obtain ⟨g1, g2, g3⟩ := Sim.segLoop P hA env e hocc1 f j2 (c := ctx N o) (by rw [j1, w1]; exact y1.symm ▸ w2.2) v o tr.action s1 t1 rfl hl1
            rcases bind_cases k2 with ⟨q, l1, l2⟩ | ⟨t2, b, l1, l2⟩
            · obtain ⟨c, hc⟩ := hgo _ l2
              subst hc l2
              obtain ⟨s', q1, q2, q3⟩ := g2 _ _ l1
              exact ⟨s', run_stop q1, h1.keep q2 q3⟩
            · have hst : stables t'.log = stables t.log ++ [b.1] := by
                rw [fin l2, stables_append, g3 _ _ l1, z3.stables]; rfl
              obtain ⟨s2, a, q1, q2, q3, q4, q5⟩ := g1 _ _ l1 (h.compatible hcs (hst ▸ ho))
              exact last hl1 q1 q2 q3 q4 q5 l2

theorem Agree.passes (P : Proper m N home rank) (hA : m.assertEn = true) (env : Env) : ∀ (f : Nat) (e : Sig) (cr : Bool) {s : Mem} {t t' : SM.Mem} {r : Ans Unit},
    Agree m N home s t → SM.passes (inserted m N) (seenBy N env) f e cr t = (t', r) → Goes r → OneAtATime m N (stables t'.log) →
    ∃ s', Subm.passes m env f e cr s = (s', r) ∧ Agree m N home s' t' := by
  intro f
  induction f with
  | zero =>
    intro e cr s t t' r h hr hgo
    cases hr
    obtain ⟨c, hc⟩ := hgo _ rfl
    cases hc
  | succ f ih =>
    intro e cr s t t' r h hr hgo ho
    rcases bind_cases hr with ⟨q, k1, k2⟩ | ⟨t1, b, k1, k2⟩
    · obtain ⟨s', h1, h2⟩ := Agree.compound P hA env f e cr h k1 (fun q' hq' => hgo q' (k2.trans (by cases hq'; rfl))) ho
      subst k2
      exact ⟨s', run_stop h1, h2⟩
    · have hlog : ∃ d, t'.log = t1.log ++ d := by
        cases b with
        | false => cases k2; exact ⟨[], by simp⟩
        | true =>
          obtain ⟨_, _, d, hd, _⟩ := SM.Unif.passes (m := inserted m N) (env := seenBy N env) f sigCompletion false t1 t1 ⟨rfl, fun _ _ _ _ _ => rfl, fun _ _ _ => rfl⟩
          simp only at k2
          rw [k2] at hd
          exact ⟨d, hd⟩
      obtain ⟨d, hd⟩ := hlog
      obtain ⟨s1, h1, h2⟩ := Agree.compound P hA env f e cr h k1 (fun q' hq' => by cases hq') (by rw [hd, stables_append] at ho; exact ho.left)
      cases b with
      | false =>
        cases k2
        exact ⟨s1, (run_bind h1).trans rfl, h2⟩
      | true =>
        obtain ⟨s2, h3, h4⟩ := ih sigCompletion false h2 k2 hgo ho
        exact ⟨s2, (run_bind h1).trans h3, h4⟩

/-- The calls of the inserted machine. -/
abbrev events (os : List (Sig × Nat)) : List (SM.Op × Nat) := os.map fun q => (.dispatch q.1, q.2)

theorem calls_grow (U : SM.Machine) (env : Env) : ∀ (os : List (SM.Op × Nat)) (t : SM.Mem), ∃ d, (SM.calls U env os t).1.log = t.log ++ d := by
  intro os
  induction os with
  | nil => exact fun t => ⟨[], by simp [SM.calls]⟩
  | cons q os ih =>
    intro t
    obtain ⟨o, f⟩ := q
    obtain ⟨_, _, d, hd, _⟩ := SM.Unif.op (m := U) (env := env) f o t t ⟨rfl, fun _ _ _ _ _ => rfl, fun _ _ _ => rfl⟩
    unfold SM.calls
    cases h : SM.op U env f o t with
    | mk t1 r =>
      rw [h] at hd
      simp only at hd
      obtain ⟨d', hd'⟩ := ih t1
      cases r with
      | ok u => exact ⟨d ++ d', by simp only [hd', hd, List.append_assoc]⟩
      | stop c =>
        cases c with
        | rc c => exact ⟨d ++ d', by simp only [hd', hd, List.append_assoc]⟩
        | assert => exact ⟨d, hd⟩
        | ub => exact ⟨d, hd⟩
        | fuel => exact ⟨d, hd⟩

theorem Agree.calls (P : Proper m N home rank) (hA : m.assertEn = true) (env : Env) : ∀ (os : List (Sig × Nat)) {s : Mem} {t : SM.Mem},
    Agree m N home s t → (∀ a ∈ (SM.calls (inserted m N) (seenBy N env) (events os) t).2, Returned a) →
    OneAtATime m N (stables (SM.calls (inserted m N) (seenBy N env) (events os) t).1.log) →
    (Subm.calls m env os s).2 = (SM.calls (inserted m N) (seenBy N env) (events os) t).2 ∧
    Agree m N home (Subm.calls m env os s).1 (SM.calls (inserted m N) (seenBy N env) (events os) t).1 := by
  intro os
  induction os with
  | nil => exact fun h _ _ => ⟨rfl, h⟩
  | cons q os ih =>
    intro s t h hr ho
    obtain ⟨e, f⟩ := q
    have step : ∀ t1 r, SM.dispatch (inserted m N) (seenBy N env) f e t = (t1, r) → Goes r → OneAtATime m N (stables t1.log) →
        ∃ s1, Subm.dispatch m env f e s = (s1, r) ∧ Agree m N home s1 t1 := fun t1 r h1 h2 h3 => Agree.passes P hA env f e _ h h1 h2 h3
    simp only [events, List.map_cons] at hr ho ⊢
    unfold SM.calls at hr ho ⊢
    unfold Subm.calls
    simp only [SM.op] at hr ho ⊢
    cases hd : SM.dispatch (inserted m N) (seenBy N env) f e t with
    | mk t1 r =>
      rw [hd] at hr ho
      obtain ⟨d, hdl⟩ := calls_grow (inserted m N) (seenBy N env) (events os) t1
      have hleft : OneAtATime m N (stables (SM.calls (inserted m N) (seenBy N env) (events os) t1).1.log) → OneAtATime m N (stables t1.log) := by
        intro h
        rw [hdl, stables_append] at h
        exact h.left
      cases r with
      | ok u =>
        simp only at hr ho
        obtain ⟨s1, h1, h2⟩ := step _ _ hd (fun q h => by cases h) (hleft ho)
        obtain ⟨i1, i2⟩ := ih h2 (fun a ha => hr a (List.mem_cons_of_mem _ ha)) ho
        simp only [h1]
        exact ⟨by rw [i1], i2⟩
      | stop c =>
        cases c with
        | rc c =>
          simp only at hr ho
          obtain ⟨s1, h1, h2⟩ := step _ _ hd (fun q h => by cases h; exact ⟨_, rfl⟩) (hleft ho)
          obtain ⟨i1, i2⟩ := ih h2 (fun a ha => hr a (List.mem_cons_of_mem _ ha)) ho
          simp only [h1]
          exact ⟨by rw [i1], i2⟩
        | assert =>
          rcases hr _ (List.mem_singleton.mpr rfl) with h | ⟨c, h⟩ <;> cases h
        | ub =>
          rcases hr _ (List.mem_singleton.mpr rfl) with h | ⟨c, h⟩ <;> cases h
        | fuel =>
          rcases hr _ (List.mem_singleton.mpr rfl) with h | ⟨c, h⟩ <;> cases h

theorem Agree.start (P : Proper m N home rank) : Agree m N home (mem0 m) (SM.mem0 (inserted m N)) := by
  have hi : (inserted m N).istate = occ N 0 m.istate := by simp [inserted, occ]
  have hlt := isState_lt P P.initial.1
  refine ⟨rfl, (inserted m N).istate, rfl, ?_, ?_, .inr ⟨rfl, ?_⟩⟩
  · rw [hi, vtx_occ hlt]; rfl
  · rw [hi]; exact Occ.mk' hlt (by rw [P.initial.2]; exact .main)
  · rw [hi]; exact ctx_occ hlt

end Verif.Subm
