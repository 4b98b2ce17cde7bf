import Verif.Subm.Lemmas4
namespace Verif.Subm
open Spec
open SM (Vid Sig Act Guard Tr Obs Env RC Stop Ans sigAny sigCompletion sigCreation)

variable {m : Machine} {N : Nat} {home : Vid → Option Vid} {rank : Option Vid → Nat} {D : Vid → Option Vid}

/-! ## What the inserted machine does by itself -/

/-- It does not return an error code. -/
def NoRc {β : Type} (y : SM.Eng β) : Prop := ∀ t t' c, y t ≠ (t', .stop (.rc c))

theorem NoRc.bind {β γ : Type} {y : SM.Eng β} {g : β → SM.Eng γ} (h : NoRc y) (hg : ∀ b, NoRc (g b)) : NoRc (y >>= g) := by
  intro t t' c
  show SM.Eng.bind y g t ≠ _
  unfold SM.Eng.bind
  cases hy : y t with
  | mk t1 r =>
    cases r with
    | ok b => exact hg b t1 t' c
    | stop q =>
      intro he
      cases he
      exact h _ _ _ hy

theorem NoRc.pure {β : Type} (b : β) : NoRc (pure b : SM.Eng β) := fun _ _ _ h => (by cases h)
theorem NoRc.stop {β : Type} {c : Stop} (hc : ∀ r, c ≠ .rc r) : NoRc (SM.Eng.stop c : SM.Eng β) := fun _ _ r h => (by cases h; exact hc r rfl)
theorem NoRc.emit (o : Obs) : NoRc (SM.Eng.emit o) := fun _ _ _ h => (by cases h)

theorem NoRc.exec (e : Sig) : ∀ l, NoRc (SM.exec e l)
  | [] => NoRc.pure _
  | a :: l => (NoRc.emit _).bind fun _ => NoRc.exec e l

theorem NoRc.enter (U : SM.Machine) : ∀ l c, NoRc (SM.enter U l c)
  | [], _ => NoRc.pure _
  | a :: l, _ => (NoRc.emit _).bind fun _ => NoRc.enter U l _

theorem NoRc.updShallow (v : Vid) : NoRc (SM.updShallow (inserted m N) v) := by
  intro t t' c
  show SM.Eng.bind (SM.Eng.lift _) _ t ≠ _
  unfold SM.Eng.bind SM.Eng.lift
  rcases shallow_inserted (m := m) (N := N) v with e | e
  · rw [e]; intro h; cases h
  · rw [e]; intro h; cases h

theorem findLca_noRc {U : SM.Machine} (hA : U.assertEn = true) (x : Vid) : ∀ f st acc c, SM.findLca U x f st acc ≠ .stop (.rc c) := by
  intro f
  induction f with
  | zero => intro st acc c h; cases h
  | succ f ih =>
    intro st acc c
    cases st with
    | none => intro h; cases h
    | some n =>
      unfold SM.findLca
      split
      · intro h; cases h
      · split
        · split
          · intro h; cases h
          · exact ih _ _ _
        · simp [hA]

theorem NoRc.exits (hA : m.assertEn = true) (ts : Vid) : ∀ f ix x ent, NoRc (SM.exits (inserted m N) ts f ix x ent) := by
  intro f
  induction f with
  | zero => exact fun _ _ _ => NoRc.stop (by simp)
  | succ f ih =>
    intro ix x ent
    cases x with
    | none => exact NoRc.pure _
    | some x =>
      rw [exits_succ]
      refine NoRc.bind (fun t t' c h => ?_) ?_
      · simp only [SM.Eng.lift, Prod.mk.injEq] at h
        exact findLca_noRc (U := inserted m N) hA x _ _ _ _ h.2
      · rintro ⟨b, l⟩
        cases b with
        | true =>
          cases ix with
          | zero =>
            refine (NoRc.emit _).bind fun _ => (NoRc.updShallow x).bind fun _ => ?_
            split
            · exact NoRc.pure _
            · exact NoRc.stop (by simp)
          | succ ix => exact NoRc.pure _
        | false =>
          refine (NoRc.emit _).bind fun _ => (NoRc.updShallow x).bind fun _ => ?_
          split
          · exact NoRc.stop (by simp)
          · exact ih _ _ _

theorem bind_ok {β γ : Type} {y : SM.Eng β} {g : β → SM.Eng γ} {t t' : SM.Mem} {c : γ} (h : (y >>= g) t = (t', .ok c)) :
    ∃ t1 b, y t = (t1, .ok b) ∧ g b t1 = (t', .ok c) := by
  change SM.Eng.bind y g t = _ at h
  unfold SM.Eng.bind at h
  cases hy : y t with
  | mk t1 r =>
    rw [hy] at h
    cases r with
    | ok b => exact ⟨t1, b, rfl, h⟩
    | stop q => cases h

theorem run_bind {α γ : Type} {x : Eng α} {g : α → Eng γ} {s s' : Mem} {a : α} (h : x s = (s', .ok a)) : (x >>= g) s = g a s' := by
  show Eng.bind x g s = _
  unfold Eng.bind
  rw [h]

theorem exits_head (ts : Vid) : ∀ f ix x ent t t' b, SM.exits (inserted m N) ts f ix x ent t = (t', .ok b) → Heads ts ent → Heads ts b := by
  intro f
  induction f with
  | zero => intro ix x ent t t' b h; cases h
  | succ f ih =>
    intro ix x ent t t' b h he
    cases x with
    | none => cases h; exact he
    | some x =>
      rw [exits_succ] at h
      obtain ⟨t1, ⟨fnd, l⟩, h1, h2⟩ := bind_ok h
      have hl : SM.findLca (inserted m N) x f (some ts) [] = .ok (fnd, l) := by
        simp only [SM.Eng.lift, Prod.mk.injEq] at h1; exact h1.2
      have hh := findLca_head hl
      have hheads : Heads ts l := by
        rcases hh with ⟨h, _⟩ | h
        · exact .inl h
        · exact .inr h
      cases fnd with
      | true =>
        cases ix with
        | zero =>
          simp only at h2
          obtain ⟨t2, _, _, h3⟩ := bind_ok h2
          obtain ⟨t3, _, _, h4⟩ := bind_ok h3
          split at h4
          · cases h4
            rcases hh with ⟨h, hx⟩ | h
            · simp only at h hx
              right; rw [h, hx trivial]; rfl
            · simp only at h
              right
              cases l with
              | nil => cases h
              | cons a l => exact h
          · cases h4
        | succ ix => cases h2; exact hheads
      | false =>
        simp only at h2
        obtain ⟨t2, _, _, h3⟩ := bind_ok h2
        obtain ⟨t3, _, _, h4⟩ := bind_ok h3
        cases hpp : (inserted m N).parent x with
        | none => rw [hpp] at h4; cases h4
        | some q => rw [hpp] at h4; exact ih _ _ _ _ _ _ h4 hheads

theorem stables_append (a b : List Obs) : stables (a ++ b) = stables a ++ stables b := by simp [stables]

theorem stables_none {d : List Obs} (h : ∀ v, Obs.stable v ∉ d) : stables d = [] := by
  unfold stables
  rw [List.filterMap_eq_nil_iff]
  intro o ho
  cases o <;> simp
  exact h _ ho

theorem Grown.stables {s s' : Mem} {t t' : SM.Mem} (h : Grown N s s' t t') : Spec.stables t'.log = Spec.stables t.log := by
  obtain ⟨d, h1, _, h3⟩ := h.log
  rw [h1, stables_append, stables_none h3, List.append_nil]

/-- It does not come to rest. -/
def Quiet {β : Type} (y : SM.Eng β) : Prop := ∀ t t' b, y t = (t', .ok b) → stables t'.log = stables t.log

theorem Quiet.bind {β γ : Type} {y : SM.Eng β} {g : β → SM.Eng γ} (h : Quiet y) (hg : ∀ b, Quiet (g b)) : Quiet (y >>= g) := by
  intro t t' c hc
  obtain ⟨t1, b, h1, h2⟩ := bind_ok hc
  rw [hg _ _ _ _ h2, h _ _ _ h1]

theorem Quiet.pure {β : Type} (b : β) : Quiet (pure b : SM.Eng β) := fun _ _ _ h => (by cases h; rfl)
theorem Quiet.stop {β : Type} (c : Stop) : Quiet (SM.Eng.stop c : SM.Eng β) := fun _ _ r h => (by cases h)
theorem Quiet.emit {o : Obs} (ho : ∀ v, o ≠ .stable v) : Quiet (SM.Eng.emit o) := fun _ _ _ h => by
  cases h
  show stables (_ ++ [o]) = _
  rw [stables_append, stables_none (d := [o]), List.append_nil]
  intro v hv
  exact ho v (List.mem_singleton.mp hv).symm

theorem Quiet.exec (e : Sig) : ∀ l, Quiet (SM.exec e l)
  | [] => Quiet.pure _
  | _ :: l => (Quiet.emit (by simp)).bind fun _ => Quiet.exec e l

theorem Quiet.enter (U : SM.Machine) : ∀ l c, Quiet (SM.enter U l c)
  | [], _ => Quiet.pure _
  | _ :: l, _ => (Quiet.emit (by simp)).bind fun _ => Quiet.enter U l _

theorem Quiet.updShallow (v : Vid) : Quiet (SM.updShallow (inserted m N) v) := by
  intro t t' c h
  change SM.Eng.bind (SM.Eng.lift _) _ t = _ at h
  unfold SM.Eng.bind SM.Eng.lift at h
  rcases shallow_inserted (m := m) (N := N) v with e | e
  · rw [e] at h; cases h; rfl
  · rw [e] at h; cases h

theorem Quiet.exits (ts : Vid) : ∀ f ix x ent, Quiet (SM.exits (inserted m N) ts f ix x ent) := by
  intro f
  induction f with
  | zero => exact fun _ _ _ => Quiet.stop _
  | succ f ih =>
    intro ix x ent
    cases x with
    | none => exact Quiet.pure _
    | some x =>
      rw [exits_succ]
      refine Quiet.bind (fun t t' c h => ?_) ?_
      · simp only [SM.Eng.lift, Prod.mk.injEq] at h
        rw [h.1]
      · rintro ⟨b, l⟩
        cases b with
        | true =>
          cases ix with
          | zero =>
            refine (Quiet.emit (by simp)).bind fun _ => (Quiet.updShallow x).bind fun _ => ?_
            split
            · exact Quiet.pure _
            · exact Quiet.stop _
          | succ ix => exact Quiet.pure _
        | false =>
          refine (Quiet.emit (by simp)).bind fun _ => (Quiet.updShallow x).bind fun _ => ?_
          split
          · exact Quiet.stop _
          · exact ih _ _ _

/-! ## Compatible states -/

theorem _root_.Verif.Subm.Spec.Within.congr {o o' s : Vid} (h : Within N o s) (hc : ctx N o = ctx N o') : Within N o' s := by
  cases h with
  | here h1 => exact .here (hc ▸ h1)
  | out h1 h2 => exact .out (hc ▸ h1) h2

theorem Ctx.within {c : Nat} {h : Option Vid} (hc : Ctx m N home D c h) : ∀ {o : Vid} {c1 : Nat} {v M : Vid} {p : Option Vid} {t : List Tr} {x : List (Option Act × Vid)},
    ctx N o = c → Within N o (occ N c1 v) → v < N → m.vert v = some (.subm p t x M) → D M = some v := by
  induction hc with
  | main =>
    intro o c1 v M p t x ho hw
    cases hw with
    | here h => rw [ho] at h; cases h
    | out h => rw [ho] at h; cases h
  | @sub c w p t x M _ hw hm hd ih =>
    intro o c1 v M' p' t' x' ho hwi hv hm'
    cases hwi with
    | here h =>
      rw [ho] at h
      obtain ⟨e1, e2⟩ := occ_inj hw hv (Nat.succ.inj h)
      subst e2
      rw [hm] at hm'
      cases hm'
      exact hd
    | out h h2 =>
      rw [ho] at h
      have := Nat.succ.inj h
      subst this
      exact ih (ctx_occ hw) h2 hv hm'

theorem Occ.keep {D' : Vid → Option Vid} {o ts : Vid} (ho : Occ m N home D o) (hc : Compatible m N o ts) (he : Entered m N D D' ts) : Occ m N home D' o := by
  refine ⟨ho.1, ctx_keep ho.2 ?_⟩
  intro o1 v p t x M h1 h2 h3 h4
  rcases he M with h | ⟨s, hs, hM, hd⟩
  · exact h
  · have hw : Within N o (occ N v.1 v.2) := h2.congr h1
    have hsb : sbm m (vtx N (occ N v.1 v.2)) = some M := by
      rw [vtx_occ h3]; simp [sbm, h4]
    have := hc _ _ M hw hs hsb hM
    rw [hd, ← this, vtx_occ h3, Ctx.within ho.2 rfl hw h3 h4]

/-! ## Transitions -/

/-- After stage 3. -/
abbrev tailOf (U : SM.Machine) (env : Env) (e : Sig) (cr : Bool) (cs : Vid) (f : Nat) (compl : Bool) (r : Vid × Vid × List Act) (ent : List Vid) : SM.Eng (Vid × Bool) :=
  SM.exec e r.2.2 >>= fun _ => SM.enter U ent.reverse compl >>= fun b =>
    match U.comp r.2.1 with
    | some (d, ia) => SM.segLoop U env e cr cs f true r.2.1 d ia b
    | none =>
      match ent with
      | [] => SM.Eng.stop .ub
      | s :: _ => (Pure.pure (s, b) : SM.Eng _)

theorem Sim.segLoop (P : Proper m N home rank) (hA : m.assertEn = true) (env : Env) (e : Sig) {cs : Vid} (hcs : Occ m N home D cs) (f : Nat) {c : Nat} {v : Vid}
    (hv : ∃ x, m.vert v = some x ∧ ∀ d a, x ≠ .ref d a) (hc : Ctx m N home D c (home v)) (src src' : Vid) (ta : Option Act)
    (s : Mem) (t : SM.Mem) (hd : s.dyp = D) (hl : s.log = t.log.map (seen N)) :
    (∀ t' b, SM.segLoop (inserted m N) (seenBy N env) e false cs f false src' (target m N c v) ta false t = (t', .ok b) → Compatible m N cs b.1 →
      ∃ s' a, segLoop m env e false (vtx N cs) f false src v ta false s = (s', .ok a) ∧ a.2 = b.2 ∧ a.1 = vtx N b.1 ∧ Occ m N home s'.dyp b.1 ∧ Grown N s s' t t') ∧
    (∀ t' r, SM.segLoop (inserted m N) (seenBy N env) e false cs f false src' (target m N c v) ta false t = (t', .stop (.rc r)) →
      ∃ s', segLoop m env e false (vtx N cs) f false src v ta false s = (s', .stop (.rc r)) ∧ s'.dyp = D ∧ Grown N s s' t t') ∧
    (∀ t' b, SM.segLoop (inserted m N) (seenBy N env) e false cs f false src' (target m N c v) ta false t = (t', .ok b) → stables t'.log = stables t.log) := by
  cases f with
  | zero => exact ⟨fun t' b h => (by cases h), fun t' b h => (by cases h), fun t' b h => (by cases h)⟩
  | succ f =>
    unfold SM.segLoop Subm.segLoop
    obtain ⟨p1, p2⟩ := Sim.pushAct (N := N) (D := D) (E := D) hA [] ta s t hd hl
    show (∀ t' b, SM.Eng.bind _ _ t = _ → _ → ∃ s' a, Eng.bind _ _ s = _ ∧ _) ∧ (∀ t' r, SM.Eng.bind _ _ t = _ → ∃ s', Eng.bind _ _ s = _ ∧ _) ∧ (∀ t' b, SM.Eng.bind _ _ t = _ → _)
    unfold SM.Eng.bind Eng.bind
    cases hpa : SM.pushAct (inserted m N) [] ta t with
    | mk t1 r =>
      cases r with
      | stop q =>
        refine ⟨fun t' b h => (by cases h), fun t' r h => ?_, fun t' b h => (by cases h)⟩
        cases h
        obtain ⟨s', h1, h2, h3⟩ := p2 _ _ hpa
        simp only [h1]
        exact ⟨s', rfl, h2, h3⟩
      | ok al =>
        obtain ⟨s1, al', h1, ⟨hd1, rfl⟩, hg1⟩ := p1 _ _ hpa
        simp only [h1]
        have hl1 := hg1.same hl
        obtain ⟨r1, r2⟩ := Sim.resolve P hA env e src src' f al' hv hc s1 t1 hd1 hl1
        show (∀ t' b, SM.Eng.bind _ _ t1 = _ → _ → ∃ s' a, Eng.bind _ _ s1 = _ ∧ _) ∧ (∀ t' r, SM.Eng.bind _ _ t1 = _ → ∃ s', Eng.bind _ _ s1 = _ ∧ _) ∧ (∀ t' b, SM.Eng.bind _ _ t1 = _ → _)
        unfold SM.Eng.bind Eng.bind
        cases hre : SM.resolve (inserted m N) (seenBy N env) e false f src' (target m N c v) al' t1 with
        | mk t2 r =>
          cases r with
          | stop q =>
            refine ⟨fun t' b h => (by cases h), fun t' r h => ?_, fun t' b h => (by cases h)⟩
            cases h
            obtain ⟨s', h1, h2, h3⟩ := r2 _ _ hre
            simp only [h1]
            exact ⟨s', rfl, h2, hg1.trans h3⟩
          | ok rr =>
            obtain ⟨s2, rr', h2, ⟨q1, q2, q3, q4, q5⟩, hg2⟩ := r1 _ _ hre
            simp only [h2]
            have hl2 := hg2.same hl1
            have hg := hg1.trans hg2
            obtain ⟨stn, ts, al2⟩ := rr
            obtain ⟨tv, al3⟩ := rr'
            simp only at q1 q2 q3 q4 q5 ⊢
            subst q1 q2
            -- the rest of the way
            have hocc : occ N (ctx N ts) (vtx N ts) = ts := occ_self ts
            have hmicro : ∀ (E : Vid → Option Vid) {v d : Vid} {p : Option Vid} {t : List Tr} {a : Option Act} (compl : Bool), m.vert v = some (.composite p t d a) →
                Ctx m N home s2.dyp (ctx N ts) (home v) →
                Sim N s2.dyp E (Subm.segLoop m env e false (vtx N cs) f true v d a compl)
                  (SM.segLoop (inserted m N) (seenBy N env) e false cs f true (occ N (ctx N ts) v) (occ N (ctx N ts) d) a compl)
                  (SameEnd m N home s2.dyp (ctx N ts)) := fun E _ _ _ _ _ compl h h' => Sim.micro P hA env e false (vtx N cs) cs f compl h h'
            have hend : ∀ ent t3 t' b, Heads ts ent → tailOf (inserted m N) (seenBy N env) e false cs f false (stn, ts, al3) ent t3 = (t', .ok b) → ctx N b.1 = ctx N ts ∧ stables t'.log = stables t3.log := by
              intro ent t3 t' b hh hb
              obtain ⟨t4, _, hq4, hb⟩ := bind_ok hb
              obtain ⟨t5, cb, hq5, hb⟩ := bind_ok hb
              have hq := (Quiet.enter _ _ _ _ _ _ hq5).trans (Quiet.exec _ _ _ _ _ hq4)
              simp only at hb
              rw [← hocc, comp_copy P q4] at hb
              cases hcomp : m.comp (vtx N ts) with
              | none =>
                rw [hcomp] at hb
                simp only [Option.map_none] at hb
                cases ent with
                | nil => cases hb
                | cons x l =>
                  cases hb
                  rcases hh with h | h
                  · cases h
                  · simp only [List.head?_cons, Option.some.injEq] at h
                    exact ⟨by rw [h], hq⟩
              | some q =>
                obtain ⟨d, a⟩ := q
                obtain ⟨p, tt, hvc⟩ := comp_iff hcomp
                rw [hcomp] at hb
                simp only [Option.map_some] at hb
                rw [target_state (parent_default P hvc).1] at hb
                obtain ⟨s', a', _, hz, hgr⟩ := (hmicro D cb hvc q3.2 ⟨none, s2.dyp, t5.log.map (seen N)⟩ t5 rfl rfl).1 t' b hb
                exact ⟨hz.2.2.2.2, hgr.stables.trans hq⟩
            have hnorc : ∀ ent, Heads ts ent → NoRc (tailOf (inserted m N) (seenBy N env) e false cs f false (stn, ts, al3) ent) := by
              intro ent hh
              refine (NoRc.exec e _).bind fun _ => (NoRc.enter _ _ _).bind fun cb => ?_
              simp only
              rw [← hocc, comp_copy P q4]
              cases hcomp : m.comp (vtx N ts) with
              | none =>
                simp only [Option.map_none]
                cases ent with
                | nil => exact NoRc.stop (by simp)
                | cons x l => exact NoRc.pure _
              | some q =>
                obtain ⟨d, a⟩ := q
                obtain ⟨p, tt, hvc⟩ := comp_iff hcomp
                simp only [Option.map_some]
                rw [target_state (parent_default P hvc).1]
                intro t3 t' r hb
                obtain ⟨s', k1, k2, _⟩ := (hmicro (fun _ => none) cb hvc q3.2 ⟨none, s2.dyp, t3.log.map (seen N)⟩ t3 rfl rfl).2 t' r hb
                obtain ⟨s'', k3, k4, _⟩ := (hmicro (fun _ => some 0) cb hvc q3.2 ⟨none, s2.dyp, t3.log.map (seen N)⟩ t3 rfl rfl).2 t' r hb
                rw [k1] at k3
                cases k3
                rw [k2] at k4
                have := congrFun k4 0
                cases this
            show (∀ t' b, (SM.exits (inserted m N) ts f 0 (some cs) [] >>= fun ent => tailOf (inserted m N) (seenBy N env) e false cs f false (stn, ts, al3) ent) t2 = _ → _ → _) ∧
              (∀ t' r, (SM.exits (inserted m N) ts f 0 (some cs) [] >>= fun ent => tailOf (inserted m N) (seenBy N env) e false cs f false (stn, ts, al3) ent) t2 = _ → _) ∧
              (∀ t' b, (SM.exits (inserted m N) ts f 0 (some cs) [] >>= fun ent => tailOf (inserted m N) (seenBy N env) e false cs f false (stn, ts, al3) ent) t2 = _ → _)
            refine ⟨?_, ?_, ?_⟩
            · intro t' b hb hcompat
              obtain ⟨t3, ent, hex, hta⟩ := bind_ok hb
              have hheads := exits_head ts f 0 (some cs) [] t2 t3 ent hex (.inl rfl)
              have hctx := (hend ent t3 t' b hheads hta).1
              have hcs' : Occ m N home s2.dyp cs := hcs.keep (fun x y M hx hy => hcompat x y M hx (hy.congr hctx.symm)) q5
              obtain ⟨s3, ent', hs3, ⟨hd3, he3, ho3⟩, hg3⟩ := (Sim.exits P hA (E := D) q3 f 0 (x := some cs) (ent := []) (fun o h => by cases h; exact hcs')
                (fun o h => by cases h) s2 t2 rfl hl2).1 _ _ hex
              obtain ⟨s4, a, hs4, ⟨z1, z2, z3, z4, z5⟩, hg4⟩ := (Sim.tail P (E := D) env e false (vtx N cs) cs f q4 q3.2 al3 false (ent := ent) ho3 (hocc.symm ▸ hheads)
                (fun compl h h' => hmicro D compl h h') s3 t3 hd3 (hg3.same hl2)).1 t' b (by rw [hocc]; exact hta)
              refine ⟨s4, a, ?_, z2, z3, z1 ▸ z4, hg.trans (hg3.trans hg4)⟩
              refine (run_bind (x := stage4 m f false false (vtx N cs) src (vtx N ts)) hs3).trans ?_
              rw [he3]
              exact hs4
            · intro t' r hb
              exfalso
              change SM.Eng.bind _ _ t2 = _ at hb
              unfold SM.Eng.bind at hb
              cases hex : SM.exits (inserted m N) ts f 0 (some cs) [] t2 with
              | mk t3 r3 =>
                rw [hex] at hb
                cases r3 with
                | ok ent => exact hnorc ent (exits_head ts f 0 (some cs) [] t2 t3 ent hex (.inl rfl)) _ _ _ hb
                | stop q => cases hb; exact NoRc.exits hA ts _ _ _ _ _ _ _ hex
            · intro t' b hb
              obtain ⟨t3, ent, hex, hta⟩ := bind_ok hb
              rw [(hend ent t3 t' b (exits_head ts f 0 (some cs) [] t2 t3 ent hex (.inl rfl)) hta).2, Quiet.exits _ _ _ _ _ _ _ _ hex]
              exact hg.stables

end Verif.Subm
