import Verif.Fwk.TraceLemmas
/-
One step of the traced framework: the host is not contradicted and its view stays right.
-/
namespace Verif.Fwk.Trace
open Verif Verif.Fwk Verif.Fwk.Spec

variable {c : Cfg} {w : World} {a : Abs} {h : Host} {pend : List PRec}

/-- What has to be shown of an operation. -/
def Follows (h : Host) (pend : List PRec) (rs : List Rec) (a' : Abs) : Prop :=
  ∃ h', h.readAll rs = some h' ∧ T1 h' pend a' ∧ T2 h' pend a'

theorem T2.frame {a' : Abs} {h' : Host} (t : T2 h pend a) (h0 : h'.used = h.used)
    (h1 : ∀ n e i, PRec.ae n e i ∈ pend → e ∈ a.fresh → e ∈ a'.fresh) (h2 : a'.pools = a.pools)
    (h3 : ∀ i, putCount a'.conts i = putCount a.conts i) : T2 h' pend a' := by
  refine ⟨fun n e i hm => ?_, fun i => ?_⟩
  · obtain ⟨k1, k2⟩ := t.aes n e i hm
    exact ⟨h1 n e i hm k1, by rw [h2]; exact k2⟩
  · rw [h0, h3]
    unfold usedLen
    rw [h2]
    exact t.used i

theorem T1.repend {pend' : List PRec} (t : T1 h pend a) (hg : getsOf pend' = getsOf pend) : T1 h pend' a :=
  ⟨t.reg, by rw [hg]; exact t.nd, by rw [hg]; exact t.gets, by rw [hg]; exact t.q⟩

theorem not_early_ae {e : Nat} (hne : pend.any (PRec.isAe e) = false) {n x i : Nat} (hm : PRec.ae n x i ∈ pend) : x ≠ e := by
  rintro rfl
  rw [List.any_eq_false] at hne
  have := hne _ hm
  simp [PRec.isAe] at this

theorem fresh_keep {e : Nat} (hne : pend.any (PRec.isAe e) = false) (n x i : Nat) (hm : PRec.ae n x i ∈ pend)
    (hf : x ∈ a.fresh) : x ∈ a.fresh.erase e := (List.mem_erase_of_ne (not_early_ae hne hm)).mpr hf

theorem getsOf_none (hne : pend.any PRec.isGet = false) : getsOf pend = [] := by
  unfold getsOf
  rw [List.filterMap_eq_nil_iff]
  intro p hp
  rw [List.any_eq_false] at hne
  have := hne p hp
  cases p <;> simp_all [PRec.isGet]

theorem getsOf_not {ao : Nat} (hne : pend.any (PRec.isGetOf ao) = false) (e : Nat) : (ao, e) ∉ getsOf pend := by
  intro hm
  unfold getsOf at hm
  rw [List.mem_filterMap] at hm
  obtain ⟨p, hp, hx⟩ := hm
  rw [List.any_eq_false] at hne
  have := hne p hp
  cases p <;> simp_all [PRec.isGetOf]

/-- A continuation other than that of a thread with a record to come is taken off. -/
theorem KeepBusy.erase {a' : Abs} {k : Nat} {t : Cont} (ht : a.conts[k]? = some t) (hne : ∀ ao e x, t = .thr ao e → (ao, x) ∉ getsOf pend)
    (h1 : a'.ph = a.ph) (h2 : ∀ t ∈ a.conts.eraseIdx k, t ∈ a'.conts) : KeepBusy pend a a' := by
  intro ao e hm hb
  rcases hb with hb | hb
  · exact .inl (h1.trans hb)
  · right
    refine h2 _ ?_
    obtain ⟨j, hj⟩ := List.mem_iff_getElem?.mp hb
    rw [List.mem_eraseIdx_iff_getElem?]
    refine ⟨j, ?_, hj⟩
    rintro rfl
    rw [ht] at hj
    cases hj
    exact hne ao e e rfl hm

theorem putCount_cons (t : Cont) (l : List Cont) (i : Nat) :
    putCount (t :: l) i = putCount l i + (match t with | .put j _ => if j = i then 1 else 0 | _ => 0) := by
  unfold putCount
  rw [List.countP_cons]
  cases t <;> simp

theorem countP_eraseIdx {α : Type} (p : α → Bool) : ∀ {l : List α} {k : Nat} {x : α}, l[k]? = some x →
    l.countP p = (l.eraseIdx k).countP p + (if p x then 1 else 0) := by
  intro l
  induction l with
  | nil => intro k x h; simp at h
  | cons y l ih =>
    intro k x h
    cases k with
    | zero =>
      simp only [List.getElem?_cons_zero, Option.some.injEq] at h
      subst h
      simp [List.countP_cons]
    | succ k =>
      simp only [List.getElem?_cons_succ] at h
      simp only [List.eraseIdx_cons_succ, List.countP_cons, ih h]
      omega

theorem putCount_erase {l : List Cont} {k i : Nat} {t : Cont} (hk : l[k]? = some t) :
    putCount l i = putCount (l.eraseIdx k) i + (match t with | .put j _ => if j = i then 1 else 0 | _ => 0) := by
  unfold putCount
  rw [countP_eraseIdx _ hk]
  cases t <;> simp

theorem aeCount_cons (p : PRec) (l : List PRec) (i : Nat) :
    aeCount (p :: l) i = aeCount l i + (match p with | .ae _ _ j => if j = i then 1 else 0 | _ => 0) := by
  unfold aeCount
  rw [List.countP_cons]
  cases p <;> simp

theorem aeCount_erase {l : List PRec} {k i : Nat} {p : PRec} (hk : l[k]? = some p) :
    aeCount l i = aeCount (l.eraseIdx k) i + (match p with | .ae _ _ j => if j = i then 1 else 0 | _ => 0) := by
  unfold aeCount
  rw [countP_eraseIdx _ hk]
  cases p <;> simp

/-! ### Operation by operation -/

theorem follow_activate (t1 : T1 h pend a) (t2 : T2 h pend a) {p n : Nat} {mem : List Nat} {a' : Abs} {o : Out} {w' : World}
    (hs : Spec.step c a (.activate p mem n) = .ok (a', o)) :
    Follows h (pendOf w w' o (.activate p mem n) ++ pend) (recsOf w w' o (.activate p mem n)) a' := by
  simp only [Spec.step] at hs
  split at hs
  · cases hs
  · rename_i hc
    simp only [Res.ok.injEq, Prod.mk.injEq] at hs
    obtain ⟨rfl, rfl⟩ := hs
    have hfree : a.reg p = none := by
      cases hr : a.reg p with
      | none => rfl
      | some i => exact absurd (.inr (.inr (by simp [hr]))) hc
    have hg : getsOf (PRec.act a.aos.length p n :: pend) = getsOf pend := rfl
    refine ⟨{ h with reg := upd h.reg p (some a.aos.length), q := upd h.q a.aos.length [], taken := upd h.taken a.aos.length none }, ?_, ?_, ?_⟩
    · simp [recsOf, Host.readAll, Host.read, t1.reg, hfree]
    · refine ⟨?_, ?_, ?_, ?_⟩
      · funext x; simp [upd, t1.reg]
      · simp only [pendOf, List.cons_append, List.nil_append, hg]; exact t1.nd
      · intro ao e hm
        simp only [pendOf, List.cons_append, List.nil_append, hg] at hm
        obtain ⟨k1, k2⟩ := t1.gets ao e hm
        exact ⟨k1, by simp; omega⟩
      · intro ao x hx
        simp only [pendOf, List.cons_append, List.nil_append, hg]
        by_cases hi : ao = a.aos.length
        · subst hi
          simp only [List.getElem?_append_right (Nat.le_refl _), Nat.sub_self, List.getElem?_cons_zero, Option.some.injEq] at hx
          subst hx
          have hl : (getsOf pend).lookup a.aos.length = none := by
            cases hlk : (getsOf pend).lookup a.aos.length with
            | none => rfl
            | some e =>
              have := (t1.gets _ e (mem_of_lookup hlk)).2
              omega
          rw [hl]
          exact ⟨by simp [upd], by simp [upd]⟩
        · have hlt : ao < a.aos.length := by
            have := (List.getElem?_eq_some_iff.mp hx).1
            simp at this; omega
          simp only [List.getElem?_append_left hlt] at hx
          have := t1.q ao x hx
          unfold View at this ⊢
          simp only [upd, hi, if_false]
          exact this
    · refine ⟨fun m e i hm => ?_, fun i => ?_⟩
      · exact t2.aes m e i (by simpa [pendOf] using hm)
      · have := t2.used i
        simpa [pendOf, aeCount_cons, usedLen] using this


theorem follow_terminate (hR : R c w a) (t1 : T1 h pend a) (t2 : T2 h pend a) {ao : Nat} {a' : Abs} {o : Out} {w' : World}
    (hs : Spec.step c a (.terminate ao) = .ok (a', o)) :
    Follows h (pendOf w w' o (.terminate ao) ++ pend) (recsOf w w' o (.terminate ao)) a' := by
  simp only [Spec.step] at hs
  cases hy : a.aos[ao]? with
  | none => simp [hy] at hs
  | some y =>
    obtain ⟨x, hx, hpr, _⟩ := hR.ao.aos.get hy
    simp only [hy] at hs
    split at hs
    · rename_i hreg
      simp only [Res.ok.injEq, Prod.mk.injEq] at hs
      obtain ⟨rfl, rfl⟩ := hs
      refine ⟨{ h with reg := upd h.reg y.prio none }, ?_, ?_, ?_⟩
      · simp only [recsOf, hx, Host.readAll, Host.read, t1.reg, hpr, hreg, if_true, Option.bind_some]
      · refine ⟨?_, ?_, ?_, ?_⟩
        · funext z; simp [upd, t1.reg]
        · simp only [pendOf, hx, List.cons_append, List.nil_append]; exact t1.nd
        · simp only [pendOf, hx, List.cons_append, List.nil_append]; exact t1.gets
        · simp only [pendOf, hx, List.cons_append, List.nil_append]
          intro i z hz; exact t1.q i z hz
      · simp only [pendOf, hx, List.cons_append, List.nil_append]
        refine ⟨fun m e i hm => t2.aes m e i (by simpa using hm), fun i => ?_⟩
        have := t2.used i
        simpa [aeCount_cons, usedLen] using this
    · cases hs

theorem follow_regPool (t1 : T1 h pend a) (t2 : T2 h pend a) {m : MemPool.Mem} {s n es : Nat} {a' : Abs} {o : Out} {w' : World}
    (hs : Spec.step c a (.regPool m s n es) = .ok (a', o)) :
    Follows h (pendOf w w' o (.regPool m s n es) ++ pend) (recsOf w w' o (.regPool m s n es)) a' := by
  simp only [Spec.step] at hs
  split at hs
  · cases hs
  · simp only [Res.ok.injEq, Prod.mk.injEq] at hs
    obtain ⟨rfl, rfl⟩ := hs
    refine ⟨h, rfl, ?_, ?_⟩
    · exact T1.repend (pend := pend) (T1.frame t1 rfl rfl (fun _ _ => rfl) (.same rfl fun _ ht => ht)) rfl
    · simp only [pendOf, List.cons_append, List.nil_append]
      refine ⟨fun k e i hm => ?_, fun i => ?_⟩
      · obtain ⟨k1, P, hP, k2⟩ := t2.aes k e i (by simpa using hm)
        have hlt := (List.getElem?_eq_some_iff.mp hP).1
        exact ⟨k1, P, by simp only; rw [List.getElem?_append_left hlt]; exact hP, k2⟩
      · have h1 := t2.used i
        simp only [aeCount_cons]
        have : usedLen { a with pools := a.pools ++
            [{ start := s, size := n, bsize := MemPool.roundUp c.mpc.psz es,
               free := MemPool.blocks s (MemPool.roundUp c.mpc.psz es) (n / MemPool.roundUp c.mpc.psz es), used := [] }] } i = usedLen a i := by
          unfold usedLen
          simp only
          by_cases hi : i < a.pools.length
          · rw [List.getElem?_append_left hi]
          · rw [List.getElem?_append_right (by omega), List.getElem?_eq_none (l := a.pools) (by omega)]
            cases hj : i - a.pools.length with
            | zero => simp
            | succ j => simp
        rw [this]; simpa using h1

theorem follow_alloc (hR : R c w a) (t1 : T1 h pend a) (t2 : T2 h pend a) {n sg : Nat} {a' : Abs} {o : Out} {w' : World}
    (hs : Spec.step c a (.alloc n sg) = .ok (a', o)) (hR' : R c w' a') :
    Follows h (pendOf w w' o (.alloc n sg) ++ pend) (recsOf w w' o (.alloc n sg)) a' := by
  simp only [Spec.step] at hs
  split at hs
  · cases hs
  rename_i j hj
  split at hs
  · cases hs
  rename_i P hP
  split at hs
  · cases hs
  rename_i b rest hfree
  simp only [Res.ok.injEq, Prod.mk.injEq] at hs
  obtain ⟨rfl, rfl⟩ := hs
  have hlt := (List.getElem?_eq_some_iff.mp hP).1
  have hbF : InFree a.pools j b := ⟨P, hP, by rw [hfree]; simp⟩
  have hbU : InUse (a.pools.set j { P with free := rest, used := b :: P.used }) j b :=
    ⟨_, List.getElem?_set_self hlt, by simp⟩
  have hpool : (w'.hdr b).pool - 1 = j := by
    rw [hR'.ev.hdrU j b hbU]; simp
  simp only [pendOf, hpool, List.cons_append, List.nil_append]
  refine ⟨h, rfl, ?_, ?_⟩
  · refine T1.repend (pend := pend) (T1.frame t1 rfl rfl ?_ (.same rfl fun _ ht => ht)) rfl
    intro e he
    have hne : e ≠ b := by
      rintro rfl
      rcases (hR.ev.hold e he).2 with h1 | ⟨i, h1⟩
      · rw [hR.ev.nostat j e (.inr hbF)] at h1; cases h1
      · have hij := hR.ev.disj i j e (.inl h1) (.inr hbF)
        subst hij
        obtain ⟨Q, hQ, hm⟩ := h1
        rw [hP] at hQ; cases hQ
        have hnd := hR.ev.poolND i P hP
        rw [List.nodup_append] at hnd
        exact hnd.2.2 e (by rw [hfree]; simp) e hm rfl
    simp [hne]
  · refine ⟨fun k e i hm => ?_, fun i => ?_⟩
    · rcases List.mem_cons.mp hm with h1 | h1
      · cases h1; exact ⟨by simp, hbU⟩
      · obtain ⟨k1, Q, hQ, k2⟩ := t2.aes k e i h1
        refine ⟨by simp [k1], ?_⟩
        by_cases hi : i = j
        · subst hi
          rw [hP] at hQ; cases hQ
          exact ⟨_, List.getElem?_set_self hlt, by simp [k2]⟩
        · exact ⟨Q, by simp only; rw [List.getElem?_set_ne (Ne.symm hi)]; exact hQ, k2⟩
    · have h1 := t2.used i
      simp only [aeCount_cons]
      unfold usedLen at h1 ⊢
      simp only
      by_cases hi : j = i
      · subst hi
        rw [hP] at h1
        rw [List.getElem?_set_self hlt]
        simp only [Option.map_some, Option.getD_some, List.length_cons, if_true] at h1 ⊢
        omega
      · rw [List.getElem?_set_ne hi]
        simp only [hi, if_false]
        omega

theorem follow_post (t1 : T1 h pend a) (t2 : T2 h pend a) (front : Bool) {ao e : Nat} {a' : Abs} {w' : World}
    (hne : pend.any (PRec.isAe e) = false) (hs : Spec.post front a ao e = .ok a') (hR' : R c w' a') :
    Follows h pend (postRec front w' ao e) a' := by
  obtain ⟨y, q, hy, rfl, rfl, _⟩ := post_facts hs
  obtain ⟨h', h1, h2, h3⟩ := t1.postRec (e := e) (front := front) hy hR'
  exact ⟨h', h1, h2, t2.frame h3 (fresh_keep hne) rfl (fun _ => rfl)⟩

theorem follow_same (t1 : T1 h pend a) (t2 : T2 h pend a) {a' : Abs} {rs : List Rec} (hrs : h.readAll rs = some h) (h1 : a'.reg = a.reg)
    (h2 : a'.aos = a.aos) (h3 : a'.sig = a.sig) (h4 : KeepBusy pend a a') (h5 : a'.pools = a.pools)
    (h6 : ∀ n e i, PRec.ae n e i ∈ pend → e ∈ a.fresh → e ∈ a'.fresh) (h7 : ∀ i, putCount a'.conts i = putCount a.conts i) :
    Follows h pend rs a' :=
  ⟨h, hrs, t1.frame h1 h2 (fun e _ => by rw [h3]) h4, t2.frame rfl h6 h5 h7⟩

theorem follow_publish (wf : Wf c) (hR : R c w a) (t1 : T1 h pend a) (t2 : T2 h pend a) {ch e : Nat} {s : Option Nat}
    (hl : Legal c a (.publish ch e s)) (hne : pend.any (PRec.isAe e) = false) {w' : World} {rs : List Rec} {n : Nat} {a' : Abs} {o : Out}
    (ht : tPublish c w ch e s = .ok ((w', rs), n)) (hs : Spec.step c a (.publish ch e s) = .ok (a', o)) : Follows h pend rs a' := by
  obtain ⟨hch, hu, hroom⟩ := hl
  have hlt : ch < w.chans.length := by rw [hR.chLen]; exact hch
  have hg : w.chans[ch]? = some w.chans[ch] := List.getElem?_eq_getElem hlt
  generalize w.chans[ch] = g at hg
  obtain ⟨hinv, hbit⟩ := hR.ch ch g hg
  have hmem : RdyGrp.rowBits 0 g.tbl = subscribers c.maxSma a ch := by
    rw [members_of_inv hinv, subscribers]
    congr 1
    funext p
    exact hbit p
  simp only [tPublish, hg, RdyGrp.traverse_rows hinv, hmem, Res.map'_eq_ok, Prod.mk.injEq] at ht
  obtain ⟨r, hf, hr, _⟩ := ht
  subst hr
  have hR1 : R c { incRef w e with conts := .gc1 e :: w.conts } { a with conts := .gc1 e :: a.conts, fresh := a.fresh.erase e } := by
    rw [incRef_eq]
    refine { hR with ev := ?_, conts := by simp [hR.conts], rc3Ok := ?_, gc2Ok := ?_ }
    · have hr1 : c.static e = true ∨ (holders a).count e + 1 ≤ 255 := by
        rcases hroom with h1 | h1
        · exact .inl h1
        · right; unfold refs at h1; omega
      have h2 := hR.ev.add (usable' hu) hr1
      refine EvInv.mono (h2.perm ?_) (fun i x hx => by simpa [putsOf] using hx)
      unfold holders
      simp only [List.map_cons, Cont.evt]
      exact List.perm_middle
    · intro o x hx; exact hR.rc3Ok o x (by simpa using hx)
    · intro x hx; exact hR.gc2Ok x (by simpa using hx)
  have hrefs : refs { a with conts := .gc1 e :: a.conts, fresh := a.fresh.erase e } e = refs a e + 1 := by
    unfold refs
    have : (holders { a with conts := .gc1 e :: a.conts, fresh := a.fresh.erase e }).Perm (e :: holders a) := by
      unfold holders
      simp only [List.map_cons, Cont.evt]
      exact List.perm_middle
    rw [this.count_eq, List.count_cons_self]
  have hlive : Live { a with conts := .gc1 e :: a.conts, fresh := a.fresh.erase e } e := by
    refine ⟨by rw [hrefs]; omega, fun i hi => ?_⟩
    have hi' : Cont.put i e ∈ a.conts := by simpa using hi
    have hp := hR.ev.putsOk i e hi'
    rcases hu.2 with h1 | h1 | h1
    · rw [hR.ev.nostat i e (.inl hp.2)] at h1; cases h1
    · have := (hR.ev.freshU e h1).2; omega
    · exact h1.2 i hi'
  have hroom' : Room c { a with conts := .gc1 e :: a.conts, fresh := a.fresh.erase e } e (subscribers c.maxSma a ch).length := by
    rcases hroom with h1 | h1
    · exact .inl h1
    · right; rw [hrefs]; omega
  have t1' : T1 h pend { a with conts := .gc1 e :: a.conts, fresh := a.fresh.erase e } :=
    T1.frame t1 rfl rfl (fun _ _ => rfl) (.same rfl fun _ ht => List.mem_cons_of_mem _ ht)
  obtain ⟨a1, rs1, h', k1, k2, k3, k4, k5, k6⟩ := deliver_trace wf hu.1 s _
    (by intro p hp; simp [subscribers] at hp; exact hp.1) _ _ _ h _ _ hR1 hlive hroom' t1' hf
  simp only [Spec.step, k1, Res.map', Res.ok.injEq, Prod.mk.injEq] at hs
  obtain ⟨rfl, _⟩ := hs
  obtain ⟨aos', hd, _⟩ := deliver_facts k1 (by
    simp only
    exact List.erase_of_not_mem hR.ev.freshND.not_mem_erase)
  refine ⟨h', by rw [k3]; simpa using k4, k5, ?_⟩
  rw [hd]
  refine t2.frame k6 (fresh_keep hne) rfl (fun i => ?_)
  simp [putCount_cons]

/-- The front event of `ao` is taken off its queue; its record is still to come. -/
theorem T1.taken (t1 : T1 h pend a) {ao e : Nat} {rest : List Nat} {y : AAo} {a' : Abs} (hy : a.aos[ao]? = some y)
    (hi : y.q.items = e :: rest) (hno : ∀ x, (ao, x) ∉ getsOf pend) (hreg : a'.reg = a.reg) (hsig : a'.sig = a.sig)
    (haos : a'.aos = a.aos.set ao { y with q := { y.q with items := rest } }) (hb : Busy a' ao e) (hk : KeepBusy pend a a') :
    T1 h (PRec.get ao e :: pend) a' := by
  have hlt := (List.getElem?_eq_some_iff.mp hy).1
  have hg' : getsOf (PRec.get ao e :: pend) = (ao, e) :: getsOf pend := rfl
  refine ⟨by rw [hreg]; exact t1.reg, ?_, ?_, ?_⟩
  · rw [hg', List.map_cons, List.nodup_cons]
    refine ⟨?_, t1.nd⟩
    intro hm
    obtain ⟨⟨i, x⟩, hm2, hh⟩ := List.mem_map.mp hm
    cases hh
    exact hno x hm2
  · intro i x hm
    rw [hg'] at hm
    rcases List.mem_cons.mp hm with h1 | h1
    · cases h1
      exact ⟨hb, by rw [haos]; simpa using hlt⟩
    · obtain ⟨k1, k2⟩ := t1.gets i x h1
      exact ⟨hk i x h1 k1, by rw [haos]; simpa using k2⟩
  · intro i x hx
    rw [hg', hsig]
    rw [haos] at hx
    by_cases hia : i = ao
    · subst hia
      simp only [List.getElem?_set_self hlt, Option.some.injEq] at hx
      subst hx
      have hv := t1.q i y hy
      have hnone : (getsOf pend).lookup i = none := by
        cases hlk : (getsOf pend).lookup i with
        | none => rfl
        | some x => exact absurd (mem_of_lookup hlk) (hno x)
      rw [hnone, hi] at hv
      simp only [List.lookup, beq_self_eq_true, Option.map_some]
      exact .inl ⟨hv.1, hv.2⟩
    · simp only [List.getElem?_set_ne (Ne.symm hia)] at hx
      have hv := t1.q i x hx
      have : (i == ao) = false := by simpa using hia
      simp only [List.lookup, this]
      exact hv

theorem follow_fetch (t1 : T1 h pend a) (t2 : T2 h pend a) (hne : pend.any PRec.isGet = false) {a' : Abs} {o : Out} {w' : World}
    (hs : Spec.step c a .fetch = .ok (a', o)) :
    Follows h (pendOf w w' o .fetch ++ pend) (recsOf w w' o .fetch) a' := by
  have hg : getsOf pend = [] := getsOf_none hne
  simp only [Spec.step] at hs
  cases hph : a.ph with
  | none => simp [hph] at hs
  | run _ _ => simp [hph] at hs
  | fetch ao =>
    simp only [hph] at hs
    cases hy : a.aos[ao]? with
    | none => simp [hy] at hs
    | some y =>
      simp only [hy] at hs
      cases hi : y.q.items with
      | nil => simp [hi] at hs
      | cons e rest =>
        simp only [hi, Res.ok.injEq, Prod.mk.injEq] at hs
        obtain ⟨rfl, rfl⟩ := hs
        simp only [pendOf, List.cons_append, List.nil_append]
        refine ⟨h, rfl, t1.taken hy hi (by simp [hg]) rfl rfl rfl (.inl rfl) (fun _ _ hm => by rw [hg] at hm; simp at hm), ?_⟩
        refine ⟨fun m x i hm => t2.aes m x i (by simpa using hm), fun i => ?_⟩
        have := t2.used i
        simpa [aeCount_cons, usedLen] using this

theorem follow_take (t1 : T1 h pend a) (t2 : T2 h pend a) {ao : Nat} (hne : pend.any (PRec.isGetOf ao) = false) {a' : Abs} {o : Out}
    {w' : World} (hs : Spec.step c a (.take ao) = .ok (a', o)) :
    Follows h (pendOf w w' o (.take ao) ++ pend) (recsOf w w' o (.take ao)) a' := by
  simp only [Spec.step] at hs
  cases hy : a.aos[ao]? with
  | none => simp [hy] at hs
  | some y =>
    simp only [hy] at hs
    cases hi : y.q.items with
    | nil => simp [hi] at hs
    | cons e rest =>
      simp only [hi, Res.ok.injEq, Prod.mk.injEq] at hs
      obtain ⟨rfl, rfl⟩ := hs
      simp only [pendOf, List.cons_append, List.nil_append]
      refine ⟨h, rfl, t1.taken hy hi (getsOf_not hne) rfl rfl rfl (.inr (by simp)) (.same rfl fun _ hh => (by simp [hh])), ?_⟩
      refine ⟨fun m x i hm => t2.aes m x i (by simpa using hm), fun i => ?_⟩
      have := t2.used i
      simpa [aeCount_cons, usedLen, putCount_cons] using this

theorem follow_resume (wf : Wf c) (hR : R c w a) (t1 : T1 h pend a) (t2 : T2 h pend a) {k : Nat} (hl : Legal c a (.resume k))
    (hne : early w pend (.resume k) = false)
    {a' : Abs} {o : Out} {w' : World} (hc : step c w (.resume k) = .ok (w', o)) (hs : Spec.step c a (.resume k) = .ok (a', o)) (hR' : R c w' a') :
    Follows h pend (recsOf w w' o (.resume k)) a' := by
  obtain ⟨t, ht, _⟩ := hl
  have htm : t ∈ a.conts := List.mem_of_getElem? ht
  have hw : w.conts[k]? = some t := by rw [hR.conts]; exact ht
  simp only [Spec.step, ht, Res.map'_eq_ok, Prod.mk.injEq] at hs
  obtain ⟨a1, hs, rfl, rfl⟩ := hs
  simp only [recsOf, hw]
  have hpc := fun i => putCount_erase (i := i) ht
  cases t with
  | gc1 e =>
    simp only [Spec.resumeCont, Res.ok.injEq] at hs
    subst hs
    by_cases hst : c.static e = true
    · simp only [hst, if_true]
      exact follow_same t1 t2 rfl rfl rfl rfl (.erase ht (by simp) rfl fun _ hh => (by simp [hh])) rfl (fun _ _ _ _ hh => hh) (fun i => by simpa using (hpc i).symm)
    · simp only [hst]
      exact follow_same t1 t2 rfl rfl rfl rfl (.erase ht (by simp) rfl fun _ hh => (by simp [hh])) rfl (fun _ _ _ _ hh => hh)
        (fun i => by simpa [putCount_cons] using (hpc i).symm)
  | gc2 e =>
    have hold := hR.ev.hold e (by
      unfold holders
      simp only [List.mem_append, List.mem_map]
      exact .inr ⟨_, htm, rfl⟩)
    have hst := hR.gc2Ok e htm
    obtain ⟨i, hi⟩ := hold.2.resolve_left (by simp [hst])
    have hhdr := hR.ev.hdrU i e hi
    simp only [step, hw, resumeCont, gcSection] at hc
    simp only [Spec.resumeCont, Res.ok.injEq] at hs
    unfold gcRec
    by_cases hn : (w.hdr e).nref > 1
    · simp only [hn, if_true, Res.bind'_ok, Res.map', Res.ok.injEq, Prod.mk.injEq] at hc ⊢
      obtain ⟨rfl, _⟩ := hc
      have hz : refs { a with conts := a.conts.eraseIdx k } e ≠ 0 := by
        intro hz
        simp only [hz, if_true] at hs
        have h1 := congrArg (fun b : Abs => b.conts.length) hs
        have h2 := congrArg List.length hR'.conts
        simp only [setHdr, hR.conts] at h1 h2
        simp only [List.length_cons] at h1
        omega
      simp only [hz, if_false] at hs
      subst hs
      exact follow_same t1 t2 rfl rfl rfl rfl (.erase ht (by simp) rfl fun _ hh => (by simp [hh])) rfl (fun _ _ _ _ hh => hh) (fun i => by simpa using (hpc i).symm)
    · have hidx : ((w.hdr e).pool + 255) % 256 = i := by
        rw [hhdr]; simp only
        obtain ⟨P, hP, _⟩ := hi
        have := (List.getElem?_eq_some_iff.mp hP).1
        have := wf.pool; have := hR.pl.le
        omega
      have hil : i < w.regs.length := by
        rw [hR.pl.regs]
        obtain ⟨P, hP, _⟩ := hi
        simpa using (List.getElem?_eq_some_iff.mp hP).1
      simp only [hn, if_false, hidx, hil, decide_true, assertIf_true, Res.bind'_ok, if_true, Res.map', Res.ok.injEq, Prod.mk.injEq] at hc ⊢
      obtain ⟨rfl, _⟩ := hc
      have hz : refs { a with conts := a.conts.eraseIdx k } e = 0 := by
        by_cases hz : refs { a with conts := a.conts.eraseIdx k } e = 0
        · exact hz
        · simp only [hz, if_false] at hs
          have h1 := congrArg (fun b : Abs => b.conts.length) hs
          have h2 := congrArg List.length hR'.conts
          simp only [hR.conts] at h1 h2
          simp only [List.length_cons] at h2
          omega
      have hconts := hR'.conts
      simp only [hz, if_true] at hs
      subst hs
      simp only [hR.conts] at hconts
      have hpo : poolOf { a with conts := a.conts.eraseIdx k } e = i := by
        have := List.head_eq_of_cons_eq hconts
        simpa using this.symm
      rw [hpo]
      refine ⟨{ h with used := upd h.used i (h.used i - 1) }, ?_, ?_, ?_⟩
      · simp [Host.readAll, Host.read]
      · have := T1.frame (a' := { a with conts := Cont.put i e :: a.conts.eraseIdx k }) t1 rfl rfl (fun _ _ => rfl)
          (.erase ht (by simp) rfl fun _ hh => (by simp [hh]))
        exact ⟨this.reg, this.nd, this.gets, this.q⟩
      · refine ⟨t2.aes, fun j => ?_⟩
        have h1 := t2.used j
        have h2 := hpc j
        simp only at h2
        have h3 : usedLen { a with conts := Cont.put i e :: a.conts.eraseIdx k } j = usedLen a j := rfl
        simp only [putCount_cons]
        rw [h3]
        by_cases hji : i = j
        · subst hji
          simp only [upd, if_true]
          omega
        · simp only [upd, hji, if_false, Ne.symm hji]
          omega
  | put i e =>
    obtain ⟨_, P, hP, hm⟩ := hR.ev.putsOk i e htm
    have hlt := (List.getElem?_eq_some_iff.mp hP).1
    simp only [Spec.resumeCont, hP, Res.ok.injEq] at hs
    subst hs
    refine ⟨h, rfl, T1.frame t1 rfl rfl (fun _ _ => rfl) (.erase ht (by simp) rfl fun _ hh => hh), ?_⟩
    refine ⟨fun n x j hx => ?_, fun j => ?_⟩
    · obtain ⟨k1, Q, hQ, k2⟩ := t2.aes n x j hx
      refine ⟨k1, ?_⟩
      by_cases hj : j = i
      · subst hj
        rw [hP] at hQ; cases hQ
        refine ⟨_, List.getElem?_set_self hlt, ?_⟩
        have hne : x ≠ e := by
          rintro rfl
          have h1 := (hR.ev.freshU x k1).2
          have h2 := (hR.ev.putsOk j x htm).1
          omega
        exact (List.mem_erase_of_ne hne).mpr k2
      · exact ⟨Q, by simp only; rw [List.getElem?_set_ne (Ne.symm hj)]; exact hQ, k2⟩
    · have h1 := t2.used j
      have h2 := hpc j
      simp only at h2
      unfold usedLen at h1 ⊢
      simp only
      by_cases hj : i = j
      · subst hj
        rw [hP] at h1
        rw [List.getElem?_set_self hlt]
        have : 0 < P.used.length := List.length_pos_of_mem hm
        simp only [Option.map_some, Option.getD_some, List.length_erase_of_mem hm, if_true] at h1 h2 ⊢
        omega
      · rw [List.getElem?_set_ne hj]
        simp only [hj, if_false] at h2
        omega
  | rc2 ao e =>
    simp only [Spec.resumeCont, Res.map'_eq_ok] at hs
    obtain ⟨a2, hp, rfl⟩ := hs
    obtain ⟨y, q, hy, rfl, rfl, _⟩ := post_facts hp
    have hlt := (List.getElem?_eq_some_iff.mp hy).1
    obtain ⟨pool, nref, nmin, hrec⟩ := postRec_eq (e := e) hR' (ao := ao)
      (y := { y with q := { y.q with items := if true then e :: y.q.items else y.q.items ++ [e] } })
      (by simp only; exact List.getElem?_set_self hlt) (by simp) true
    obtain ⟨h', h1, h2, h3⟩ := t1.post (e := e) hy true
    refine ⟨h', ?_, ?_, ?_⟩
    · dsimp only
      rw [hrec]
      simp only [Host.readAll, Host.read, if_true, List.length_cons, h1, Option.bind_some]
    · exact T1.frame h2 rfl rfl (fun _ _ => rfl) (.erase (t := .rc2 ao e) ht (by simp) rfl fun _ hh => List.mem_cons_of_mem _ hh)
    · refine t2.frame h3 ?_ rfl (fun i => by simpa [putCount_cons] using (hpc i).symm)
      intro n x i hx hf
      refine (List.mem_erase_of_ne ?_).mpr hf
      rintro rfl
      have h4 := (hR.ev.freshU x hf).2
      have h5 : x ∈ holders a := by
        unfold holders
        simp only [List.mem_append, List.mem_map]
        exact .inr ⟨_, htm, rfl⟩
      have := List.count_pos_iff.mpr h5
      omega
  | rc3 ao e =>
    simp only [Spec.resumeCont, Res.ok.injEq] at hs
    subst hs
    exact follow_same t1 t2 rfl rfl rfl rfl (.erase ht (by simp) rfl fun _ hh => (by simp [hh])) rfl (fun _ _ _ _ hh => hh) (fun i => by simpa using (hpc i).symm)
  | thr ao e =>
    have hno : ∀ ao' e' x, Cont.thr ao e = .thr ao' e' → (ao', x) ∉ getsOf pend := by
      rintro ao' e' x hh
      cases hh
      exact getsOf_not (by simpa [early, hw] using hne) x
    simp only [Spec.resumeCont, Res.ok.injEq] at hs
    subst hs
    by_cases hst : c.static e = true
    · simp only [hst, if_true]
      exact follow_same t1 t2 rfl rfl rfl rfl (.erase ht hno rfl fun _ hh => (by simp [hh])) rfl (fun _ _ _ _ hh => hh) (fun i => by simpa using (hpc i).symm)
    · simp only [hst]
      exact follow_same t1 t2 rfl rfl rfl rfl (.erase ht hno rfl fun _ hh => (by simp [hh])) rfl (fun _ _ _ _ hh => hh)
        (fun i => by simpa [putCount_cons] using (hpc i).symm)

/-! ### One step -/

/-- **Simulation step.** -/
theorem follow_act (wf : Wf c) {t t' : TWorld} {op : Op} {o : Out} {rs : List Rec} (hR : R c t.w a) (t1 : T1 h t.pend a) (t2 : T2 h t.pend a)
    (hl : Legal c a op) (ht : tstep c t (.act op) = .ok (t', o, rs)) :
    step c t.w op = .ok (t'.w, o) ∧ ∃ a', Spec.step c a op = .ok (a', o) ∧ R c t'.w a' ∧ Follows h t'.pend rs a' := by
  simp only [tstep] at ht
  split at ht
  · cases ht
  rename_i hne
  rw [Res.map'_eq_ok] at ht
  obtain ⟨⟨w', o', rs'⟩, hact, heq⟩ := ht
  simp only [Prod.mk.injEq] at heq
  obtain ⟨rfl, rfl, rfl⟩ := heq
  have hstep : step c t.w op = .ok (w', o') := by
    rw [← tact_erase hR op, hact]; rfl
  refine ⟨hstep, ?_⟩
  obtain ⟨hsim, _⟩ := sim_step wf hR op hl
  rw [hstep] at hsim
  rcases hs : Spec.step c a op with ⟨a', o''⟩ | _ | _ <;> rw [hs] at hsim <;> simp only [StepRel] at hsim
  obtain ⟨hR', rfl⟩ := hsim
  refine ⟨a', rfl, hR', ?_⟩
  have hrecs : (∀ ch e s, op ≠ .publish ch e s) → rs' = recsOf t.w w' o' op := by
    intro hnp
    have h1 : tact c t.w op = (step c t.w op).map' fun r => (r.1, r.2, recsOf t.w r.1 r.2 op) := by
      cases op <;> first | rfl | exact absurd rfl (hnp _ _ _)
    rw [hstep] at h1
    rw [h1] at hact
    simp only [Res.map', Res.ok.injEq, Prod.mk.injEq, true_and] at hact
    exact hact.symm
  cases op with
  | activate p mem n => rw [hrecs (by simp)]; exact follow_activate t1 t2 hs
  | terminate ao => rw [hrecs (by simp)]; exact follow_terminate hR t1 t2 hs
  | newDefer mem n =>
    rw [hrecs (by simp)]
    simp only [Spec.step, Res.ok.injEq, Prod.mk.injEq] at hs
    obtain ⟨rfl, rfl⟩ := hs
    exact follow_same t1 t2 rfl rfl rfl rfl (.same rfl fun _ hh => (by simp [hh])) rfl (fun _ _ _ _ hh => hh) (fun _ => rfl)
  | regPool m s n es => rw [hrecs (by simp)]; exact follow_regPool t1 t2 hs
  | alloc n sg => rw [hrecs (by simp)]; exact follow_alloc hR t1 t2 hs hR'
  | postFifo ao e =>
    rw [hrecs (by simp)]
    simp only [Spec.step, Res.map'_eq_ok, Prod.mk.injEq] at hs
    obtain ⟨a1, hp, rfl, rfl⟩ := hs
    exact follow_post t1 t2 false (by simpa [early] using hne) hp hR'
  | postLifo ao e =>
    rw [hrecs (by simp)]
    simp only [Spec.step, Res.map'_eq_ok, Prod.mk.injEq] at hs
    obtain ⟨a1, hp, rfl, rfl⟩ := hs
    exact follow_post t1 t2 true (by simpa [early] using hne) hp hR'
  | defer i e =>
    rw [hrecs (by simp)]
    simp only [Spec.step] at hs
    split at hs
    · cases hs
    simp only [Res.map'_eq_ok, Prod.mk.injEq] at hs
    obtain ⟨q, _, rfl, rfl⟩ := hs
    exact follow_same t1 t2 rfl rfl rfl rfl (.same rfl fun _ hh => (by simp [hh])) rfl (fresh_keep (by simpa [early] using hne)) (fun _ => rfl)
  | recall ao i =>
    rw [hrecs (by simp)]
    simp only [Spec.step] at hs
    split at hs
    · cases hs
    split at hs <;> simp only [Res.ok.injEq, Prod.mk.injEq] at hs <;> obtain ⟨rfl, rfl⟩ := hs
    · exact follow_same t1 t2 rfl rfl rfl rfl (.same rfl fun _ hh => (by simp [hh])) rfl (fun _ _ _ _ hh => hh) (fun _ => rfl)
    · exact follow_same t1 t2 rfl rfl rfl rfl (.same rfl fun _ hh => (by simp [hh])) rfl (fun _ _ _ _ hh => hh) (fun i => by simp [putCount_cons])
  | reserve e =>
    rw [hrecs (by simp)]
    simp only [Spec.step, Res.ok.injEq, Prod.mk.injEq] at hs
    obtain ⟨rfl, rfl⟩ := hs
    exact follow_same t1 t2 rfl rfl rfl rfl (.same rfl fun _ hh => (by simp [hh])) rfl (fresh_keep (by simpa [early] using hne)) (fun _ => rfl)
  | gc e =>
    rw [hrecs (by simp)]
    simp only [Spec.step, Res.ok.injEq, Prod.mk.injEq] at hs
    obtain ⟨rfl, rfl⟩ := hs
    exact follow_same t1 t2 rfl rfl rfl rfl (.same rfl fun _ hh => (by simp [hh])) rfl (fun _ _ _ _ hh => hh) (fun i => by simp [putCount_cons])
  | subscribe ch ao =>
    rw [hrecs (by simp)]
    simp only [Spec.step] at hs
    split at hs
    · cases hs
    split at hs
    · cases hs
    simp only [Res.ok.injEq, Prod.mk.injEq] at hs
    obtain ⟨rfl, rfl⟩ := hs
    exact follow_same t1 t2 rfl rfl rfl rfl (.same rfl fun _ hh => (by simp [hh])) rfl (fun _ _ _ _ hh => hh) (fun _ => rfl)
  | unsubscribe ch ao =>
    rw [hrecs (by simp)]
    simp only [Spec.step] at hs
    split at hs
    · cases hs
    split at hs
    · cases hs
    simp only [Res.ok.injEq, Prod.mk.injEq] at hs
    obtain ⟨rfl, rfl⟩ := hs
    exact follow_same t1 t2 rfl rfl rfl rfl (.same rfl fun _ hh => (by simp [hh])) rfl (fun _ _ _ _ hh => hh) (fun _ => rfl)
  | unsubscribeAll ao =>
    rw [hrecs (by simp)]
    simp only [Spec.step] at hs
    split at hs
    · cases hs
    simp only [Res.ok.injEq, Prod.mk.injEq] at hs
    obtain ⟨rfl, rfl⟩ := hs
    exact follow_same t1 t2 rfl rfl rfl rfl (.same rfl fun _ hh => (by simp [hh])) rfl (fun _ _ _ _ hh => hh) (fun _ => rfl)
  | publish ch e s =>
    simp only [tact, Res.map'_eq_ok, Prod.mk.injEq] at hact
    obtain ⟨⟨⟨w1, rs1⟩, n⟩, hp, rfl, _, rfl⟩ := hact
    exact follow_publish wf hR t1 t2 hl (by simpa [early] using hne) hp hs
  | select =>
    rw [hrecs (by simp)]
    have hph : a.ph = .none := hl.1
    simp only [Spec.step] at hs
    split at hs
    · simp only [Res.ok.injEq, Prod.mk.injEq] at hs
      obtain ⟨rfl, rfl⟩ := hs
      exact follow_same t1 t2 rfl rfl rfl rfl (.same rfl fun _ hh => (by simp [hh])) rfl (fun _ _ _ _ hh => hh) (fun _ => rfl)
    · split at hs
      · cases hs
      simp only [Res.ok.injEq, Prod.mk.injEq] at hs
      obtain ⟨rfl, rfl⟩ := hs
      exact follow_same t1 t2 rfl rfl rfl rfl (fun _ _ _ hb => hb.imp (fun hh => by simp [hph] at hh) id) rfl (fun _ _ _ _ hh => hh) (fun _ => rfl)
  | fetch => rw [hrecs (by simp)]; exact follow_fetch t1 t2 (by simpa [early] using hne) hs
  | take ao => rw [hrecs (by simp)]; exact follow_take t1 t2 (by simpa [early] using hne) hs
  | done =>
    rw [hrecs (by simp)]
    obtain ⟨⟨ao, e, hph⟩, _⟩ := hl
    simp only [Spec.step, hph, Res.ok.injEq, Prod.mk.injEq] at hs
    obtain ⟨rfl, rfl⟩ := hs
    have hg : getsOf t.pend = [] := getsOf_none (by simpa [early] using hne)
    exact follow_same t1 t2 rfl rfl rfl rfl (fun _ _ hm => by rw [hg] at hm; simp at hm) rfl (fun _ _ _ _ hh => hh) (fun i => by simp [putCount_cons])
  | resume k => rw [hrecs (by simp)]; exact follow_resume wf hR t1 t2 hl (by simpa using hne) hstep hs hR'
  | numUsed i =>
    rw [hrecs (by simp)]
    simp only [Spec.step] at hs
    split at hs
    · cases hs
    simp only [Res.ok.injEq, Prod.mk.injEq] at hs
    obtain ⟨rfl, rfl⟩ := hs
    exact follow_same t1 t2 rfl rfl rfl rfl (.same rfl fun _ hh => (by simp [hh])) rfl (fun _ _ _ _ hh => hh) (fun _ => rfl)

/-- Writing a pending record. -/
theorem follow_emit (wf : Wf c) {t t' : TWorld} {k : Nat} {o : Out} {rs : List Rec} (hR : R c t.w a) (t1 : T1 h t.pend a) (t2 : T2 h t.pend a)
    (ht : tstep c t (.emit k) = .ok (t', o, rs)) : t'.w = t.w ∧ Follows h t'.pend rs a := by
  simp only [tstep] at ht
  cases hk : t.pend[k]? with
  | none => simp [hk] at ht
  | some p =>
    simp only [hk, Res.ok.injEq, Prod.mk.injEq] at ht
    obtain ⟨rfl, rfl, rfl⟩ := ht
    refine ⟨rfl, ?_⟩
    have hpm : p ∈ t.pend := List.mem_of_getElem? hk
    have hsub : ∀ {x}, x ∈ t.pend.eraseIdx k → x ∈ t.pend := fun hx => List.mem_of_mem_eraseIdx hx
    have hac := fun i => aeCount_erase (i := i) hk
    have hgets : (∀ ao e, p ≠ .get ao e) → getsOf (t.pend.eraseIdx k) = getsOf t.pend := by
      intro hp
      have key : ∀ (l : List PRec) (k : Nat), l[k]? = some p → getsOf (l.eraseIdx k) = getsOf l := by
        intro l
        induction l with
        | nil => intro k hk; simp at hk
        | cons y l ih =>
          intro k hk
          cases k with
          | zero =>
            simp only [List.getElem?_cons_zero, Option.some.injEq] at hk
            subst hk
            cases y <;> first | rfl | exact absurd rfl (hp _ _)
          | succ k =>
            simp only [List.getElem?_cons_succ] at hk
            simp only [List.eraseIdx_cons_succ]
            have := ih k hk
            unfold getsOf at this ⊢
            rw [List.filterMap_cons, List.filterMap_cons, this]
      exact key _ _ hk
    have simple : (∀ ao e, p ≠ .get ao e) → (∀ n e i, p ≠ .ae n e i) → h.readAll (emitRec t.w p) = some h →
        Follows h (t.pend.eraseIdx k) (emitRec t.w p) a := by
      intro hp1 hp2 hr
      refine ⟨h, hr, t1.repend (hgets hp1), fun n e i hm => t2.aes n e i (hsub hm), fun i => ?_⟩
      have h1 := t2.used i
      have h2 := hac i
      cases p <;> first | exact absurd rfl (hp2 _ _ _) | (simp only at h2; omega)
    cases p with
    | act ao p n => exact simple (by simp) (by simp) rfl
    | term ao p => exact simple (by simp) (by simp) rfl
    | epreg n s e => exact simple (by simp) (by simp) rfl
    | ae n e i =>
      obtain ⟨_, hu⟩ := t2.aes n e i hpm
      have hhdr := hR.ev.hdrU i e hu
      have hidx : ((t.w.hdr e).pool + 255) % 256 = i := by
        rw [hhdr]; simp only
        obtain ⟨P, hP, _⟩ := hu
        have := (List.getElem?_eq_some_iff.mp hP).1
        have := wf.pool; have := hR.pl.le
        omega
      refine ⟨{ h with used := upd h.used i (h.used i + 1) }, ?_, ?_, ?_⟩
      · simp [emitRec, hidx, Host.readAll, Host.read]
      · have := t1.repend (hgets (by simp))
        exact ⟨this.reg, this.nd, this.gets, this.q⟩
      · refine ⟨fun n' e' i' hm => t2.aes n' e' i' (hsub hm), fun j => ?_⟩
        have h1 := t2.used j
        have h2 := hac j
        simp only at h2
        by_cases hj : i = j
        · subst hj
          simp only [upd, if_true] at h2 ⊢
          omega
        · simp only [upd, hj, if_false, Ne.symm hj] at h2 ⊢
          omega
    | get ao e =>
      have hgm : (ao, e) ∈ getsOf t.pend := by
        unfold getsOf
        rw [List.mem_filterMap]
        exact ⟨_, hpm, rfl⟩
      obtain ⟨hbusy, hlt⟩ := t1.gets ao e hgm
      have key : ∀ (l : List PRec) (k : Nat), l[k]? = some (.get ao e) →
          ∃ l1 l2, getsOf l = l1 ++ (ao, e) :: l2 ∧ getsOf (l.eraseIdx k) = l1 ++ l2 := by
        intro l
        induction l with
        | nil => intro k hk; simp at hk
        | cons y l ih =>
          intro k hk
          cases k with
          | zero =>
            simp only [List.getElem?_cons_zero, Option.some.injEq] at hk
            subst hk
            exact ⟨[], getsOf l, rfl, rfl⟩
          | succ k =>
            simp only [List.getElem?_cons_succ] at hk
            simp only [List.eraseIdx_cons_succ]
            obtain ⟨l1, l2, e1, e2⟩ := ih k hk
            cases y with
            | get i x =>
              refine ⟨(i, x) :: l1, l2, ?_, ?_⟩ <;> simp_all [getsOf]
            | _ => exact ⟨l1, l2, by simpa [getsOf] using e1, by simpa [getsOf] using e2⟩
      obtain ⟨l1, l2, hg, hge⟩ := key _ _ hk
      have hnd := t1.nd
      rw [hg] at hnd
      have hnd' : ((l1 ++ l2).map (·.1)).Nodup := by
        simp only [List.map_append, List.map_cons, List.nodup_append, List.nodup_cons] at hnd ⊢
        grind
      have hself : (l1 ++ l2).lookup ao = none := by
        rw [List.lookup_eq_none_iff]
        intro x hx
        simp only [List.map_append, List.map_cons, List.nodup_append, List.nodup_cons] at hnd
        simp only [bne_iff_ne, ne_eq]
        grind
      have hothers : ∀ i, i ≠ ao → (l1 ++ l2).lookup i = (getsOf t.pend).lookup i := by
        intro i hi
        have hb : (i == ao) = false := by simpa using hi
        rw [hg, List.lookup_append, List.lookup_append, List.lookup_cons, hb]
      have hlk := lookup_of_mem t1.nd hgm
      have hy : a.aos[ao]? = some a.aos[ao] := List.getElem?_eq_getElem hlt
      generalize a.aos[ao] = y at hy
      obtain ⟨x, hx, _, hq⟩ := hR.ao.aos.get hy
      have hn : x.q.qty = y.q.items.length := QRep.num hq
      have hv := t1.q ao y hy
      rw [hlk] at hv
      simp only [Option.map_some] at hv
      have hsig := hdr_sig hR (busy_held hbusy)
      have hother : ∀ h' : Host, h'.reg = h.reg → (∀ i, i ≠ ao → h'.q i = h.q i ∧ h'.taken i = h.taken i) →
          h'.taken ao = none → h'.q ao = y.q.items.map a.sig → T1 h' (t.pend.eraseIdx k) a := by
        intro h' hr ho k1 k2
        refine ⟨by rw [hr]; exact t1.reg, by rw [hge]; exact hnd', ?_, ?_⟩
        · intro i z hz
          refine t1.gets i z ?_
          rw [hge] at hz; rw [hg]
          simp only [List.mem_append, List.mem_cons] at hz ⊢
          exact hz.imp id .inr
        intro i z hz
        rw [hge]
        by_cases hi : i = ao
        · subst hi
          rw [hy] at hz; cases hz
          rw [hself]
          exact ⟨k1, k2⟩
        · have := t1.q i z hz
          rw [hothers i hi]
          obtain ⟨o1, o2⟩ := ho i hi
          unfold View at this ⊢
          rw [o1, o2]
          exact this
      have t2' : ∀ h' : Host, h'.used = h.used → T2 h' (t.pend.eraseIdx k) a := by
        intro h' hu
        refine ⟨fun n' e' i' hm => t2.aes n' e' i' (hsub hm), fun j => ?_⟩
        have h1 := t2.used j
        have h2 := hac j
        simp only at h2
        rw [hu]
        omega
      simp only [emitRec, hx, hn, hsig]
      rcases hv with ⟨k1, k2⟩ | ⟨k1, k2⟩
      · refine ⟨{ h with q := upd h.q ao (y.q.items.map a.sig) }, ?_, ?_, t2' _ rfl⟩
        · simp [Host.readAll, Host.read, k1, k2]
        · exact hother _ rfl (fun i hi => ⟨by simp [upd, hi], rfl⟩) k1 (by simp [upd])
      · refine ⟨{ h with taken := upd h.taken ao none }, ?_, ?_, t2' _ rfl⟩
        · simp [Host.readAll, Host.read, k1, k2]
        · exact hother _ rfl (fun i hi => ⟨rfl, by simp [upd, hi]⟩) (by simp [upd]) k2

end Verif.Fwk.Trace
