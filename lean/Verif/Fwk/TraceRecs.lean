import Verif.Fwk.TraceMain
import Verif.Fwk.Props2
/-
What the records of one step say: lemmas.
-/
namespace Verif.Fwk.Trace
open Verif Verif.Fwk Verif.Fwk.Spec

variable {c : Cfg} {w : World} {a : Abs} {h : Host} {pend : List PRec}

/-- Pool number and reference counter shown for an event that is referenced. -/
theorem hdr_fields (hR : R c w a) {e : Nat} (he : e ∈ holders a) :
    (c.static e = true ∧ w.hdr e = ⟨a.sig e, 0, 0⟩) ∨
    (c.static e = false ∧ ∃ i, InUse a.pools i e ∧ w.hdr e = ⟨a.sig e, refs a e, i + 1⟩) := by
  rcases (hR.ev.hold e he).2 with h1 | ⟨i, h1⟩
  · exact .inl ⟨h1, hR.ev.hdrS e h1⟩
  · exact .inr ⟨hR.ev.nostat i e (.inl h1), i, h1, hR.ev.hdrU i e h1⟩

/-- The records of the deliveries of a publish. -/
theorem deliver_recs (wf : Wf c) {e : Nat} (he : e ≠ 0) (sender : Option Nat) (l : List Nat) (hl : ∀ p ∈ l, p < c.maxSma) (hnd : l.Nodup) :
    ∀ (w : World) (a : Abs) (rs : List Rec) (w' : World) (rs' : List Rec), R c w a → Live a e →
    Room c a e l.length → RdyGrp.foldRes (tPublishCb c e sender) (w, rs) l = .ok (w', rs') →
    ∃ rs1, rs' = rs ++ rs1 ∧ rs1.length = (l.filter fun p => decide (a.reg p ≠ sender)).length ∧
      ∀ (k p : Nat), (l.filter fun p => decide (a.reg p ≠ sender))[k]? = some p → ∃ ao y nmin, a.reg p = some ao ∧ a.aos[ao]? = some y ∧
        rs1[k]? = some (.fifo ao (a.sig e) (w.hdr e).pool (if c.static e then 0 else refs a e + 1 + k) (y.q.items.length + 1) nmin) := by
  induction l with
  | nil =>
    intro w a rs w' rs' hR _ _ hf
    simp only [RdyGrp.foldRes, Res.ok.injEq, Prod.mk.injEq] at hf
    obtain ⟨rfl, rfl⟩ := hf
    exact ⟨[], by simp, rfl, by simp⟩
  | cons p l ih =>
    intro w a rs w' rs' hR hlive hroom hf
    have hp := hl p (by simp)
    have htbl := hR.ao.tbl p hp
    have hnd' := List.nodup_cons.mp hnd
    simp only [RdyGrp.foldRes, tPublishCb, htbl] at hf
    cases hreg : a.reg p with
    | none => simp [hreg, wf.en] at hf
    | some ao =>
      simp only [hreg, Option.isSome_some, assertIf_true, Res.bind'_ok] at hf
      by_cases hs : some ao = sender
      · simp only [hs, ne_eq, not_true_eq_false, if_false, Res.bind'_ok] at hf
        have hfl : ((p :: l).filter fun p => decide (a.reg p ≠ sender)) = l.filter fun p => decide (a.reg p ≠ sender) := by
          rw [List.filter_cons_of_neg]; simp [hreg, hs]
        rw [hfl]
        refine ih (fun q hq => hl q (by simp [hq])) hnd'.2 w a rs w' rs' hR hlive ?_ hf
        rcases hroom with h1 | h1
        · exact .inl h1
        · right; simp only [List.length_cons] at h1; omega
      · simp only [hs, ne_eq, not_false_iff, if_true, postFifo_eq] at hf
        obtain ⟨_, y, hy, hyp⟩ := hR.ao.regOk p ao hreg
        have hlt : ao < a.aos.length := (List.getElem?_eq_some_iff.mp hy).1
        have hroom1 : Room c a e 1 := by
          rcases hroom with h1 | h1
          · exact .inl h1
          · right; simp only [List.length_cons] at h1; omega
        obtain ⟨hA, hB⟩ := hR.post wf hy (by rw [hyp]; exact hreg) ⟨he, .inr (.inr hlive)⟩ hroom1 false
        by_cases hfull : y.q.items.length = y.q.cap
        · obtain ⟨h1, _⟩ := hA hfull
          simp [h1, Res.map'] at hf
        · obtain ⟨_, w1, h1, hR1⟩ := hB hfull
          simp only [h1, Res.map', Res.bind'_ok] at hf
          have hfl : ((p :: l).filter fun p => decide (a.reg p ≠ sender)) = p :: l.filter fun p => decide (a.reg p ≠ sender) := by
            rw [List.filter_cons_of_pos]; simp [hreg, hs]
          rw [hfl]
          have hrp : refs (posted false a ao y e) e = refs a e + 1 := refs_posted hy
          obtain ⟨rs1, k1, k2, k3⟩ := ih (fun q hq => hl q (by simp [hq])) hnd'.2 w1 (posted false a ao y e) _ w' rs' hR1
            ⟨by rw [hrp]; omega, hlive.2⟩ (by
              rcases hroom with h3 | h3
              · exact .inl h3
              · right; rw [hrp]; simp only [List.length_cons] at h3; omega) hf
          have hy' : (posted false a ao y e).aos[ao]? = some { y with q := { y.q with items := y.q.items ++ [e] } } := by
            simp only [posted]; exact List.getElem?_set_self hlt
          obtain ⟨x, hx, _, hq⟩ := hR1.ao.aos.get hy'
          have hn : x.q.qty = y.q.items.length + 1 := (QRep.num hq).trans (by simp)
          have hmem : e ∈ holders a := List.count_pos_iff.mp hlive.1
          have hmem1 : e ∈ holders (posted false a ao y e) := items_held hy' (by simp)
          have hh := hdr_fields hR hmem
          have hh1 := hdr_fields hR1 hmem1
          have hpl : (w1.hdr e).pool = (w.hdr e).pool := by
            rcases hh with ⟨s1, e1⟩ | ⟨s1, i, i1, e1⟩ <;> rcases hh1 with ⟨s2, e2⟩ | ⟨s2, j, j1, e2⟩
            · rw [e1, e2]
            · rw [s1] at s2; cases s2
            · rw [s1] at s2; cases s2
            · rw [e1, e2]
              have : j = i := hR.ev.disj j i e (.inl j1) (.inl i1)
              subst this; rfl
          have hnr : (w1.hdr e).nref = if c.static e then 0 else refs a e + 1 := by
            rcases hh1 with ⟨s2, e2⟩ | ⟨s2, j, j1, e2⟩
            · rw [e2, s2]; rfl
            · rw [e2, s2]; simp [hrp]
          have hsg : (w1.hdr e).sig = a.sig e := by
            rcases hh1 with ⟨s2, e2⟩ | ⟨s2, j, j1, e2⟩ <;> rw [e2] <;> rfl
          have hrec : postRec false w1 ao e = [.fifo ao (a.sig e) (w.hdr e).pool (if c.static e then 0 else refs a e + 1)
              (y.q.items.length + 1) x.q.nmin] := by
            simp only [postRec, hx, Bool.false_eq_true, if_false, hn, hpl, hnr, hsg]
          refine ⟨postRec false w1 ao e ++ rs1, by rw [k1, List.append_assoc], ?_, ?_⟩
          · rw [hrec]
            simp only [List.cons_append, List.nil_append, List.length_cons, k2]
            rfl
          · intro k q hk
            cases k with
            | zero =>
              simp only [List.getElem?_cons_zero, Option.some.injEq] at hk
              subst hk
              exact ⟨ao, y, x.q.nmin, hreg, hy, by rw [hrec]; simp⟩
            | succ k =>
              simp only [List.getElem?_cons_succ] at hk
              have hql : q ∈ l := (List.mem_filter.mp (List.mem_of_getElem? hk)).1
              obtain ⟨ao2, y2, nm, m1, m2, m3⟩ := k3 k q hk
              have m1 : a.reg q = some ao2 := m1
              have hne : ao ≠ ao2 := by
                rintro rfl
                obtain ⟨_, z, hz, hzp⟩ := hR.ao.regOk q ao m1
                rw [hy] at hz; cases hz
                rw [hyp] at hzp
                subst hzp
                exact hnd'.1 hql
              refine ⟨ao2, y2, nm, m1, ?_, ?_⟩
              · simpa [posted, List.getElem?_set_ne hne] using m2
              · rw [hrec]
                simp only [List.cons_append, List.nil_append, List.getElem?_cons_succ, m3, hpl, hrp]
                have : refs a e + 1 + 1 + k = refs a e + 1 + (k + 1) := by omega
                rw [this]; rfl

/-- The situation in which the deliveries start. -/
theorem publish_start (hR : R c w a) {ch e : Nat} {s : Option Nat} (hl : Legal c a (.publish ch e s)) :
    R c { incRef w e with conts := .gc1 e :: w.conts } { a with conts := .gc1 e :: a.conts, fresh := a.fresh.erase e } ∧
    refs { a with conts := .gc1 e :: a.conts, fresh := a.fresh.erase e } e = refs a e + 1 ∧
    Live { a with conts := .gc1 e :: a.conts, fresh := a.fresh.erase e } e ∧
    Room c { a with conts := .gc1 e :: a.conts, fresh := a.fresh.erase e } e (subscribers c.maxSma a ch).length := by
  obtain ⟨hch, hu, hroom⟩ := hl
  have hR1 : R c { incRef w e with conts := .gc1 e :: w.conts } { a with conts := .gc1 e :: a.conts, fresh := a.fresh.erase e } := by
    rw [incRef_eq]
    refine { hR with ev := ?_, conts := by simp [hR.conts], rc3Ok := ?_, gc2Ok := ?_ }
    · have hr1 : c.static e = true ∨ (holders a).count e + 1 ≤ 255 := by
        rcases hroom with h1 | h1
        · exact .inl h1
        · right; unfold refs at h1; omega
      have h2 := hR.ev.add (usable' hu) hr1
      refine EvInv.mono (h2.perm ?_) (fun i x hx => by simpa [putsOf] using hx)
      unfold holders
      simp only [List.map_cons, Cont.evt]
      exact List.perm_middle
    · intro o x hx; exact hR.rc3Ok o x (by simpa using hx)
    · intro x hx; exact hR.gc2Ok x (by simpa using hx)
  have hrefs : refs { a with conts := .gc1 e :: a.conts, fresh := a.fresh.erase e } e = refs a e + 1 := by
    unfold refs
    have : (holders { a with conts := .gc1 e :: a.conts, fresh := a.fresh.erase e }).Perm (e :: holders a) := by
      unfold holders
      simp only [List.map_cons, Cont.evt]
      exact List.perm_middle
    rw [this.count_eq, List.count_cons_self]
  refine ⟨hR1, hrefs, ⟨by rw [hrefs]; omega, fun i hi => ?_⟩, ?_⟩
  · have hi' : Cont.put i e ∈ a.conts := by simpa using hi
    have hp := hR.ev.putsOk i e hi'
    rcases hu.2 with h1 | h1 | h1
    · rw [hR.ev.nostat i e (.inl hp.2)] at h1; cases h1
    · have := (hR.ev.freshU e h1).2; omega
    · exact h1.2 i hi'
  · rcases hroom with h1 | h1
    · exact .inl h1
    · right; rw [hrefs]; omega

/-- The records of a publish. -/
theorem publish_recs (wf : Wf c) (hR : R c w a) {ch e : Nat} {s : Option Nat} (hl : Legal c a (.publish ch e s))
    {w' : World} {rs : List Rec} {n : Nat} (ht : tPublish c w ch e s = .ok ((w', rs), n)) :
    rs.length = ((subscribers c.maxSma a ch).filter fun p => decide (a.reg p ≠ s)).length ∧
      ∀ (k p : Nat), ((subscribers c.maxSma a ch).filter fun p => decide (a.reg p ≠ s))[k]? = some p →
        ∃ ao y nmin, a.reg p = some ao ∧ a.aos[ao]? = some y ∧
        rs[k]? = some (.fifo ao (a.sig e) (w.hdr e).pool (if c.static e then 0 else refs a e + 2 + k) (y.q.items.length + 1) nmin) := by
  obtain ⟨hR1, hrefs, hlive, hroom⟩ := publish_start hR hl
  obtain ⟨hch, hu, _⟩ := hl
  have hlt : ch < w.chans.length := by rw [hR.chLen]; exact hch
  have hg : w.chans[ch]? = some w.chans[ch] := List.getElem?_eq_getElem hlt
  generalize w.chans[ch] = g at hg
  obtain ⟨hinv, hbit⟩ := hR.ch ch g hg
  have hmem : RdyGrp.rowBits 0 g.tbl = subscribers c.maxSma a ch := by
    rw [members_of_inv hinv, subscribers]
    congr 1
    funext p
    exact hbit p
  simp only [tPublish, hg, RdyGrp.traverse_rows hinv, hmem, Res.map'_eq_ok, Prod.mk.injEq] at ht
  obtain ⟨r, hf, hr, _⟩ := ht
  subst hr
  have hpool : (({ incRef w e with conts := .gc1 e :: w.conts } : World).hdr e).pool = (w.hdr e).pool := by
    simp only [incRef]
    split <;> simp [setHdr]
  obtain ⟨rs1, k1, k2, k3⟩ := deliver_recs wf hu.1 s _ (fun p hp => by
      unfold subscribers at hp
      simpa using (List.mem_filter.mp hp).1) (by unfold subscribers; exact List.nodup_range.filter _) _ _ [] w' rs hR1 hlive hroom hf
  simp only [List.nil_append] at k1
  subst k1
  refine ⟨k2, fun k p hk => ?_⟩
  obtain ⟨ao, y, nm, m1, m2, m3⟩ := k3 k p hk
  refine ⟨ao, y, nm, m1, m2, ?_⟩
  rw [m3, hpool, hrefs]

/-- Kinds of records. -/
def Rec.isAe : Rec → Bool
  | .ae _ _ _ _ _ => true
  | _ => false

/-- Kinds of records. -/
def Rec.isGcr : Rec → Bool
  | .gcr _ _ _ _ => true
  | _ => false

/-- Kinds of records. -/
def Rec.isFifo : Rec → Bool
  | .fifo _ _ _ _ _ _ => true
  | _ => false

theorem postRec_kind (front : Bool) (w : World) (ao e : Nat) : ∀ r ∈ postRec front w ao e, r.isAe = false ∧ r.isGcr = false := by
  intro r hr
  unfold postRec at hr
  split at hr
  · simp at hr
  · split at hr <;> simp only [List.mem_singleton] at hr <;> subst hr <;> exact ⟨rfl, rfl⟩

theorem fold_kind (c : Cfg) (e : Nat) (s : Option Nat) (l : List Nat) : ∀ (x y : World × List Rec),
    RdyGrp.foldRes (tPublishCb c e s) x l = .ok y → (∀ r ∈ x.2, r.isAe = false ∧ r.isGcr = false) → ∀ r ∈ y.2, r.isAe = false ∧ r.isGcr = false := by
  induction l with
  | nil =>
    intro x y hf hx
    simp only [RdyGrp.foldRes, Res.ok.injEq] at hf
    subst hf; exact hx
  | cons p l ih =>
    intro x y hf hx
    simp only [RdyGrp.foldRes] at hf
    rcases hc : tPublishCb c e s x p with x' | _ | _ <;> rw [hc] at hf
    · simp only [Res.bind'_ok] at hf
      refine ih x' y hf ?_
      unfold tPublishCb at hc
      split at hc
      · cases hc
      · rename_i r' _
        cases r' with
        | none => revert hc; cases c.assertEn <;> simp [assertIf, Res.bind]
        | some ao =>
          simp only [Option.isSome_some, assertIf_true, Res.bind'_ok] at hc
          split at hc
          · simp only [Res.map'_eq_ok] at hc
            obtain ⟨w1, _, rfl⟩ := hc
            intro r hr
            rcases List.mem_append.mp hr with h1 | h1
            · exact hx r h1
            · exact postRec_kind _ _ _ _ r h1
          · simp only [Res.ok.injEq] at hc
            subst hc; exact hx
    all_goals cases hf

/-- Operations write no AE records, and GCR records only in the critical section of the collector. -/
theorem act_kind (hR : R c w a) {op : Op} {w' : World} {o : Out} {rs : List Rec} (ht : tact c w op = .ok (w', o, rs)) :
    (∀ r ∈ rs, r.isAe = false) ∧ ((∃ r ∈ rs, r.isGcr = true) → ∃ k e, op = .resume k ∧ w.conts[k]? = some (.gc2 e)) := by
  by_cases hp : ∃ ch e s, op = .publish ch e s
  · obtain ⟨ch, e, s, rfl⟩ := hp
    simp only [tact, Res.map'_eq_ok, Prod.mk.injEq] at ht
    obtain ⟨⟨⟨w1, rs1⟩, n⟩, hp, _, _, rfl⟩ := ht
    unfold tPublish at hp
    split at hp
    · cases hp
    rename_i g hg
    rw [RdyGrp.traverse_rows (hR.ch ch g hg).1] at hp
    simp only [Res.map'_eq_ok, Prod.mk.injEq] at hp
    obtain ⟨r, hf, rfl, _⟩ := hp
    have := fold_kind c e s _ _ _ hf (by simp)
    exact ⟨fun r hr => (this r hr).1, fun ⟨r, hr, hg⟩ => by rw [(this r hr).2] at hg; cases hg⟩
  · have key : tact c w op = (step c w op).map' fun r => (r.1, r.2, recsOf w r.1 r.2 op) := by
      cases op <;> first | rfl | exact absurd ⟨_, _, _, rfl⟩ hp
    rw [key, Res.map'_eq_ok] at ht
    obtain ⟨⟨w1, o1⟩, _, heq⟩ := ht
    simp only [Prod.mk.injEq] at heq
    obtain ⟨rfl, rfl, rfl⟩ := heq
    have two : ∀ {l : List Rec} {Q : Prop}, (∀ r ∈ l, r.isAe = false ∧ r.isGcr = false) → (∀ r ∈ l, r.isAe = false) ∧ ((∃ r ∈ l, r.isGcr = true) → Q) := by
      intro l Q hl
      exact ⟨fun r hr => (hl r hr).1, fun ⟨r, hr, hg⟩ => by rw [(hl r hr).2] at hg; cases hg⟩
    cases op with
    | postFifo ao e => exact two (postRec_kind _ _ _ _)
    | postLifo ao e => exact two (postRec_kind _ _ _ _)
    | activate p m n => refine two ?_; cases o1 <;> simp [recsOf, Rec.isAe, Rec.isGcr]
    | terminate ao => refine two ?_; simp only [recsOf]; split <;> simp [Rec.isAe, Rec.isGcr]
    | resume k =>
      simp only [recsOf]
      split
      · exact two (postRec_kind _ _ _ _)
      · refine two ?_; simp [Rec.isAe, Rec.isGcr]
      · rename_i e he
        refine ⟨?_, fun _ => ⟨k, e, rfl, he⟩⟩
        unfold gcRec
        split <;> simp [Rec.isAe]
      · refine two ?_; simp
    | _ => refine two ?_; simp [recsOf, Rec.isAe, Rec.isGcr]

/-- The collector's last-reference section and its record. -/
theorem gcr_field (wf : Wf c) (hR : R c w a) {k e : Nat} (ht : w.conts[k]? = some (.gc2 e)) {w' : World}
    {sig i nref used : Nat} (hm : Rec.gcr sig i nref used ∈ gcRec w w' e) :
    used = (usedLen a i + 255) % 256 ∧ 0 < usedLen a i ∧ InUse a.pools i e := by
  have htm : Cont.gc2 e ∈ a.conts := by rw [← hR.conts]; exact List.mem_of_getElem? ht
  have hold := hR.ev.hold e (by
    unfold holders
    simp only [List.mem_append, List.mem_map]
    exact .inr ⟨_, htm, rfl⟩)
  have hst := hR.gc2Ok e htm
  obtain ⟨j, hj⟩ := hold.2.resolve_left (by simp [hst])
  have hhdr := hR.ev.hdrU j e hj
  obtain ⟨P, hP, hu⟩ := id hj
  have hlt := (List.getElem?_eq_some_iff.mp hP).1
  have hidx : ((w.hdr e).pool + 255) % 256 = j := by
    rw [hhdr]; simp only
    have := wf.pool; have := hR.pl.le
    omega
  unfold gcRec at hm
  split at hm
  · simp at hm
  · simp only [hidx, List.mem_singleton, Rec.gcr.injEq] at hm
    obtain ⟨_, rfl, _, rfl⟩ := hm
    have hul : usedIn w i = usedLen a i % 256 := by
      unfold usedIn usedLen
      obtain ⟨p, n, h1, h2, h3⟩ := hR.pl.pool i P hP
      rw [hR.pl.reg hlt]
      simp only [h1, hP, Option.map_some, Option.getD_some, numUsed, h3.nblocks, h3.nfree]
      have := MemPool.length_sum h3
      omega
    refine ⟨by rw [hul]; omega, ?_, hj⟩
    unfold usedLen
    rw [hP]
    exact List.length_pos_of_mem hu

/-- The record of an allocation. -/
theorem ae_field (wf : Wf c) (hR : R c w a) (t2 : T2 h pend a) {n e i : Nat} (hm : PRec.ae n e i ∈ pend) :
    emitRec w (.ae n e i) = [.ae n (a.sig e) i 0 (usedLen a i % 256)] := by
  obtain ⟨hf, hj⟩ := t2.aes n e i hm
  have hhdr := hR.ev.hdrU i e hj
  have hz := (hR.ev.freshU e hf).2
  obtain ⟨P, hP, hu⟩ := hj
  have hlt := (List.getElem?_eq_some_iff.mp hP).1
  have hul : usedIn w i = usedLen a i % 256 := by
    unfold usedIn usedLen
    obtain ⟨p, n, h1, h2, h3⟩ := hR.pl.pool i P hP
    rw [hR.pl.reg hlt]
    simp only [h1, hP, Option.map_some, Option.getD_some, numUsed, h3.nblocks, h3.nfree]
    have := MemPool.length_sum h3
    omega
  have : (i + 1 + 255) % 256 = i := by
    have := wf.pool; have := hR.pl.le
    omega
  simp only [emitRec, hhdr, hz, hul, this]

end Verif.Fwk.Trace
