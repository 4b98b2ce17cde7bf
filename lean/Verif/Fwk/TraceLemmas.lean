import Verif.Fwk.Trace
import Verif.Fwk.Main
/-
The host's view along a traced history: simulation lemmas.
-/
namespace Verif.Fwk.Trace
open Verif Verif.Fwk Verif.Fwk.Spec

variable {c : Cfg} {w : World} {a : Abs} {h : Host}

/-! ### Erasing the records gives the framework -/

theorem tPublishCb_erase (c : Cfg) (e : Nat) (s : Option Nat) (w : World) (rs : List Rec) (p : Nat) :
    (tPublishCb c e s (w, rs) p).map' (·.1) = publishCb c e s w p := by
  unfold tPublishCb publishCb
  cases w.sptbl[p]? with
  | none => rfl
  | some r =>
    cases r with
    | none => simp only [assertIf]; cases c.assertEn <;> rfl
    | some ao =>
      simp only [Option.isSome_some, assertIf_true, Res.bind'_ok]
      by_cases hs : some ao = s
      · simp [hs, Res.map']
      · simp only [hs, ne_eq, not_false_iff, if_true]
        cases postFifo c w ao e <;> rfl

theorem fold_erase (c : Cfg) (e : Nat) (s : Option Nat) (l : List Nat) (w : World) (rs : List Rec) :
    (RdyGrp.foldRes (tPublishCb c e s) (w, rs) l).map' (·.1) = RdyGrp.foldRes (publishCb c e s) w l := by
  induction l generalizing w rs with
  | nil => rfl
  | cons p l ih =>
    have h1 := tPublishCb_erase c e s w rs p
    simp only [RdyGrp.foldRes]
    rcases hx : tPublishCb c e s (w, rs) p with ⟨w', rs'⟩ | _ | _ <;> rw [hx] at h1 <;> simp only [Res.map'] at h1 <;> rw [← h1]
    · exact ih w' rs'
    · rfl
    · rfl

theorem traverse_erase {g : RdyGrp.Grp} {maxSma : Nat} (hg : RdyGrp.Inv maxSma g) (c : Cfg) (e : Nat) (s : Option Nat) (w : World) (rs : List Rec) :
    (RdyGrp.traverse g (tPublishCb c e s) (w, rs)).map' (fun r => (r.1.1, r.2)) = RdyGrp.traverse g (publishCb c e s) w := by
  rw [RdyGrp.traverse_rows hg, RdyGrp.traverse_rows hg, ← fold_erase c e s _ w rs]
  cases RdyGrp.foldRes (tPublishCb c e s) (w, rs) (RdyGrp.rowBits 0 g.tbl) <;> rfl

theorem tact_erase (hR : R c w a) (op : Op) : (tact c w op).map' (fun r => (r.1, r.2.1)) = step c w op := by
  have key : ∀ op', (∀ ch e s, op' ≠ .publish ch e s) → tact c w op' = (step c w op').map' fun r => (r.1, r.2, recsOf w r.1 r.2 op') := by
    intro op' h'
    cases op' <;> first | rfl | exact absurd rfl (h' _ _ _)
  by_cases hp : ∃ ch e s, op = .publish ch e s
  · obtain ⟨ch, e, s, rfl⟩ := hp
    simp only [tact, step, tPublish, publish]
    cases hg : w.chans[ch]? with
    | none => rfl
    | some g =>
      dsimp only
      rw [← traverse_erase (hR.ch ch g hg).1 c e s _ []]
      cases RdyGrp.traverse g (tPublishCb c e s) ({ incRef w e with conts := .gc1 e :: w.conts }, []) <;> rfl
  · rw [key op (fun ch e s hh => hp ⟨ch, e, s, hh⟩)]
    rcases step c w op with ⟨_, _⟩ | _ | _ <;> rfl

/-! ### The host's view of queues and registry -/

/-- The `rkh_sma_get` records that are still to be written. -/
def getsOf (pend : List PRec) : List (Nat × Nat) :=
  pend.filterMap fun p => match p with
    | .get ao e => some (ao, e)
    | _ => none

/-- The host's knowledge of one queue. `p`: the signal of an event whose GET record is still to come. -/
def View (h : Host) (ao : Nat) (p : Option Nat) (qs : List Nat) : Prop :=
  match p with
  | none => h.taken ao = none ∧ h.q ao = qs
  | some s => (h.taken ao = none ∧ h.q ao = s :: qs) ∨ (h.taken ao = some s ∧ h.q ao = qs)

/-- `ao` is dispatching `e`: chosen by the scheduler, or in its thread. -/
def Busy (a : Abs) (ao e : Nat) : Prop := a.ph = .run ao e ∨ Cont.thr ao e ∈ a.conts

/-- Objects whose GET record is still to come keep dispatching. -/
def KeepBusy (pend : List PRec) (a a' : Abs) : Prop := ∀ ao e, (ao, e) ∈ getsOf pend → Busy a ao e → Busy a' ao e

/-- Queues and registry. -/
structure T1 (h : Host) (pend : List PRec) (a : Abs) : Prop where
  reg : h.reg = a.reg
  nd : ((getsOf pend).map (·.1)).Nodup
  gets : ∀ ao e, (ao, e) ∈ getsOf pend → Busy a ao e ∧ ao < a.aos.length
  q : ∀ (ao : Nat) (x : AAo), a.aos[ao]? = some x → View h ao (((getsOf pend).lookup ao).map a.sig) (x.q.items.map a.sig)

/-- Allocations and recyclings of pool `i` whose record was / was not yet written. -/
def aeCount (pend : List PRec) (i : Nat) : Nat := pend.countP fun p => match p with | .ae _ _ j => j == i | _ => false

/-- Blocks of pool `i` about to be returned. -/
def putCount (conts : List Cont) (i : Nat) : Nat := conts.countP fun t => match t with | .put j _ => j == i | _ => false

/-- Number of blocks of pool `i` in use. -/
def usedLen (a : Abs) (i : Nat) : Nat := (a.pools[i]?.map (·.used.length)).getD 0

/-- Pools. -/
structure T2 (h : Host) (pend : List PRec) (a : Abs) : Prop where
  aes : ∀ n e i, PRec.ae n e i ∈ pend → e ∈ a.fresh ∧ InUse a.pools i e
  used : ∀ i, h.used i + aeCount pend i + putCount a.conts i = usedLen a i

theorem items_held {ao : Nat} {x : AAo} (hx : a.aos[ao]? = some x) {e : Nat} (he : e ∈ x.q.items) : e ∈ holders a := by
  unfold holders
  simp only [List.mem_append, List.mem_flatMap]
  exact .inl (.inl (.inl (.inl ⟨x, List.mem_of_getElem? hx, he⟩)))

theorem ph_held {ao e : Nat} (hp : a.ph = .run ao e) : e ∈ holders a := by
  unfold holders
  simp [hp, phEvts]

theorem busy_held {ao e : Nat} (hb : Busy a ao e) : e ∈ holders a := by
  rcases hb with hp | hp
  · exact ph_held hp
  · unfold holders
    simp only [List.mem_append, List.mem_map]
    exact .inr ⟨_, hp, rfl⟩

theorem mem_of_lookup {l : List (Nat × Nat)} {i e : Nat} (hl : l.lookup i = some e) : (i, e) ∈ l := by
  induction l with
  | nil => simp at hl
  | cons x l ih =>
    obtain ⟨j, f⟩ := x
    rw [List.lookup_cons] at hl
    split at hl
    · rename_i hb
      simp only [Option.some.injEq] at hl
      have := eq_of_beq hb
      subst this; subst hl
      simp
    · exact List.mem_cons_of_mem _ (ih hl)

theorem lookup_of_mem {l : List (Nat × Nat)} (hn : (l.map (·.1)).Nodup) {i e : Nat} (hm : (i, e) ∈ l) : l.lookup i = some e := by
  induction l with
  | nil => simp at hm
  | cons x l ih =>
    obtain ⟨j, f⟩ := x
    simp only [List.map_cons, List.nodup_cons] at hn
    rw [List.lookup_cons]
    rcases List.mem_cons.mp hm with h1 | h1
    · cases h1; simp
    · have hne : i ≠ j := by
        rintro rfl
        exact hn.1 (List.mem_map.mpr ⟨_, h1, rfl⟩)
      have hb : (i == j) = false := by simpa using hne
      rw [hb]
      exact ih hn.2 h1

theorem KeepBusy.same {pend : List PRec} {a' : Abs} (h1 : a'.ph = a.ph) (h2 : ∀ t ∈ a.conts, t ∈ a'.conts) : KeepBusy pend a a' :=
  fun _ _ _ hb => hb.imp (fun h => h1.trans h) (h2 _)

theorem T1.frame {pend : List PRec} {a' : Abs} (t : T1 h pend a) (h1 : a'.reg = a.reg) (h2 : a'.aos = a.aos)
    (h3 : ∀ e ∈ holders a, a'.sig e = a.sig e) (h4 : KeepBusy pend a a') : T1 h pend a' := by
  refine ⟨by rw [t.reg, h1], t.nd, ?_, ?_⟩
  · intro ao e hm
    obtain ⟨k1, k2⟩ := t.gets ao e hm
    exact ⟨h4 ao e hm k1, by rw [h2]; exact k2⟩
  · intro ao x hx
    rw [h2] at hx
    have hv := t.q ao x hx
    have e1 : x.q.items.map a'.sig = x.q.items.map a.sig := List.map_congr_left fun e he => h3 e (items_held hx he)
    have e2 : ((getsOf pend).lookup ao).map a'.sig = ((getsOf pend).lookup ao).map a.sig := by
      cases hlk : (getsOf pend).lookup ao with
      | none => rfl
      | some e => simp only [Option.map_some, h3 e (busy_held (t.gets ao e (mem_of_lookup hlk)).1)]
    rw [e1, e2]; exact hv

/-- The host reads a post record. -/
theorem T1.post {pend : List PRec} (t : T1 h pend a) {ao e : Nat} {y : AAo} (hy : a.aos[ao]? = some y) (front : Bool) :
    ∃ h', h.post front ao (a.sig e) (y.q.items.length + 1) = some h' ∧ T1 h' pend (posted front a ao y e) ∧ h'.used = h.used := by
  have hlt : ao < a.aos.length := (List.getElem?_eq_some_iff.mp hy).1
  have hv := t.q ao y hy
  have fin : ∀ h' : Host, h'.reg = h.reg → (∀ x, x ≠ ao → h'.q x = h.q x ∧ h'.taken x = h.taken x) →
      View h' ao (((getsOf pend).lookup ao).map a.sig)
        (if front then a.sig e :: y.q.items.map a.sig else y.q.items.map a.sig ++ [a.sig e]) →
      T1 h' pend (posted front a ao y e) := by
    intro h' hr ho hv'
    refine ⟨by rw [hr]; exact t.reg, t.nd, fun i x hx => ⟨(t.gets i x hx).1, by simpa [posted] using (t.gets i x hx).2⟩, ?_⟩
    intro i x hx
    by_cases hi : i = ao
    · subst hi
      simp only [posted, List.getElem?_set_self hlt, Option.some.injEq] at hx
      subst hx
      simp only [posted]
      have : (List.map a.sig (if front then e :: y.q.items else y.q.items ++ [e])) =
          (if front then a.sig e :: y.q.items.map a.sig else y.q.items.map a.sig ++ [a.sig e]) := by
        cases front <;> simp
      rw [this]; exact hv'
    · simp only [posted, List.getElem?_set_ne (Ne.symm hi)] at hx
      have := t.q i x hx
      obtain ⟨o1, o2⟩ := ho i hi
      unfold View at this ⊢
      rw [o1, o2]
      exact this
  cases hp : ((getsOf pend).lookup ao).map a.sig with
  | none =>
    rw [hp] at hv
    obtain ⟨h1, h2⟩ := hv
    refine ⟨{ h with q := upd h.q ao (if front then a.sig e :: h.q ao else h.q ao ++ [a.sig e]) }, ?_, ?_, rfl⟩
    · simp only [Host.post]
      rw [if_pos (by rw [h2]; simp)]
    · refine fin _ rfl (fun x hx => ⟨by simp [upd, hx], rfl⟩) ?_
      rw [hp]
      exact ⟨h1, by simp [upd, h2]⟩
  | some s =>
    rw [hp] at hv
    rcases hv with ⟨h1, h2⟩ | ⟨h1, h2⟩
    · refine ⟨{ h with q := upd h.q ao (if front then a.sig e :: y.q.items.map a.sig else y.q.items.map a.sig ++ [a.sig e]),
                       taken := upd h.taken ao (some s) }, ?_, ?_, rfl⟩
      · simp only [Host.post]
        rw [if_neg (by rw [h2]; simp), if_pos ⟨by rw [h2]; simp, h1⟩, h2]
      · refine fin _ rfl (fun x hx => ⟨by simp [upd, hx], by simp [upd, hx]⟩) ?_
        rw [hp]
        exact .inr ⟨by simp [upd], by simp [upd]⟩
    · refine ⟨{ h with q := upd h.q ao (if front then a.sig e :: h.q ao else h.q ao ++ [a.sig e]) }, ?_, ?_, rfl⟩
      · simp only [Host.post]
        rw [if_pos (by rw [h2]; simp)]
      · refine fin _ rfl (fun x hx => ⟨by simp [upd, hx], rfl⟩) ?_
        rw [hp]
        exact .inr ⟨h1, by simp [upd, h2]⟩

theorem hdr_sig (hR : R c w a) {e : Nat} (he : e ∈ holders a) : (w.hdr e).sig = a.sig e := by
  rcases (hR.ev.hold e he).2 with h1 | ⟨i, h1⟩
  · rw [hR.ev.hdrS e h1]
  · rw [hR.ev.hdrU i e h1]

/-- The record of a post, in terms of the specification. -/
theorem postRec_eq (hR : R c w a) {ao e : Nat} {y : AAo} (hy : a.aos[ao]? = some y) (he : e ∈ y.q.items) (front : Bool) :
    ∃ pool nref nmin, postRec front w ao e =
      [if front then .lifo ao (a.sig e) pool nref y.q.items.length nmin else .fifo ao (a.sig e) pool nref y.q.items.length nmin] := by
  obtain ⟨x, hx, _, hq⟩ := hR.ao.aos.get hy
  have hn : x.q.qty = y.q.items.length := QRep.num hq
  refine ⟨(w.hdr e).pool, (w.hdr e).nref, x.q.nmin, ?_⟩
  unfold postRec
  rw [hx]
  simp only [hn, hdr_sig hR (items_held hy he)]
  cases front <;> rfl

/-- A post and its record: the host follows. -/
theorem T1.postRec {pend : List PRec} (t : T1 h pend a) {ao e : Nat} {y : AAo} (hy : a.aos[ao]? = some y) {front : Bool}
    (hR : R c w (posted front a ao y e)) :
    ∃ h', h.readAll (Trace.postRec front w ao e) = some h' ∧ T1 h' pend (posted front a ao y e) ∧ h'.used = h.used := by
  have hlt : ao < a.aos.length := (List.getElem?_eq_some_iff.mp hy).1
  obtain ⟨pool, nref, nmin, hrec⟩ := postRec_eq (e := e) hR (ao := ao)
    (y := { y with q := { y.q with items := if front then e :: y.q.items else y.q.items ++ [e] } })
    (by simp only [posted]; exact List.getElem?_set_self hlt) (by cases front <;> simp) front
  obtain ⟨h', h1, h2, h3⟩ := t.post (e := e) hy front
  refine ⟨h', ?_, h2, h3⟩
  rw [hrec]
  have hs : (posted front a ao y e).sig = a.sig := rfl
  cases front
  · simp only [Host.readAll, Host.read, hs, Bool.false_eq_true, if_false, List.length_append, List.length_cons,
      List.length_nil, Nat.zero_add, h1, Option.bind_some]
  · simp only [Host.readAll, Host.read, hs, if_true, List.length_cons, h1, Option.bind_some]

theorem readAll_append (h : Host) (rs rs' : List Rec) : h.readAll (rs ++ rs') = (h.readAll rs).bind fun h' => h'.readAll rs' := by
  induction rs generalizing h with
  | nil => rfl
  | cons r rs ih =>
    simp only [List.cons_append, Host.readAll]
    cases h.read r with
    | none => rfl
    | some h' => exact ih h'

/-- The deliveries of a publish and their records. -/
theorem deliver_trace (wf : Wf c) {e : Nat} (he : e ≠ 0) (sender : Option Nat) (l : List Nat) (hl : ∀ p ∈ l, p < c.maxSma)
    {pend : List PRec} : ∀ (w : World) (a : Abs) (rs : List Rec) (h : Host) (w' : World) (rs' : List Rec), R c w a → Live a e →
    Room c a e l.length → T1 h pend a → RdyGrp.foldRes (tPublishCb c e sender) (w, rs) l = .ok (w', rs') →
    ∃ a' rs1 h', RdyGrp.foldRes (Spec.deliver e sender) a l = .ok a' ∧ R c w' a' ∧ rs' = rs ++ rs1 ∧
      h.readAll rs1 = some h' ∧ T1 h' pend a' ∧ h'.used = h.used := by
  induction l with
  | nil =>
    intro w a rs h w' rs' hR _ _ t hf
    simp only [RdyGrp.foldRes, Res.ok.injEq, Prod.mk.injEq] at hf
    obtain ⟨rfl, rfl⟩ := hf
    exact ⟨a, [], h, rfl, hR, by simp, rfl, t, rfl⟩
  | cons p l ih =>
    intro w a rs h w' rs' hR hlive hroom t hf
    have hp := hl p (by simp)
    have htbl := hR.ao.tbl p hp
    simp only [RdyGrp.foldRes, tPublishCb, htbl, Spec.deliver] at hf ⊢
    cases hreg : a.reg p with
    | none => simp [hreg, wf.en] at hf
    | some ao =>
      simp only [hreg, Option.isSome_some, assertIf_true, Res.bind'_ok] at hf ⊢
      by_cases hs : some ao = sender
      · simp only [hs, ne_eq, not_true_eq_false, if_false, if_true, Res.bind'_ok] at hf ⊢
        refine ih (fun q hq => hl q (by simp [hq])) w a rs h w' rs' hR hlive ?_ t hf
        rcases hroom with h1 | h1
        · exact .inl h1
        · right; simp only [List.length_cons] at h1; omega
      · simp only [hs, ne_eq, not_false_iff, if_true, if_false, postFifo_eq] at hf ⊢
        obtain ⟨_, y, hy, hyp⟩ := hR.ao.regOk p ao hreg
        have hroom1 : Room c a e 1 := by
          rcases hroom with h1 | h1
          · exact .inl h1
          · right; simp only [List.length_cons] at h1; omega
        obtain ⟨hA, hB⟩ := hR.post wf hy (by rw [hyp]; exact hreg) ⟨he, .inr (.inr hlive)⟩ hroom1 false
        by_cases hfull : y.q.items.length = y.q.cap
        · obtain ⟨h1, _⟩ := hA hfull
          simp [h1, Res.map'] at hf
        · obtain ⟨h2, w1, h1, hR1⟩ := hB hfull
          simp only [h1, h2, Res.map', Res.bind'_ok] at hf ⊢
          obtain ⟨h'', g1, g2, g3⟩ := t.postRec hy hR1
          obtain ⟨a', rs1, h', k1, k2, k3, k4, k5, k6⟩ := ih (fun q hq => hl q (by simp [hq])) w1 _ _ h'' w' rs' hR1
            ⟨by rw [refs_posted hy]; omega, hlive.2⟩ (by
              rcases hroom with h3 | h3
              · exact .inl h3
              · right; rw [refs_posted hy]; simp only [List.length_cons] at h3; omega) g2 hf
          refine ⟨a', _, h', k1, k2, by rw [k3, List.append_assoc], ?_, k5, by rw [k6, g3]⟩
          rw [readAll_append, g1, Option.bind_some, k4]

end Verif.Fwk.Trace
