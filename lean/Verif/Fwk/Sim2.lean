import Verif.Fwk.Sim
/-
Simulation, operation by operation.
-/
namespace Verif.Fwk
open Verif Verif.Fwk.Spec

variable {c : Cfg} {w : World} {a : Abs}

/-- What each operation must satisfy. -/
def Sim (c : Cfg) (w : World) (a : Abs) (op : Op) : Prop :=
  StepRel (R c) (Fwk.step c w op) (Spec.step c a op) ∧ Spec.step c a op ≠ .ub

theorem sim_activate (wf : Wf c) (h : R c w a) (p : Nat) (mem : List Nat) (n : Nat)
    (hl : Legal c a (.activate p mem n)) : Sim c w a (.activate p mem n) := by
  obtain ⟨h1, h2⟩ := hl
  have hlen := h.ao.aos.1
  unfold Sim
  simp only [Fwk.step, Spec.step, activate, register]
  by_cases hn : n = 0
  · simp [hn, wf.en, StepRel, Res.map']
  have hn' : (n != 0) = true := by simpa using hn
  by_cases hp : c.maxSma ≤ p
  · simp [hn', hp, wf.en, StepRel, Res.map', show ¬ p < c.maxSma by omega]
  have htbl := h.ao.tbl p (by omega)
  by_cases hr : a.reg p = none
  · rw [hr] at htbl
    have hcond : ¬ (n = 0 ∨ c.maxSma ≤ p ∨ a.reg p ≠ none) := by simp [hn, hp, hr]
    rw [if_neg hcond]
    simp only [htbl, show (n != 0) = true by simpa using hn, assertIf_true, Res.bind'_ok, show p < c.maxSma by omega,
      true_and, decide_true, h.ao.len, if_true, Res.map', StepRel, List.length_append, List.length_cons, List.length_nil,
      Nat.zero_add, Nat.add_sub_cancel]
    refine ⟨⟨?_, by rw [hlen]⟩, by simp⟩
    have hao := h.ao.activate (p := p) (n := n) (mem := mem) (by omega) hr h1 h2
    rw [← hlen] at hao
    refine { ao := by rw [hlen] at hao ⊢; exact hao, dq := h.dq, chLen := h.chLen, ch := h.ch, pl := h.pl, ph := h.ph,
             conts := h.conts, ev := ?_, fetchOk := ?_, rc3Ok := ?_, gc2Ok := h.gc2Ok }
    · have : holders { a with aos := a.aos ++ [⟨p, n, []⟩], reg := fun x => if x = p then some a.aos.length else a.reg x } = holders a := by
        simp [holders]
      rw [this]; exact h.ev
    · intro ao hph
      obtain ⟨z, hz, hzr, hzi⟩ := h.fetchOk ao hph
      refine ⟨z, by rw [List.getElem?_append_left (List.getElem?_eq_some_iff.mp hz).1]; exact hz, ?_, hzi⟩
      simp only
      rw [if_neg (by rintro h3; rw [h3, hr] at hzr; cases hzr)]; exact hzr
    · intro ao e he
      obtain ⟨z, hz, hzi⟩ := h.rc3Ok ao e he
      exact ⟨z, by rw [List.getElem?_append_left (List.getElem?_eq_some_iff.mp hz).1]; exact hz, hzi⟩
  · have hcond : (n = 0 ∨ c.maxSma ≤ p ∨ a.reg p ≠ none) := by simp [hr]
    rw [if_pos hcond]
    have : ¬ (some (a.reg p) = some (none : Option Nat)) := by simpa using hr
    simp [htbl, hn', wf.en, StepRel, Res.map', hr]

theorem sim_terminate (wf : Wf c) (h : R c w a) (ao : Nat) (hl : Legal c a (.terminate ao)) : Sim c w a (.terminate ao) := by
  obtain ⟨y, hy, hreg, hi⟩ := hl
  obtain ⟨x, hx, hpr, _⟩ := h.ao.aos.get hy
  have hpm := (h.ao.regOk _ _ hreg).1
  have htbl := h.ao.tbl _ hpm
  have hlen := h.ao.len
  unfold Sim
  simp only [Fwk.step, Spec.step, terminate, hx, hy, hreg, if_true, unregister, hpr]
  rw [if_neg (by omega)]
  simp only [htbl, hreg, show y.prio ≤ c.maxSma by omega, true_and, decide_true, assertIf_true, Res.bind'_ok, hlen, hpm,
    if_true, Res.map', StepRel, and_true, ne_eq, reduceCtorEq, not_false_iff]
  refine { ao := h.ao.terminate hy hreg hi, dq := h.dq, chLen := h.chLen, ch := h.ch, pl := h.pl, ph := h.ph,
           conts := h.conts, ev := h.ev, fetchOk := ?_, rc3Ok := h.rc3Ok, gc2Ok := h.gc2Ok }
  intro ao' hph
  obtain ⟨z, hz, hzr, hzi⟩ := h.fetchOk ao' hph
  refine ⟨z, hz, ?_, hzi⟩
  simp only
  rw [if_neg]; exact hzr
  intro h3
  rw [h3, hreg] at hzr
  cases hzr
  rw [hy] at hz; cases hz
  exact hzi hi

theorem sim_newDefer (h : R c w a) (mem : List Nat) (n : Nat) (hl : Legal c a (.newDefer mem n)) :
    Sim c w a (.newDefer mem n) := by
  obtain ⟨h1, h2⟩ := hl
  unfold Sim
  simp only [Fwk.step, Spec.step, StepRel, ne_eq, reduceCtorEq, not_false_iff, and_true, h.dq.1]
  refine { h with dq := h.dq.snoc (qrep_init c false mem n h1 h2), ev := ?_ }
  have : holders { a with dqs := a.dqs ++ [⟨n, []⟩] } = holders a := by simp [holders]
  rw [this]; exact h.ev

theorem sim_regPool (wf : Wf c) (h : R c w a) (m : MemPool.Mem) (s n es : Nat) (hl : Legal c a (.regPool m s n es)) :
    Sim c w a (.regPool m s n es) := by
  obtain ⟨hacc, hrep, hd, hst⟩ := hl
  have hle := h.pl.le
  have hsl := h.pl.slen
  have hrl : w.regs.length = a.pools.length := by rw [h.pl.regs]; simp
  unfold Sim
  simp only [Fwk.step, Spec.step, registerPool]
  by_cases hf : a.pools.length = c.maxPool
  · rw [if_pos hf]
    simp [hrl, hf, wf.en, StepRel, Res.map', assertIf]
  · rw [if_neg hf]
    have hpsz : c.mp.psz = c.mpc.psz := rfl
    have hmod1 : n % 65536 = n := Nat.mod_eq_of_lt hacc.szArg
    have hmod2 : es % c.mpc.bsW = es := Nat.mod_eq_of_lt hacc.bsArg
    obtain ⟨p, hinit, hgeo, hinv, _⟩ := MemPool.init_ok hacc hrep m
    rw [hpsz] at hgeo hinv
    have hk : a.pools.length < w.slots.length := by omega
    have hget := getPool_skip c m s n es w.slots a.pools.length 0 (w.slots[a.pools.length])
      (by
        intro j q hj hq
        obtain ⟨P, hP⟩ : ∃ P, a.pools[j]? = some P := ⟨_, List.getElem?_eq_getElem hj⟩
        obtain ⟨q', k, hq', hg, hi⟩ := h.pl.pool j P hP
        rw [hq] at hq'; cases hq'
        rw [hi.nblocks]
        have := hg.npos
        omega)
      (List.getElem?_eq_getElem hk)
      (h.pl.rest _ _ (Nat.le_refl _) (List.getElem?_eq_getElem hk))
    rw [hmod2, hinit] at hget
    simp only [hrl, show a.pools.length + 1 ≤ c.maxPool by omega, decide_true, assertIf_true, Res.bind'_ok, hmod1, hget,
      Nat.zero_add, Option.isSome_some, show a.pools.length < c.maxPool by omega, if_true, Res.map', StepRel, and_true,
      ne_eq, reduceCtorEq, not_false_iff]
    generalize hbs : MemPool.roundUp c.mpc.psz es = bs at *
    refine { h with pl := ?_, ev := ?_ }
    · constructor
      · rw [List.length_set]; exact hsl
      · simp only [h.pl.regs, List.length_append, List.length_cons, List.length_nil, Nat.zero_add, List.range_succ]
      · simp only [List.length_append, List.length_cons, List.length_nil]; omega
      · intro j P hP
        rw [List.getElem?_append] at hP
        split at hP
        · rename_i hj
          rw [List.getElem?_set_ne (by omega)]
          exact h.pl.pool j P hP
        · rename_i hj
          have hj' : j - a.pools.length = 0 := by
            have := (List.getElem?_eq_some_iff.mp hP).1
            simp only [List.length_cons, List.length_nil] at this
            omega
          rw [hj'] at hP
          simp at hP
          subst hP
          have : j = a.pools.length := by omega
          subst this
          exact ⟨p, n / bs, List.getElem?_set_self hk, hgeo, hinv⟩
      · intro j q hj hq
        simp only [List.length_append, List.length_cons, List.length_nil] at hj
        rw [List.getElem?_set_ne (by omega)] at hq
        exact h.pl.rest j q (by omega) hq
    · have hbnd : ∀ e ∈ MemPool.blocks s bs (n / bs), s ≤ e ∧ e < s + n := by
        intro e he
        have h1 := MemPool.blocks_bounds he
        have h2 := hgeo.fits
        have h3 := hgeo.psz
        have h4 := hgeo.pszle
        omega
      refine h.ev.regPool _ rfl (MemPool.blocks_nodup ?_) ?_ ?_ ?_
      · have := hgeo.psz; have := hgeo.pszle; omega
      · intro e he
        have := (hbnd e he).1
        have := hgeo.spos
        omega
      · intro e he
        cases hs : c.static e
        · rfl
        · have := hst e hs
          have := hbnd e he
          omega
      · intro e he j hj
        have hb := hbnd e he
        have : ∃ P, a.pools[j]? = some P ∧ (e ∈ P.used ∨ e ∈ P.free) := by
          rcases hj with ⟨P, h1, h2⟩ | ⟨P, h1, h2⟩
          · exact ⟨P, h1, .inl h2⟩
          · exact ⟨P, h1, .inr h2⟩
        obtain ⟨P, hP, hm⟩ := this
        obtain ⟨q, k, _, hg, hi⟩ := h.pl.pool j P hP
        have hbl : e ∈ MemPool.blocks P.start P.bsize k := by
          rcases hm with hm | hm
          · exact MemPool.mem_held hi hm
          · exact MemPool.mem_free hi hm
        have h1 := MemPool.blocks_bounds hbl
        have h2 := hg.fits
        have h3 := hg.psz
        have h4 := hg.pszle
        have := hd P (List.mem_of_getElem? hP)
        omega

theorem sim_alloc (wf : Wf c) (h : R c w a) (n sig : Nat) : Sim c w a (.alloc n sig) := by
  have hrl : w.regs.length = a.pools.length := by rw [h.pl.regs]; simp
  unfold Sim
  simp only [Fwk.step, Spec.step, ae, findPool_eq h.pl, Res.bind'_ok, firstFit, List.findIdx?_eq_guard_findIdx_lt]
  generalize a.pools.findIdx (fun P => decide (n ≤ P.bsize % 256)) = i
  by_cases hi : i < a.pools.length
  · have hP : a.pools[i]? = some a.pools[i] := List.getElem?_eq_getElem hi
    generalize a.pools[i] = P at hP
    obtain ⟨p, k, hs, hg, hinv⟩ := h.pl.pool i P hP
    simp only [hrl, hi, decide_true, assertIf_true, Res.bind'_ok, h.pl.reg hi, hs, Option.guard, if_true, hP]
    cases hfree : P.free with
    | nil =>
      rw [hfree] at hinv
      simp [MemPool.get_nil hg hinv, wf.en, StepRel, Res.map']
    | cons b rest =>
      rw [hfree] at hinv
      obtain ⟨p', hget, hinv', _, _⟩ := MemPool.get_cons hg hinv
      have hb0 : b ≠ 0 := h.ev.nz i b (.inr ⟨P, hP, by rw [hfree]; simp⟩)
      simp only [hget, Res.bind'_ok, show (b != 0) = true by simpa using hb0, assertIf_true, hb0, if_false, Res.map',
        StepRel, ne_eq, reduceCtorEq, not_false_iff, and_true]
      have hmod : (i + 1) % 256 = i + 1 := Nat.mod_eq_of_lt (by have := wf.pool; have := h.pl.le; omega)
      rw [hmod]
      refine { h with pl := ?_, ev := ?_ }
      · exact h.pl.upd (n := k) hP hg hinv'
      · exact h.ev.alloc hP hfree sig
  · simp [hrl, hi, wf.en, StepRel, Res.map', Option.guard]

theorem sim_post (wf : Wf c) (h : R c w a) (front : Bool) {ao e : Nat} (hreg : Registered a ao) (hu : Usable c a e)
    (hr : Room c a e 1) :
    FinRel (R c) (postC front c w ao e) (Spec.post front a ao e) ∧ Spec.post front a ao e ≠ .ub := by
  obtain ⟨y, hy, hr'⟩ := hreg
  obtain ⟨hA, hB⟩ := h.post wf hy hr' hu hr front
  by_cases hf : y.q.items.length = y.q.cap
  · obtain ⟨h1, h2⟩ := hA hf
    simp [h1, h2, FinRel]
  · obtain ⟨h2, w', h1, hR⟩ := hB hf
    simp only [h1, h2, FinRel]
    exact ⟨hR, by simp⟩

theorem stepRel_of_fin {r : Res World} {s : Res Abs} (o : Out) (h : FinRel (R c) r s ∧ s ≠ .ub) :
    StepRel (R c) (r.map' fun w => (w, o)) (s.map' fun a => (a, o)) ∧ (s.map' fun a => (a, o)) ≠ .ub := by
  cases r <;> cases s <;> simp_all [FinRel, StepRel, Res.map']

theorem sim_postFifo (wf : Wf c) (h : R c w a) (ao e : Nat) (hl : Legal c a (.postFifo ao e)) : Sim c w a (.postFifo ao e) := by
  unfold Sim
  simp only [Fwk.step, Spec.step, postFifo_eq]
  exact stepRel_of_fin _ (sim_post wf h false hl.1 hl.2.1 hl.2.2)

theorem sim_postLifo (wf : Wf c) (h : R c w a) (ao e : Nat) (hl : Legal c a (.postLifo ao e)) : Sim c w a (.postLifo ao e) := by
  unfold Sim
  simp only [Fwk.step, Spec.step, postLifo_eq]
  exact stepRel_of_fin _ (sim_post wf h true hl.1 hl.2.1 hl.2.2)

theorem sim_defer (wf : Wf c) (h : R c w a) (i e : Nat) (hl : Legal c a (.defer i e)) : Sim c w a (.defer i e) := by
  obtain ⟨hi, hu, hr⟩ := hl
  have hy : a.dqs[i]? = some a.dqs[i] := List.getElem?_eq_getElem hi
  generalize a.dqs[i] = y at hy
  obtain ⟨q, hq, hrep⟩ := h.dq.get hy
  obtain ⟨hA, hB⟩ := qput_rel (front := false) wf.en hu.1 hrep
  simp only [qputC, Bool.false_eq_true, if_false] at hA hB
  unfold Sim
  simp only [Fwk.step, Spec.step, defer, incRef_eq, hq, hy, qput, Bool.false_eq_true, if_false]
  by_cases hf : y.items.length = y.cap
  · simp [hA hf, hf, StepRel, Res.map']
  · obtain ⟨q', hput, hrep'⟩ := hB hf
    simp only [hput, hf, if_false, Res.bind'_ok, Res.map', StepRel, ne_eq, reduceCtorEq, not_false_iff, and_true]
    refine { h with dq := h.dq.set hrep', ev := ?_ }
    refine (h.ev.add (usable' hu) hr).perm ?_
    unfold holders
    simp only [List.append_assoc]
    have h1 := flatMap_set_add (fun x : AQ => x.items) (e := e) (y := { y with items := y.items ++ [e] }) hy
      (by simpa using List.perm_append_singleton e y.items)
    refine ((h1.append_right _).append_left _).trans ?_
    exact List.perm_middle

theorem sim_recall (wf : Wf c) (h : R c w a) (ao i : Nat) (hl : Legal c a (.recall ao i)) : Sim c w a (.recall ao i) := by
  obtain ⟨_, hi⟩ := hl
  have hy : a.dqs[i]? = some a.dqs[i] := List.getElem?_eq_getElem hi
  generalize a.dqs[i] = y at hy
  obtain ⟨q, hq, hrep⟩ := h.dq.get hy
  unfold Sim
  simp only [Fwk.step, Spec.step, recall1, hq, hy]
  cases hit : y.items with
  | nil =>
    obtain ⟨q', hget, hrep'⟩ := qget_nil hrep hit
    simp only [hget, Res.bind'_ok, ne_eq, not_true_eq_false, if_false, Res.map', StepRel, and_true, reduceCtorEq, not_false_iff]
    have hset : a.dqs.set i y = a.dqs := by
      apply List.ext_getElem?
      intro j
      by_cases hj : j = i
      · subst hj; rw [List.getElem?_set_self hi, hy]
      · rw [List.getElem?_set_ne (Ne.symm hj)]
    refine { h with dq := ?_ }
    have := h.dq.set (i := i) hrep'
    rw [hset] at this
    exact this
  | cons e rest =>
    obtain ⟨q', hget, hrep'⟩ := qget_cons wf.en hrep hit
    have he0 : e ≠ 0 := (h.ev.hold e (by
      unfold holders
      simp only [List.mem_append, List.mem_flatMap]
      exact .inl (.inl (.inl (.inr ⟨y, List.mem_of_getElem? hy, by rw [hit]; simp⟩))))).1
    simp only [hget, Res.bind'_ok, ne_eq, he0, not_false_iff, if_true, Res.map', StepRel, and_true, reduceCtorEq, h.conts]
    refine { h with dq := h.dq.set hrep', ev := ?_, conts := rfl, rc3Ok := ?_, gc2Ok := ?_ }
    · refine EvInv.mono (h.ev.perm ?_) ?_ (puts' := putsOf (Cont.rc2 ao e :: a.conts))
      · unfold holders
        simp only [List.append_assoc, List.map_cons, Cont.evt]
        have h1 := flatMap_set_sub (fun x : AQ => x.items) (e := e) (y := { y with items := rest }) hy
          (by rw [hit])
        refine List.Perm.trans ?_ ((h1.append_right _).append_left _).symm
        refine List.Perm.append_left _ ?_
        rw [List.cons_append]
        refine List.Perm.trans ?_ List.perm_middle
        refine List.Perm.append_left _ ?_
        rw [← List.append_assoc, ← List.append_assoc]
        exact List.perm_middle
      · intro j x hx
        simpa [putsOf] using hx
    · intro o x hx
      exact h.rc3Ok o x (by simpa using hx)
    · intro x hx
      exact h.gc2Ok x (by simpa using hx)

theorem sim_reserve (h : R c w a) (e : Nat) (hl : Legal c a (.reserve e)) : Sim c w a (.reserve e) := by
  obtain ⟨hu, hr⟩ := hl
  unfold Sim
  simp only [Fwk.step, Spec.step, incRef_eq, StepRel, and_true, ne_eq, reduceCtorEq, not_false_iff]
  refine { h with ev := ?_ }
  refine (h.ev.add (usable' hu) hr).perm ?_
  unfold holders
  simp only [List.append_assoc, List.cons_append]
  refine List.Perm.trans ?_ List.perm_middle
  refine List.Perm.append_left _ ?_
  exact List.perm_middle

/-- `rkh_fwk_gc` starts; the caller's reservation becomes the reference the function is about to drop. -/
theorem sim_gc (h : R c w a) (e : Nat) (hl : Legal c a (.gc e)) : Sim c w a (.gc e) := by
  obtain ⟨he0, hl⟩ := hl
  unfold Sim
  simp only [Fwk.step, Spec.step, StepRel, and_true, ne_eq, reduceCtorEq, not_false_iff]
  have hputs : ∀ i x, putsOf (Cont.gc1 e :: a.conts) i x → putsOf a.conts i x := by
    intro i x hx; simpa [putsOf] using hx
  have hperm2 : (holders { a with resv := a.resv.erase e, conts := .gc1 e :: a.conts }).Perm
      (e :: holders { a with resv := a.resv.erase e }) := by
    unfold holders
    simp only [List.map_cons, Cont.evt]
    exact List.perm_middle
  have hev : EvInv c (holders { a with resv := a.resv.erase e, conts := .gc1 e :: a.conts }) (putsOf a.conts) a.pools
      a.fresh a.sig w.hdr := by
    by_cases hm : e ∈ a.resv
    · refine h.ev.perm (hperm2.trans ?_)
      unfold holders
      simp only [List.append_assoc]
      refine List.Perm.trans List.perm_middle.symm (List.Perm.append_left _ ?_)
      refine List.Perm.trans List.perm_middle.symm (List.Perm.append_left _ ?_)
      rw [← List.cons_append]
      exact (List.perm_cons_erase hm).symm.append_right _
    · have hs : c.static e = true := hl.resolve_right hm
      have her : a.resv.erase e = a.resv := List.erase_of_not_mem hm
      have hnf : e ∉ a.fresh := by
        intro hf
        obtain ⟨⟨i, hi⟩, _⟩ := h.ev.freshU e hf
        rw [h.ev.nostat i e (.inl hi)] at hs; cases hs
      have := h.ev.add (e := e) ⟨he0, .inl hs⟩ (.inl hs)
      rw [List.erase_of_not_mem hnf] at this
      have hinc : incHdr w.hdr e = w.hdr := by
        unfold incHdr
        rw [h.ev.hdrS e hs]
        simp
      rw [hinc] at this
      refine this.perm (hperm2.trans ?_)
      rw [her]
  refine { h with ev := hev.mono hputs, conts := by simp [h.conts], rc3Ok := ?_, gc2Ok := ?_ }
  · intro o x hx; exact h.rc3Ok o x (by simpa using hx)
  · intro x hx; exact h.gc2Ok x (by simpa using hx)

theorem sim_subscribe (wf : Wf c) (h : R c w a) (on : Bool) (ch ao : Nat) (hl : ao < a.aos.length) :
    StepRel (R c) ((subscribe c w on ch ao).map' fun w => (w, Out.unit))
      (if c.maxChan ≤ ch then .assert
       else match a.aos[ao]? with
        | none => .ub
        | some x => .ok ({ a with sub := fun h p => if h = ch ∧ p = x.prio then on else a.sub h p }, Out.unit)) ∧
    (if c.maxChan ≤ ch then (.assert : Res (Abs × Out))
       else match a.aos[ao]? with
        | none => .ub
        | some x => .ok ({ a with sub := fun h p => if h = ch ∧ p = x.prio then on else a.sub h p }, Out.unit)) ≠ .ub := by
  by_cases hc : c.maxChan ≤ ch
  · rw [if_pos hc]
    simp [subscribe, wf.en, show ¬ ch < c.maxChan by omega, Res.map', StepRel]
  · rw [if_neg hc]
    have hy : a.aos[ao]? = some a.aos[ao] := List.getElem?_eq_getElem hl
    generalize a.aos[ao] = y at hy
    obtain ⟨x, hx, hpr, _⟩ := h.ao.aos.get hy
    have hpm : y.prio < c.maxSma := h.ao.prioOk y (List.mem_of_getElem? hy)
    have hlt : ch < w.chans.length := by rw [h.chLen]; omega
    have hg : w.chans[ch]? = some w.chans[ch] := List.getElem?_eq_getElem hlt
    generalize w.chans[ch] = g at hg
    obtain ⟨hinv, hbit⟩ := h.ch ch g hg
    have : ∃ g', (if on then RdyGrp.setReady c.assertEn c.maxSma g y.prio else RdyGrp.setUnready c.assertEn c.maxSma g y.prio) = .ok g' ∧
        RdyGrp.Inv c.maxSma g' ∧ ∀ p, RdyGrp.bit g' p = if p = y.prio then on else RdyGrp.bit g p := by
      cases on
      · obtain ⟨g', h1, h2, h3⟩ := RdyGrp.setUnready_ok (en := c.assertEn) wf.sma hinv hpm
        refine ⟨g', by simpa using h1, h2, fun p => ?_⟩
        rw [h3]; by_cases hp : p = y.prio <;> simp [hp]
      · obtain ⟨g', h1, h2, h3⟩ := RdyGrp.setReady_ok (en := c.assertEn) wf.sma hinv hpm
        refine ⟨g', by simpa using h1, h2, fun p => ?_⟩
        rw [h3]; by_cases hp : p = y.prio <;> simp [hp]
    obtain ⟨g', h1, h2, h3⟩ := this
    simp only [subscribe, show ch < c.maxChan by omega, decide_true, assertIf_true, Res.bind'_ok, hx, hg, hpr, h1, hy,
      Res.map', StepRel, and_true, ne_eq, reduceCtorEq, not_false_iff]
    refine { h with chLen := by rw [List.length_set]; exact h.chLen, ch := ?_ }
    intro k gk hk
    by_cases hkc : k = ch
    · subst hkc
      rw [List.getElem?_set_self hlt] at hk
      cases hk
      refine ⟨h2, fun p => ?_⟩
      rw [h3]; simp [hbit]
    · rw [List.getElem?_set_ne (Ne.symm hkc)] at hk
      obtain ⟨h4, h5⟩ := h.ch k gk hk
      exact ⟨h4, fun p => by simp [hkc, h5]⟩

theorem unsubLoop_ok (wf : Wf c) {prio : Nat} (hp : prio < c.maxSma) (sub : Nat → Nat → Bool) (chans : List RdyGrp.Grp)
    (k0 : Nat) (hch : ∀ (k : Nat) g, chans[k]? = some g → RdyGrp.Inv c.maxSma g ∧ ∀ p, RdyGrp.bit g p = sub (k0 + k) p) :
    ∃ chans', unsubLoop c prio chans = .ok chans' ∧ chans'.length = chans.length ∧
      ∀ (k : Nat) g, chans'[k]? = some g → RdyGrp.Inv c.maxSma g ∧
        ∀ p, RdyGrp.bit g p = if p = prio then false else sub (k0 + k) p := by
  induction chans generalizing k0 with
  | nil => exact ⟨[], rfl, rfl, by simp⟩
  | cons g chans ih =>
    obtain ⟨hinv, hbit⟩ := hch 0 g (by simp)
    obtain ⟨g', h1, h2, h3⟩ := RdyGrp.setUnready_ok (en := c.assertEn) wf.sma hinv hp
    obtain ⟨chans', h4, h5, h6⟩ := ih (k0 + 1) (fun k gk hk => by
      have := hch (k + 1) gk (by simpa using hk)
      rw [show k0 + 1 + k = k0 + (k + 1) by omega]; exact this)
    refine ⟨g' :: chans', by simp [unsubLoop, h1, h4], by simp [h5], ?_⟩
    intro k gk hk
    cases k with
    | zero =>
      simp only [List.getElem?_cons_zero, Option.some.injEq] at hk
      subst hk
      refine ⟨h2, fun p => ?_⟩
      rw [h3, hbit]
      by_cases hpp : p = prio <;> simp [hpp]
    | succ k =>
      have := h6 k gk (by simpa using hk)
      rw [show k0 + (k + 1) = k0 + 1 + k by omega]
      exact this

theorem sim_unsubscribeAll (wf : Wf c) (h : R c w a) (ao : Nat) (hl : Legal c a (.unsubscribeAll ao)) :
    Sim c w a (.unsubscribeAll ao) := by
  have hl : ao < a.aos.length := hl
  have hy : a.aos[ao]? = some a.aos[ao] := List.getElem?_eq_getElem hl
  generalize a.aos[ao] = y at hy
  obtain ⟨x, hx, hpr, _⟩ := h.ao.aos.get hy
  have hpm : y.prio < c.maxSma := h.ao.prioOk y (List.mem_of_getElem? hy)
  obtain ⟨chans', h4, h5, h6⟩ := unsubLoop_ok wf hpm a.sub w.chans 0 (by simpa using h.ch)
  unfold Sim
  simp only [Fwk.step, Spec.step, unsubscribeAll, hx, hy, hpr, h4, Res.bind'_ok, Res.map', StepRel, and_true, ne_eq,
    reduceCtorEq, not_false_iff]
  exact { h with chLen := by rw [h5]; exact h.chLen, ch := by simpa using h6 }

theorem sim_publish (wf : Wf c) (h : R c w a) (ch e : Nat) (s : Option Nat) (hl : Legal c a (.publish ch e s)) :
    Sim c w a (.publish ch e s) := by
  obtain ⟨hch, hu, hroom⟩ := hl
  have hlt : ch < w.chans.length := by rw [h.chLen]; exact hch
  have hg : w.chans[ch]? = some w.chans[ch] := List.getElem?_eq_getElem hlt
  generalize w.chans[ch] = g at hg
  obtain ⟨hinv, hbit⟩ := h.ch ch g hg
  have hmem : RdyGrp.rowBits 0 g.tbl = subscribers c.maxSma a ch := by
    rw [members_of_inv hinv, subscribers]
    congr 1
    funext p
    exact hbit p
  unfold Sim
  simp only [Fwk.step, Spec.step, publish, hg, RdyGrp.traverse_rows hinv, hmem]
  generalize hsub : subscribers c.maxSma a ch = l at hroom
  have hlen : l.length < 256 := by
    rw [← hsub]
    have := List.length_filter_le (a.sub ch) (List.range c.maxSma)
    simp only [subscribers]
    have := wf.sma
    simp at *
    omega
  have hR : R c { incRef w e with conts := .gc1 e :: w.conts } { a with conts := .gc1 e :: a.conts, fresh := a.fresh.erase e } := by
    rw [incRef_eq]
    refine { h with ev := ?_, conts := by simp [h.conts], rc3Ok := ?_, gc2Ok := ?_ }
    · have hr1 : c.static e = true ∨ (holders a).count e + 1 ≤ 255 := by
        rcases hroom with h1 | h1
        · exact .inl h1
        · right; unfold refs at h1; omega
      have h2 := h.ev.add (usable' hu) hr1
      refine EvInv.mono (h2.perm ?_) (fun i x hx => by simpa [putsOf] using hx)
      unfold holders
      simp only [List.map_cons, Cont.evt]
      exact List.perm_middle
    · intro o x hx; exact h.rc3Ok o x (by simpa using hx)
    · intro x hx; exact h.gc2Ok x (by simpa using hx)
  have hrefs : refs { a with conts := .gc1 e :: a.conts, fresh := a.fresh.erase e } e = refs a e + 1 := by
    unfold refs
    have : (holders { a with conts := .gc1 e :: a.conts, fresh := a.fresh.erase e }).Perm (e :: holders a) := by
      unfold holders
      simp only [List.map_cons, Cont.evt]
      exact List.perm_middle
    rw [this.count_eq, List.count_cons_self]
  have hlive : Live { a with conts := .gc1 e :: a.conts, fresh := a.fresh.erase e } e := by
    refine ⟨by rw [hrefs]; omega, fun i hi => ?_⟩
    have hi' : Cont.put i e ∈ a.conts := by simpa using hi
    have hp := h.ev.putsOk i e hi'
    rcases hu.2 with h1 | h1 | h1
    · rw [h.ev.nostat i e (.inl hp.2)] at h1; cases h1
    · have := (h.ev.freshU e h1).2; omega
    · exact h1.2 i hi'
  have hroom' : Room c { a with conts := .gc1 e :: a.conts, fresh := a.fresh.erase e } e l.length := by
    rcases hroom with h1 | h1
    · exact .inl h1
    · right; rw [hrefs]; omega
  have hfin := R.deliver wf hu.1 s l (by rw [← hsub]; intro p hp; simp [subscribers] at hp; exact hp.1) _ _ hR hlive hroom'
  revert hfin
  generalize RdyGrp.foldRes (publishCb c e s) { incRef w e with conts := .gc1 e :: w.conts } l = x
  generalize RdyGrp.foldRes (Spec.deliver e s) { a with conts := .gc1 e :: a.conts, fresh := a.fresh.erase e } l = y
  intro hfin
  cases x <;> cases y <;> simp_all [FinRel, StepRel, Res.map', Nat.mod_eq_of_lt]

theorem sim_select (h : R c w a) (hl : Legal c a .select) : Sim c w a .select := by
  obtain ⟨hph, _⟩ := hl
  have hph' : w.ph = .none := by rw [h.ph]; exact hph
  unfold Sim
  simp only [Fwk.step, Spec.step, hph', select]
  have hbit : ∀ p, RdyGrp.bit w.rdy p = pending a p := by
    intro p
    have := h.ao.rdyBit p
    rw [← pending_iff] at this
    cases h1 : RdyGrp.bit w.rdy p <;> cases h2 : pending a p <;> simp_all
  by_cases hr : RdyGrp.isReady w.rdy = true
  · obtain ⟨p, h1, h2, h3⟩ := findHighest_of_inv h.ao.rdyInv hr
    have hpend : pending a p = true := by rw [← hbit]; exact h2
    obtain ⟨ao, x, hreg, hx, hi⟩ := (pending_iff a p).mp hpend
    have hpm := (h.ao.regOk p ao hreg).1
    have hfind : (List.range c.maxSma).find? (pending a) = some p := by
      rw [List.find?_eq_some_iff_append]
      refine ⟨hpend, List.range p, (List.range (c.maxSma - p)).tail.map (p + ·), ?_, ?_⟩
      · obtain ⟨k, hk⟩ : ∃ k, c.maxSma = p + (k + 1) := ⟨c.maxSma - p - 1, by omega⟩
        rw [hk, List.range_add, show p + (k + 1) - p = k + 1 by omega, List.range_succ_eq_map]
        simp
      · intro q hq
        rw [← hbit, h3 q (by simpa using hq)]; rfl
    simp only [hr, if_true, h1, Res.bind'_ok, h.ao.tbl p hpm, hreg, hfind, Res.map', StepRel, and_true, ne_eq, reduceCtorEq,
      not_false_iff]
    refine { h with ev := ?_, ph := rfl, fetchOk := ?_ }
    · have : holders { a with ph := .fetch ao } = holders a := by simp [holders, hph, phEvts]
      rw [this]; exact h.ev
    · intro ao' hao
      simp only [Phase.fetch.injEq] at hao
      subst hao
      obtain ⟨_, y, hy, hyp⟩ := h.ao.regOk p ao hreg
      rw [hx] at hy; cases hy
      exact ⟨x, hx, by rw [hyp]; exact hreg, hi⟩
  · have hnone : ∀ p, pending a p = false := by
      intro p
      cases hp : pending a p
      · rfl
      · exact absurd ((RdyGrp.isReady_iff h.ao.rdyInv).mpr ⟨p, by rw [hbit]; exact hp⟩) hr
    have hfind : (List.range c.maxSma).find? (pending a) = none := by
      rw [List.find?_eq_none]; intro q _; simp [hnone]
    rw [if_neg hr]
    simp only [hfind, Res.map', StepRel, and_true, ne_eq, reduceCtorEq, not_false_iff]
    exact h

theorem sim_fetch (wf : Wf c) (h : R c w a) (hl : Legal c a .fetch) : Sim c w a .fetch := by
  obtain ⟨⟨ao, hph⟩, hnr⟩ := hl
  have hph' : w.ph = .fetch ao := by rw [h.ph]; exact hph
  obtain ⟨y, hy, hreg, hi⟩ := h.fetchOk ao hph
  obtain ⟨e, rest, hi⟩ : ∃ e rest, y.q.items = e :: rest := by
    cases hq : y.q.items with
    | nil => exact absurd hq hi
    | cons e rest => exact ⟨e, rest, rfl⟩
  obtain ⟨x, q', s, g, hx, hget, hsync, hrel⟩ := h.ao.get wf.sma wf.en hy hreg hi
  have he0 : e ≠ 0 := (h.ev.hold e (by
    unfold holders
    simp only [List.mem_append, List.mem_flatMap]
    exact .inl (.inl (.inl (.inl ⟨y, List.mem_of_getElem? hy, by rw [hi]; simp⟩))))).1
  unfold Sim
  simp only [Fwk.step, Spec.step, hph', hph, smaGet, hx, hy, hget, hsync, Res.bind'_ok, hi,
    show (e != 0) = true by simpa using he0, assertIf_true, Res.map', StepRel, and_true, ne_eq, reduceCtorEq, not_false_iff]
  refine { h with ao := hrel, ev := ?_, ph := rfl, fetchOk := ?_, rc3Ok := ?_ }
  · refine h.ev.perm ?_
    unfold holders
    simp only [hph, phEvts, List.append_nil, List.append_assoc]
    have h1 := flatMap_set_sub (fun x : AAo => x.q.items) (e := e) (y := { y with q := { y.q with items := rest } }) hy
      (by rw [hi])
    refine List.Perm.trans ?_ (h1.append_right _).symm
    rw [List.cons_append]
    refine List.Perm.trans ?_ List.perm_middle
    refine List.Perm.append_left _ ?_
    refine List.Perm.trans ?_ List.perm_middle
    refine List.Perm.append_left _ ?_
    exact List.perm_middle
  · intro ao' hao; cases hao
  · intro o x hx
    exact absurd rfl ((hnr _ hx).2 o x)

/-- The thread of an active object takes the next event. -/
theorem sim_take (wf : Wf c) (h : R c w a) (ao : Nat) (hl : Legal c a (.take ao)) : Sim c w a (.take ao) := by
  obtain ⟨⟨y, hy, hreg, hi⟩, hph, hnr⟩ := hl
  obtain ⟨e, rest, hi⟩ : ∃ e rest, y.q.items = e :: rest := by
    cases hq : y.q.items with
    | nil => exact absurd hq hi
    | cons e rest => exact ⟨e, rest, rfl⟩
  obtain ⟨x, q', s, g, hx, hget, hsync, hrel⟩ := h.ao.get wf.sma wf.en hy hreg hi
  have he0 : e ≠ 0 := (h.ev.hold e (by
    unfold holders
    simp only [List.mem_append, List.mem_flatMap]
    exact .inl (.inl (.inl (.inl ⟨y, List.mem_of_getElem? hy, by rw [hi]; simp⟩))))).1
  unfold Sim
  simp only [Fwk.step, Spec.step, smaGet, hx, hy, hget, hsync, Res.bind'_ok, hi,
    show (e != 0) = true by simpa using he0, assertIf_true, Res.map', StepRel, and_true, ne_eq, reduceCtorEq, not_false_iff]
  have hlt : ao < a.aos.length := (List.getElem?_eq_some_iff.mp hy).1
  refine { h with ao := hrel, conts := by simp [h.conts], ev := ?_, fetchOk := ?_, rc3Ok := ?_, gc2Ok := fun x hx => h.gc2Ok x (by simpa using hx) }
  · refine EvInv.mono (h.ev.perm ?_) (fun i x hx => by simpa [putsOf] using hx)
    unfold holders
    simp only [List.append_assoc, List.map_cons, Cont.evt]
    have h1 := flatMap_set_sub (fun x : AAo => x.q.items) (e := e) (y := { y with q := { y.q with items := rest } }) hy
      (by rw [hi])
    refine List.Perm.trans ?_ (h1.append_right _).symm
    rw [List.cons_append]
    refine List.Perm.trans ?_ List.perm_middle
    refine List.Perm.append_left _ ?_
    refine List.Perm.trans ?_ List.perm_middle
    refine List.Perm.append_left _ ?_
    refine List.Perm.trans ?_ List.perm_middle
    refine List.Perm.append_left _ ?_
    exact List.perm_middle
  · intro ao' hao
    obtain ⟨z, hz, hzr, hzi⟩ := h.fetchOk ao' hao
    refine ⟨z, ?_, hzr, hzi⟩
    rw [List.getElem?_set_ne (by rintro rfl; exact hph hao)]; exact hz
  · intro o x hx
    have hx' : Cont.rc3 o x ∈ a.conts := by simpa using hx
    obtain ⟨z, hz, hzi⟩ := h.rc3Ok o x hx'
    refine ⟨z, ?_, hzi⟩
    rw [List.getElem?_set_ne (by rintro rfl; exact hnr x hx')]; exact hz

theorem sim_done (h : R c w a) (hl : Legal c a .done) : Sim c w a .done := by
  obtain ⟨⟨ao, e, hph⟩, _⟩ := hl
  have hph' : w.ph = .run ao e := by rw [h.ph]; exact hph
  unfold Sim
  simp only [Fwk.step, Spec.step, hph', hph, StepRel, and_true, ne_eq, reduceCtorEq, not_false_iff]
  refine { h with ev := ?_, ph := rfl, conts := by simp [h.conts], fetchOk := by simp, rc3Ok := ?_, gc2Ok := ?_ }
  · refine EvInv.mono (h.ev.perm ?_) (fun i x hx => by simpa [putsOf] using hx)
    unfold holders
    simp [hph, phEvts, Cont.evt]
  · intro o x hx; exact h.rc3Ok o x (by simpa using hx)
  · intro x hx; exact h.gc2Ok x (by simpa using hx)

theorem sim_numUsed (h : R c w a) (i : Nat) (hl : Legal c a (.numUsed i)) : Sim c w a (.numUsed i) := by
  have hl : i < a.pools.length := hl
  have hP : a.pools[i]? = some a.pools[i] := List.getElem?_eq_getElem hl
  generalize a.pools[i] = P at hP
  obtain ⟨p, k, hs, hg, hinv⟩ := h.pl.pool i P hP
  unfold Sim
  simp only [Fwk.step, Spec.step, h.pl.reg hl, hs, hP, StepRel, ne_eq, reduceCtorEq, not_false_iff, and_true]
  refine ⟨h, ?_⟩
  have h1 := MemPool.length_sum hinv
  simp only [numUsed, hinv.nblocks, hinv.nfree]
  rw [show k + 256 * P.free.length - P.free.length = P.used.length + 256 * P.free.length by omega, Nat.add_mul_mod_self_left]

/-! ### Continuations -/

theorem eraseIdx_perm {l : List Cont} {k : Nat} {t : Cont} (h : l[k]? = some t) :
    (l.map Cont.evt).Perm (t.evt :: (l.eraseIdx k).map Cont.evt) := by
  induction l generalizing k with
  | nil => simp at h
  | cons x l ih =>
    cases k with
    | zero => simp at h; subst h; simp
    | succ k =>
      simp only [List.getElem?_cons_succ] at h
      simp only [List.eraseIdx_cons_succ, List.map_cons]
      exact ((ih h).cons _).trans (.swap _ _ _)

/-- The state with continuation `k` removed: everything holds but its reference is now loose. -/
theorem holders_erase {k : Nat} {t : Cont} (h : a.conts[k]? = some t) :
    (holders a).Perm (t.evt :: holders { a with conts := a.conts.eraseIdx k }) := by
  unfold holders
  refine ((eraseIdx_perm h).append_left _).trans ?_
  exact List.perm_middle

theorem postC_conts (front : Bool) (c : Cfg) (w : World) (ao e : Nat) (l : List Cont) :
    postC front c { w with conts := l } ao e = (postC front c w ao e).map' fun w => { w with conts := l } := by
  simp only [postC]
  cases w.aos[ao]? with
  | none => rfl
  | some x =>
    simp only
    cases qputC front c.qc x.q e with
    | ok r => simp only [Res.bind'_ok]; cases applySync c w.rdy x.prio r.2 <;> rfl
    | assert => rfl
    | ub => rfl

theorem post_conts (front : Bool) (a : Abs) (ao e : Nat) (l : List Cont) :
    Spec.post front { a with conts := l } ao e = (Spec.post front a ao e).map' fun a => { a with conts := l } := by
  simp only [Spec.post]
  cases a.aos[ao]? with
  | none => rfl
  | some x =>
    simp only
    cases qput front x.q e <;> rfl

theorem sim_resume (wf : Wf c) (h : R c w a) (k : Nat) (hl : Legal c a (.resume k)) : Sim c w a (.resume k) := by
  obtain ⟨t, ht, hrc⟩ := hl
  have htm : t ∈ a.conts := List.mem_of_getElem? ht
  have hsub : ∀ {x}, x ∈ a.conts.eraseIdx k → x ∈ a.conts := fun hx => List.mem_of_mem_eraseIdx hx
  have hperm := holders_erase ht
  have hev := h.ev.perm hperm.symm
  have hw : w.conts[k]? = some t := by rw [h.conts]; exact ht
  unfold Sim
  simp only [Fwk.step, Spec.step, hw, ht]
  cases t with
  | gc1 e =>
    simp only [Cont.evt] at hev
    have hold := h.ev.hold e (hperm.symm.subset (by simp [Cont.evt]))
    simp only [resumeCont, Spec.resumeCont, Res.map', StepRel, and_true, ne_eq, reduceCtorEq, not_false_iff]
    by_cases hs : c.static e = true
    · have hz : (w.hdr e).nref = 0 := by rw [h.ev.hdrS e hs]
      simp only [hz, not_true_eq_false, if_false, hs, if_true]
      refine { h with ev := ?_, conts := by simp [h.conts], rc3Ok := fun o x hx => h.rc3Ok o x (hsub hx), gc2Ok := fun x hx => h.gc2Ok x (hsub hx) }
      exact (hev.dropStatic hs).mono (fun i x hx => hsub hx)
    · obtain ⟨i, hi⟩ := hold.2.resolve_left hs
      have hz : (w.hdr e).nref ≠ 0 := by
        rw [h.ev.hdrU i e hi]
        simp only
        have : 0 < (holders a).count e := List.count_pos_iff.mpr (hperm.symm.subset (by simp [Cont.evt]))
        omega
      simp only [hz, not_false_iff, if_true, hs]
      refine { h with ev := ?_, conts := by simp [h.conts], rc3Ok := ?_, gc2Ok := ?_ }
      · refine EvInv.mono (hev.perm ?_) (puts' := putsOf (Cont.gc2 e :: a.conts.eraseIdx k)) ?_
        · unfold holders
          simp only [List.map_cons, Cont.evt]
          exact List.perm_middle
        · intro j x hx
          have : Cont.put j x ∈ a.conts.eraseIdx k := by simpa [putsOf] using hx
          exact hsub this
      · intro o x hx; exact h.rc3Ok o x (hsub (by simpa using hx))
      · intro x hx
        rcases List.mem_cons.mp hx with h1 | h1
        · cases h1; simpa using hs
        · exact h.gc2Ok x (hsub h1)
  | thr o e =>
    simp only [Cont.evt] at hev
    have hold := h.ev.hold e (hperm.symm.subset (by simp [Cont.evt]))
    simp only [resumeCont, Spec.resumeCont, Res.map', StepRel, and_true, ne_eq, reduceCtorEq, not_false_iff]
    by_cases hs : c.static e = true
    · have hz : (w.hdr e).nref = 0 := by rw [h.ev.hdrS e hs]
      simp only [hz, not_true_eq_false, if_false, hs, if_true]
      refine { h with ev := ?_, conts := by simp [h.conts], rc3Ok := fun o x hx => h.rc3Ok o x (hsub hx), gc2Ok := fun x hx => h.gc2Ok x (hsub hx) }
      exact (hev.dropStatic hs).mono (fun i x hx => hsub hx)
    · obtain ⟨i, hi⟩ := hold.2.resolve_left hs
      have hz : (w.hdr e).nref ≠ 0 := by
        rw [h.ev.hdrU i e hi]
        simp only
        have : 0 < (holders a).count e := List.count_pos_iff.mpr (hperm.symm.subset (by simp [Cont.evt]))
        omega
      simp only [hz, not_false_iff, if_true, hs]
      refine { h with ev := ?_, conts := by simp [h.conts], rc3Ok := ?_, gc2Ok := ?_ }
      · refine EvInv.mono (hev.perm ?_) (puts' := putsOf (Cont.gc2 e :: a.conts.eraseIdx k)) ?_
        · unfold holders
          simp only [List.map_cons, Cont.evt]
          exact List.perm_middle
        · intro j x hx
          have : Cont.put j x ∈ a.conts.eraseIdx k := by simpa [putsOf] using hx
          exact hsub this
      · intro o x hx; exact h.rc3Ok o x (hsub (by simpa using hx))
      · intro x hx
        rcases List.mem_cons.mp hx with h1 | h1
        · cases h1; simpa using hs
        · exact h.gc2Ok x (hsub h1)
  | gc2 e =>
    simp only [Cont.evt] at hev hperm
    have hold := h.ev.hold e (hperm.symm.subset (by simp))
    have hs := h.gc2Ok e htm
    obtain ⟨i, hi⟩ := hold.2.resolve_left (by simp [hs])
    have hcnt : (holders a).count e = refs { a with conts := a.conts.eraseIdx k } e + 1 := by
      rw [hperm.count_eq, List.count_cons_self]; rfl
    have hhdr := h.ev.hdrU i e hi
    simp only [resumeCont, Spec.resumeCont, gcSection]
    by_cases hz : refs { a with conts := a.conts.eraseIdx k } e = 0
    · have hn : ¬ (w.hdr e).nref > 1 := by rw [hhdr]; simp only; omega
      have hil : i < a.pools.length := by
        obtain ⟨P, hP, _⟩ := hi; exact (List.getElem?_eq_some_iff.mp hP).1
      have hidx : ((w.hdr e).pool + 255) % 256 = i := by
        rw [hhdr]; simp only
        have := wf.pool; have := h.pl.le
        omega
      have hrl : w.regs.length = a.pools.length := by rw [h.pl.regs]; simp
      have hpo : poolOf { a with conts := a.conts.eraseIdx k } e = i := by
        unfold poolOf
        simp only
        have hfl : a.pools.findIdx (fun P => P.used.contains e) < a.pools.length := by
          rw [List.findIdx_lt_length]
          obtain ⟨P, hP, hm⟩ := hi
          exact ⟨P, List.mem_of_getElem? hP, by simpa using hm⟩
        have hin : InUse a.pools (a.pools.findIdx (fun P => P.used.contains e)) e := by
          refine ⟨_, List.getElem?_eq_getElem hfl, ?_⟩
          have := List.findIdx_getElem (w := hfl)
          simpa using this
        exact h.ev.disj _ _ e (.inl hin) (.inl hi)
      simp only [hn, if_false, hidx, hrl, hil, decide_true, assertIf_true, Res.bind'_ok, if_true, hz, hpo, Res.map', StepRel,
        and_true, ne_eq, reduceCtorEq, not_false_iff]
      refine { h with ev := ?_, conts := by simp [h.conts], rc3Ok := ?_, gc2Ok := ?_ }
      · have h1 : EvInv c (holders a) (putsOf (Cont.put i e :: a.conts.eraseIdx k)) a.pools a.fresh a.sig w.hdr :=
          h.ev.recycle hi (by rw [hcnt, hz]) (by
            intro j x hx
            rcases List.mem_cons.mp hx with h1 | h1
            · cases h1; exact .inr ⟨rfl, rfl⟩
            · exact .inl (hsub h1))
        refine h1.perm ?_
        refine List.Perm.trans ?_ hperm.symm
        unfold holders
        simp only [List.map_cons, Cont.evt]
        exact List.perm_middle
      · intro o x hx; exact h.rc3Ok o x (hsub (by simpa using hx))
      · intro x hx; exact h.gc2Ok x (hsub (by simpa using hx))
    · have hn : (w.hdr e).nref > 1 := by rw [hhdr]; simp only; omega
      simp only [hn, if_true, Res.bind'_ok, hz, if_false, Res.map', StepRel, and_true, ne_eq, reduceCtorEq, not_false_iff]
      refine { h with ev := ?_, conts := by simp [setHdr, h.conts], rc3Ok := fun o x hx => h.rc3Ok o x (hsub hx), gc2Ok := fun x hx => h.gc2Ok x (hsub hx) }
      have := (hev.drop (by unfold refs at hz; omega)).resolve_right (by simp [hs])
      exact this.mono (fun i x hx => hsub hx)
  | put i e =>
    simp only [Cont.evt] at hev hperm
    have hp : putsOf a.conts i e := htm
    obtain ⟨hc1, P, hP, hm⟩ := h.ev.putsOk i e hp
    obtain ⟨p, n, hsl, hg, hinv⟩ := h.pl.pool i P hP
    have hil : i < a.pools.length := (List.getElem?_eq_some_iff.mp hP).1
    obtain ⟨p', hput, hinv', _⟩ := MemPool.put_held hg hinv hm
    simp only [resumeCont, Spec.resumeCont, evtPut, h.pl.reg hil, hsl, hput, hP, Res.bind'_ok, Res.map', StepRel, and_true, ne_eq,
      reduceCtorEq, not_false_iff]
    refine { h with pl := h.pl.upd (n := n) hP hg hinv', ev := ?_, conts := by simp [setHdr, h.conts],
                    rc3Ok := fun o x hx => h.rc3Ok o x (hsub hx), gc2Ok := fun x hx => h.gc2Ok x (hsub hx) }
    refine hev.put hp hP ?_ _
    intro j x hx
    refine ⟨hsub hx, ?_⟩
    unfold holders
    simp only [List.mem_append, List.mem_map]
    exact .inr ⟨_, hx, rfl⟩
  | rc2 ao e =>
    obtain ⟨⟨y, hy, hreg⟩, hroom⟩ := hrc ao e rfl
    simp only [Cont.evt] at hev hperm
    have hin : e ∈ holders a := hperm.symm.subset (by simp)
    have hcnt : (holders a).count e = (holders { a with conts := a.conts.eraseIdx k }).count e + 1 := by
      rw [hperm.count_eq, List.count_cons_self]
    have hu : Usable c a e := by
      refine ⟨(h.ev.hold e hin).1, .inr (.inr ⟨List.count_pos_iff.mpr hin, fun i hi => ?_⟩)⟩
      have h1 := (h.ev.putsOk i e hi).1
      have h2 : Cont.put i e ∈ a.conts.eraseIdx k := by
        obtain ⟨j, hj⟩ := List.mem_iff_getElem?.mp hi
        rw [List.mem_eraseIdx_iff_getElem?]
        refine ⟨j, ?_, hj⟩
        rintro rfl
        rw [ht] at hj; cases hj
      have h3 : 0 < (holders { a with conts := a.conts.eraseIdx k }).count e := by
        rw [List.count_pos_iff]
        unfold holders
        simp only [List.mem_append, List.mem_map]
        exact .inr ⟨_, h2, rfl⟩
      omega
    obtain ⟨hA, hB⟩ := h.post wf hy hreg hu hroom true
    simp only [resumeCont, Spec.resumeCont, postLifo_eq, postC_conts, post_conts]
    by_cases hf : y.q.items.length = y.q.cap
    · obtain ⟨h1, h2⟩ := hA hf
      simp [h1, h2, Res.map', StepRel]
    · obtain ⟨h2, w', h1, hR⟩ := hB hf
      simp only [h1, h2, Res.map', StepRel, and_true, ne_eq, reduceCtorEq, not_false_iff, h.conts]
      refine { hR with ev := ?_, conts := rfl, rc3Ok := ?_, gc2Ok := ?_ }
      · refine EvInv.mono (hR.ev.perm ?_) (puts' := putsOf (Cont.rc3 ao e :: a.conts.eraseIdx k)) ?_
        · unfold holders posted
          simp only [List.map_cons, Cont.evt]
          exact (eraseIdx_perm ht).symm.append_left _
        · intro j x hx
          have : Cont.put j x ∈ a.conts.eraseIdx k := by simpa [putsOf] using hx
          exact hsub this
      · intro o x hx
        rcases List.mem_cons.mp hx with h3 | h3
        · cases h3
          have hlt : ao < a.aos.length := (List.getElem?_eq_some_iff.mp hy).1
          exact ⟨_, List.getElem?_set_self hlt, by simp⟩
        · exact hR.rc3Ok o x (hsub h3)
      · intro x hx; exact h.gc2Ok x (hsub (by simpa using hx))
  | rc3 o e =>
    simp only [Cont.evt] at hev hperm
    have hin : e ∈ a.aos.flatMap (·.q.items) := by
      obtain ⟨z, hz, hzi⟩ := h.rc3Ok o e htm
      exact List.mem_flatMap.mpr ⟨z, List.mem_of_getElem? hz, hzi⟩
    have hpos : 0 < (holders { a with conts := a.conts.eraseIdx k }).count e := by
      rw [List.count_pos_iff]
      unfold holders
      simp only [List.mem_append]
      exact .inl (.inl (.inl (.inl hin)))
    have hcnt : (holders a).count e = (holders { a with conts := a.conts.eraseIdx k }).count e + 1 := by
      rw [hperm.count_eq, List.count_cons_self]
    have hold := h.ev.hold e (hperm.symm.subset (by simp))
    simp only [resumeCont, Spec.resumeCont, recall3]
    by_cases hs : c.static e = true
    · have hz : (w.hdr e).nref = 0 := by rw [h.ev.hdrS e hs]
      simp only [hz, ne_eq, not_true_eq_false, if_false, Res.map', StepRel, and_true, reduceCtorEq, not_false_iff]
      refine { h with ev := ?_, conts := by simp [h.conts], rc3Ok := fun o x hx => h.rc3Ok o x (hsub hx), gc2Ok := fun x hx => h.gc2Ok x (hsub hx) }
      exact (hev.dropStatic hs).mono (fun i x hx => hsub hx)
    · obtain ⟨i, hi⟩ := hold.2.resolve_left hs
      have hhdr := h.ev.hdrU i e hi
      have hn : (w.hdr e).nref > 1 := by rw [hhdr]; simp only; omega
      have hn0 : (w.hdr e).nref ≠ 0 := by omega
      simp only [hn0, ne_eq, not_false_iff, if_true, hn, decide_true, assertIf_true, Res.bind'_ok, Res.map', StepRel, and_true,
        reduceCtorEq]
      refine { h with ev := ?_, conts := by simp [setHdr, h.conts], rc3Ok := fun o x hx => h.rc3Ok o x (hsub hx), gc2Ok := fun x hx => h.gc2Ok x (hsub hx) }
      have := (hev.drop hpos).resolve_right hs
      exact this.mono (fun i x hx => hsub hx)

/-- Every operation is simulated and no legal operation is undefined. -/
theorem sim_step (wf : Wf c) (h : R c w a) (op : Op) (hl : Legal c a op) : Sim c w a op := by
  cases op with
  | activate p mem n => exact sim_activate wf h p mem n hl
  | terminate ao => exact sim_terminate wf h ao hl
  | newDefer mem n => exact sim_newDefer h mem n hl
  | regPool m s n es => exact sim_regPool wf h m s n es hl
  | alloc n sig => exact sim_alloc wf h n sig
  | postFifo ao e => exact sim_postFifo wf h ao e hl
  | postLifo ao e => exact sim_postLifo wf h ao e hl
  | defer i e => exact sim_defer wf h i e hl
  | recall ao i => exact sim_recall wf h ao i hl
  | reserve e => exact sim_reserve h e hl
  | gc e => exact sim_gc h e hl
  | subscribe ch ao => exact sim_subscribe wf h true ch ao hl
  | unsubscribe ch ao => exact sim_subscribe wf h false ch ao hl
  | unsubscribeAll ao => exact sim_unsubscribeAll wf h ao hl
  | publish ch e s => exact sim_publish wf h ch e s hl
  | select => exact sim_select h hl
  | fetch => exact sim_fetch wf h hl
  | done => exact sim_done h hl
  | take ao => exact sim_take wf h ao hl
  | resume k => exact sim_resume wf h k hl
  | numUsed i => exact sim_numUsed h i hl

end Verif.Fwk
