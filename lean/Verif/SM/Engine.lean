import Verif.SM.Stages
/-
Helper lemmas: the engine follows the reference semantics.
-/
namespace Verif.SM
open Eng Spec

/-! ### States to enter -/

theorem addTargetLoop_path {m : Machine} {c : List Vid} : ∀ {b : List Vid} {stx : Option Vid} {f : Nat} {acc : List Vid},
    (b = [] ∧ stx = c.head? ∨ ∃ x, stx = some x ∧ Path m x (b ++ c) ∧ b ≠ []) → acc.length + b.length ≤ m.maxDepth →
    addTargetLoop m c.head? f stx acc = .stop .fuel ∨ addTargetLoop m c.head? f stx acc = .ok (acc ++ b) := by
  intro b
  induction b with
  | nil =>
    intro stx f acc h _
    rcases h with ⟨_, rfl⟩ | ⟨_, _, _, h⟩
    · cases f with
      | zero => exact .inl rfl
      | succ f => exact .inr (by simp [addTargetLoop])
    · exact absurd rfl h
  | cons y b ih =>
    intro stx f acc h hd
    rcases h with ⟨h, _⟩ | ⟨x, rfl, hx, _⟩
    · simp at h
    · cases f with
      | zero => exact .inl rfl
      | succ f =>
        have hy : x = y := by obtain ⟨r, hr⟩ := hx.cons; simp at hr; exact hr.1.symm
        subst hy
        have hne : ¬ some x = c.head? := by
          intro he
          cases c with
          | nil => simp at he
          | cons z c =>
            simp only [List.head?_cons, Option.some.injEq] at he
            subst he
            exact hx.self_not_mem (by simp)
        unfold addTargetLoop
        rw [if_neg hne]
        simp only
        simp only [List.length_cons] at hd
        rw [if_pos (by omega)]
        have hpar : m.parent x = some (b ++ c).head? := hx.parent_head
        rw [hpar]
        simp only
        have := ih (stx := (b ++ c).head?) (f := f) (acc := acc ++ [x]) (by
          cases b with
          | nil => exact .inl ⟨rfl, rfl⟩
          | cons z b => exact .inr ⟨z, rfl, hx.suffix (a := [x]) rfl, by simp⟩) (by simp; omega)
        simpa using this

theorem addTarget_path {m : Machine} {f : Nat} {ts : Vid} {b c : List Vid} (h : Path m ts (b ++ c))
    (hd : (b ++ c).length ≤ m.maxDepth) :
    addTarget m f ts c.head? = .stop .fuel ∨ addTarget m f ts c.head? = .ok b := by
  have key : addTargetLoop m c.head? f (some ts) [] = .stop .fuel ∨
      addTargetLoop m c.head? f (some ts) [] = .ok b := by
    have := addTargetLoop_path (m := m) (c := c) (b := b) (stx := some ts) (f := f) (acc := []) (by
      cases b with
      | nil =>
        obtain ⟨r, hr⟩ := h.cons
        simp only [List.nil_append] at hr
        exact .inl ⟨rfl, by rw [hr]; rfl⟩
      | cons y b => exact .inr ⟨ts, rfl, h, by simp⟩) (by simp at hd ⊢; omega)
    simpa using this
  unfold addTarget
  rcases h.isState.cases with (⟨p, t, hv⟩ | ⟨p, hv⟩) | ⟨p, t, d, i, k, hv⟩ <;> simp only [hv] <;> exact key

/-! ### Following a path -/

/-- The history variables agree with a reference. -/
def Agree (m : Machine) (hist hist' : Vid → Option Vid) : Prop :=
  ∀ h d p trn, m.vert h = some (.hist d p trn) → hist h = hist' h

/-- A reference for histories refers to states inside the right composite. -/
def Inside (m : Machine) (hist : Vid → Option Vid) : Prop :=
  ∀ h d p trn v, m.vert h = some (.hist d (some p) trn) → hist h = some v → Below m p v

/-- Where the path of a default transition of `c` may lead. -/
def Good (m : Machine) (c v : Vid) : Prop :=
  v = c ∨ Below m c v ∨ (∀ x, Reach m v x → (IsState m x → Below m c x) ∧
      ∀ k q trn, m.vert x = some (.hist k q trn) → q = some c)

theorem Good.state {m : Machine} {c v : Vid} (h : Good m c v) (hs : IsState m v) : v = c ∨ Below m c v := by
  rcases h with h | h | h
  · exact .inl h
  · exact .inr h
  · exact .inr ((h v .refl).1 hs)

theorem precheck_wp {m : Machine} (lim : Limits m) (wf : WellFormed m) {f : Nat} {micro : Bool} {w stn : Vid}
    {Q : Unit → Mem → Prop} {R : Stop → Mem → Prop} {s : Mem} (hR : ∀ s', R .fuel s') (ht : IsTarget m w)
    (hg : micro = true → IsState m stn ∧ Good m stn w) (hQ : Q () s) : wp (precheck m f micro w stn) Q R s := by
  unfold precheck
  cases micro with
  | false => exact hQ
  | true =>
    simp only [if_true, wp_bind]
    obtain ⟨hs, hg⟩ := hg rfl
    obtain ⟨lc, hlc⟩ := wf.path stn hs
    by_cases hw : IsState m w
    · obtain ⟨b, hb⟩ : ∃ b, Path m w (b ++ lc) := by
        rcases hg.state hw with rfl | hbel
        · exact ⟨[], hlc⟩
        · obtain ⟨l, hl⟩ := wf.path w hw
          obtain ⟨b, _, rfl⟩ := hbel.path hl hlc
          exact ⟨b, hl⟩
      have hcmp : some stn = lc.head? := by obtain ⟨r, rfl⟩ := hlc.cons; rfl
      rw [hcmp]
      rcases addTarget_path (f := f) hb (lim.depth _ _ hb) with h | h <;> rw [h]
      · exact hR _
      · exact hQ
    · obtain ⟨x, hx, hne⟩ := ht
      have : addTarget m f w (some stn) = .ok [] := by
        unfold addTarget
        have hst : ∀ p, m.parent w ≠ some p := fun p hp => hw ⟨p, hp⟩
        unfold Machine.parent at hst
        rw [hx] at hst ⊢
        cases x <;> simp_all
      rw [this]
      exact hQ

theorem takeBranch_wp {m : Machine} {env : Env} {e : Sig} {tbl : List Tr} {al : List Act}
    (htgt : ∀ t ∈ branches tbl, ∃ w, t.target = some w ∧ IsTarget m w) {Q : Vid × List Act → Mem → Prop}
    {R : Stop → Mem → Prop} {s : Mem}
    (hQ : ∀ t w l, Branch env e tbl s.log t l → t ∈ branches tbl → al.length < m.maxSegs → t.target = some w → IsTarget m w →
      Q (w, al ++ t.action.toList) { s with log := l })
    (hn : ∀ l, GuardsFalse env e ((branches tbl).map Tr.guard) s.log l → R (.rc .cndNFound) { s with log := l })
    (hf : ∀ t l, Branch env e tbl s.log t l → m.maxSegs ≤ al.length → R (shown m .exTseg) { s with log := l }) :
    wp (takeBranch m env e tbl al) Q R s := by
  unfold takeBranch
  rw [wp_bind]
  refine findBranch_wp (fun t l h => ?_) (fun l h => ?_)
  · simp only
    have hm : t ∈ branches tbl := by obtain ⟨pre, post, _, he, _⟩ := h; rw [he]; simp
    obtain ⟨w, hw, hwt⟩ := htgt t hm
    rw [wp_bind, pushAct_wp]
    split
    · rw [hw]
      exact hQ t w l h hm (by assumption) hw hwt
    · exact hf t l h (by omega)
  · exact hn l h

theorem takeHist_wp {m : Machine} (wf : WellFormed m) {env : Env} {e : Sig} {h : Vid} {d : Bool} {par : Option Vid}
    {trn : Tr} (hv : m.vert h = some (.hist d par trn)) {al : List Act} {Q : Vid × Vid × List Act → Mem → Prop}
    {R : Stop → Mem → Prop} {s : Mem}
    (hrestore : ∀ p w, par = some p → s.hist h = some w → Q (p, w, al) s)
    (howner : ∀ p, par = some p → IsComposite m p → s.hist h = none → trn.target = none → Q (p, p, al) s)
    (hdefault : ∀ p w l, par = some p → s.hist h = none → trn.target = some w → IsTarget m w →
      GuardTrue env e trn.guard s.log l → al.length < m.maxSegs → Q (p, w, al ++ trn.action.toList) { s with log := l })
    (hno : ∀ w l, s.hist h = none → trn.target = some w → GuardsFalse env e [trn.guard] s.log l →
      R (.rc .grdFalse) { s with log := l })
    (hfull : ∀ w l, s.hist h = none → trn.target = some w → GuardTrue env e trn.guard s.log l →
      m.maxSegs ≤ al.length → R (shown m .exTseg) { s with log := l }) :
    wp (takeHist m env e h par trn al) Q R s := by
  obtain ⟨c, rfl, ⟨q, t, dd, i, hc⟩, htgt⟩ := wf.hist h d par trn hv
  unfold takeHist
  simp only [hc]
  rw [if_neg (by simp), wp_bind, wp_get]
  rcases hh : s.hist h with _ | w
  · simp only
    rcases ht : trn.target with _ | w
    · exact howner c rfl ⟨q, t, dd, i, some h, hc⟩ hh ht
    · simp only
      rw [wp_bind]
      refine evalGuard_wp (fun l hl => ?_) (fun l hl => ?_)
      · simp only
        rw [wp_bind, pushAct_wp]
        split
        · exact hdefault c w l rfl hh ht (htgt w ht) hl (by assumption)
        · exact hfull w l hh ht hl (by omega)
      · exact hno w l hh ht hl
  · exact hrestore c w rfl hh

theorem Spec.IsState.isTarget {m : Machine} {v : Vid} (h : IsState m v) : IsTarget m v := by
  rcases h.cases with (⟨p, t, hv⟩ | ⟨p, hv⟩) | ⟨p, t, d, i, k, hv⟩ <;> exact ⟨_, hv, by simp⟩

theorem resolve_wp {m : Machine} (wf : WellFormed m) (lim : Limits m) {env : Env} {e : Sig} {micro : Bool}
    {hist : Vid → Option Vid} (hin : Inside m hist) {Q : Vid × Vid × List Act → Mem → Prop}
    {R : Stop → Mem → Prop} (hR : ∀ s', R .fuel s') : ∀ {f : Nat} {stn v : Vid} {pend : List Act} {s : Mem},
    Agree m s.hist hist → IsTarget m v → (micro = true → IsState m stn ∧ Good m stn v) →
    (∀ st ts pend' log', Follows m env e hist v pend s.log ts pend' log' → IsState m ts →
      (micro = true → st = stn ∧ (ts = stn ∨ Below m stn ts)) → Q (st, ts, pend') { s with log := log' }) →
    (∀ c log', Stuck m env e hist v pend s.log c log' → R (shown m c) { s with log := log' }) →
    wp (resolve m env e micro f stn v pend) Q R s := by
  intro f
  induction f with
  | zero => intro stn v pend s _ _ _ _ _; exact hR _
  | succ f ih =>
    intro stn v pend s hag htgt hg hQ hS
    obtain ⟨x, hx, hne⟩ := htgt
    have hstate : IsState m v → wp (pure (stn, v, pend) : Eng _) Q R s := fun hs =>
      hQ stn v pend s.log (.state hs) hs fun hmi => ⟨rfl, (hg hmi).2.state hs⟩
    unfold resolve
    rw [hx]
    cases x with
    | basic p t => exact hstate ⟨p, by simp [Machine.parent, hx]⟩
    | composite p t d i h => exact hstate ⟨p, by simp [Machine.parent, hx]⟩
    | final p => exact hstate ⟨p, by simp [Machine.parent, hx]⟩
    | unknown => exact absurd rfl hne
    | cond tbl =>
      simp only [wp_bind]
      refine takeBranch_wp (fun t ht => wf.cond v tbl t hx ht) (fun t w l hb hm hlen hw hwt => ?_) (fun l hl => ?_)
        (fun t l hb hfull => ?_)
      · have hg' : micro = true → IsState m stn ∧ Good m stn w := by
          intro hmi
          obtain ⟨h1, h2⟩ := hg hmi
          refine ⟨h1, ?_⟩
          rcases h2 with rfl | h2 | h2
          · obtain ⟨p, hp⟩ := h1; simp [Machine.parent, hx] at hp
          · obtain ⟨p, hp⟩ := h2.isState; simp [Machine.parent, hx] at hp
          · exact .inr (.inr fun y hy => h2 y (.cond hx hm hw hy))
        refine precheck_wp lim wf hR hwt hg' (ih hag hwt hg' (fun st ts pend' log' hfo => ?_) fun c log' hst => ?_)
        · exact hQ st ts pend' log' (.cond hx hb hlen hw hfo)
        · exact hS c log' (.cond hx hb hlen hw hst)
      · exact hS .cndNFound l (.noCond hx hl)
      · exact hS .exTseg l (.fullCond hx hb hfull)
    | choice tbl =>
      simp only [wp_bind, exec_wp]
      refine takeBranch_wp (fun t ht => wf.choice v tbl t hx ht) (fun t w l hb hm hlen hw hwt => ?_) (fun l hl => ?_)
        (fun t l hb hfull => ?_)
      · have hg' : micro = true → IsState m stn ∧ Good m stn w := by
          intro hmi
          obtain ⟨h1, h2⟩ := hg hmi
          refine ⟨h1, ?_⟩
          rcases h2 with rfl | h2 | h2
          · obtain ⟨p, hp⟩ := h1; simp [Machine.parent, hx] at hp
          · obtain ⟨p, hp⟩ := h2.isState; simp [Machine.parent, hx] at hp
          · exact .inr (.inr fun y hy => h2 y (.choice hx hm hw hy))
        refine precheck_wp lim wf hR hwt hg' (ih hag hwt hg' (fun st ts pend' log' hfo => ?_) fun c log' hst => ?_)
        · exact hQ st ts pend' log' (.choice hx hb hw (by simpa using hfo))
        · exact hS c log' (.choice hx hb hw (by simpa using hst))
      · exact hS .cndNFound l (.noChoice hx hl)
      · have := lim.segs; simp at hfull; omega
    | hist d p trn =>
      simp only [wp_bind]
      have hown : micro = true → ∀ c, p = some c → c = stn := by
        intro hmi c hc
        obtain ⟨h1, h2⟩ := hg hmi
        rcases h2 with rfl | h2 | h2
        · obtain ⟨q, hq⟩ := h1; simp [Machine.parent, hx] at hq
        · obtain ⟨q, hq⟩ := h2.isState; simp [Machine.parent, hx] at hq
        · have := (h2 v .refl).2 _ _ _ hx
          rw [hc] at this
          simpa using this
      refine takeHist_wp wf hx (fun c w hc hw => ?_) (fun c hc hcomp hn ht => ?_) (fun c w l hc hn ht hwt hl hlen => ?_)
        (fun w l hn ht hl => ?_) (fun w l hn ht hl hfull => ?_)
      · have hbel : Below m c w := hin v d c trn w (by rw [← hc]; exact hx) (by rw [← hag v d p trn hx]; exact hw)
        have hg' : micro = true → IsState m c ∧ Good m c w := by
          intro hmi
          obtain ⟨h1, _⟩ := hg hmi
          rw [hown hmi c hc]
          exact ⟨h1, .inr (.inl (by rw [← hown hmi c hc]; exact hbel))⟩
        refine precheck_wp lim wf hR hbel.isState.isTarget hg'
          (ih hag hbel.isState.isTarget hg' (fun st ts pend' log' hfo hts hmi => ?_) fun c log' hst => ?_)
        · refine hQ st ts pend' log' (.restore hx (by rw [← hag v d p trn hx]; exact hw) hfo) hts fun hm => ?_
          rw [← hown hm c hc]
          exact hmi hm
        · exfalso
          have hws := hbel.isState
          rcases hws.cases with (⟨_, _, hv⟩ | ⟨_, hv⟩) | ⟨_, _, _, _, _, hv⟩ <;> cases hst <;> simp_all
      · have hg' : micro = true → IsState m c ∧ Good m c c := by
          intro hmi
          exact ⟨hcomp.isState, .inl rfl⟩
        refine precheck_wp lim wf hR hcomp.isState.isTarget hg'
          (ih hag hcomp.isState.isTarget hg' (fun st ts pend' log' hfo hts hmi => ?_) fun r log' hst => ?_)
        · refine hQ st ts pend' log' (.owner (by rw [← hc]; exact hx) (by rw [← hag v d p trn hx]; exact hn) ht hfo) hts
            fun hm => ?_
          rw [← hown hm c hc]
          exact hmi hm
        · exfalso
          obtain ⟨_, _, _, _, _, hv⟩ := hcomp
          cases hst <;> simp_all
      · have hg' : micro = true → IsState m c ∧ Good m c w := by
          intro hmi
          obtain ⟨h1, h2⟩ := hg hmi
          rw [hown hmi c hc]
          refine ⟨h1, ?_⟩
          rcases h2 with rfl | h2 | h2
          · obtain ⟨p, hp⟩ := h1; simp [Machine.parent, hx] at hp
          · obtain ⟨p, hp⟩ := h2.isState; simp [Machine.parent, hx] at hp
          · exact .inr (.inr fun y hy => h2 y (.default hx ht hy))
        refine precheck_wp lim wf hR hwt hg'
          (ih hag hwt hg' (fun st ts pend' log' hfo hts hmi => ?_) fun r log' hst => ?_)
        · refine hQ st ts pend' log' (.default hx (by rw [← hag v d p trn hx]; exact hn) ht hl hlen hfo) hts fun hm => ?_
          rw [← hown hm c hc]
          exact hmi hm
        · exact hS r log' (.default hx (by rw [← hag v d p trn hx]; exact hn) ht hl hlen hst)
      · exact hS .grdFalse l (.noDefault hx (by rw [← hag v d p trn hx]; exact hn) ht hl)
      · exact hS .exTseg l (.fullDefault hx (by rw [← hag v d p trn hx]; exact hn) ht hl hfull)

end Verif.SM
