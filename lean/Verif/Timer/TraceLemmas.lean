import Verif.Timer.Trace
import Verif.Timer.Lemmas
/-
Lemmas about the traced timers: without the records they are the timers of `Timer.Model`; which records a tick writes.
-/
namespace Verif.Timer
open Verif

@[simp] theorem itemPosts_nil : itemPosts [] = [] := rfl
@[simp] theorem itemPosts_trc (r : TRec) (l : List Item) : itemPosts (.trc r :: l) = itemPosts l := rfl
@[simp] theorem itemPosts_post (p : Post) (l : List Item) : itemPosts (.post p :: l) = p :: itemPosts l := rfl
@[simp] theorem itemPosts_append (l l' : List Item) : itemPosts (l ++ l') = itemPosts l ++ itemPosts l' := by simp [itemPosts]
@[simp] theorem recsOf_nil : recsOf [] = [] := rfl
@[simp] theorem recsOf_trc (r : TRec) (l : List Item) : recsOf (.trc r :: l) = r :: recsOf l := rfl
@[simp] theorem recsOf_post (p : Post) (l : List Item) : recsOf (.post p :: l) = recsOf l := rfl
@[simp] theorem recsOf_append (l l' : List Item) : recsOf (l ++ l') = recsOf l ++ recsOf l' := by simp [recsOf]

/-! ### Erasure -/

theorem erase_rem (s : St) (t tprev : Nat) : (tRemFromList s t tprev).map' Prod.fst = remFromList s t tprev := by
  unfold tRemFromList; rcases remFromList s t tprev with _ | _ | _ <;> rfl

theorem rem_quiet {s s' : St} {t tprev : Nat} {l : List Item} (h : tRemFromList s t tprev = .ok (s', l)) :
    remFromList s t tprev = .ok s' ∧ l = [.trc (.rem t)] := by
  unfold tRemFromList at h
  rw [Res.map'_eq_ok] at h
  obtain ⟨x, h1, h2⟩ := h
  simp only [Prod.mk.injEq] at h2
  rw [← h2.1, ← h2.2]
  exact ⟨h1, rfl⟩

theorem erase_search (c : Cfg) (s : St) (t : Nat) : (tSearchAndRemove c s t).map' Prod.fst = searchAndRemove c s t := by
  unfold tSearchAndRemove searchAndRemove
  rcases searchLoop s t c.fuel 0 s.thead with ⟨a, b⟩ | _ | _
  · show ((if b ≠ 0 then tRemFromList s b a else .ok (s, [])).map' Prod.fst : Res St) = if b ≠ 0 then remFromList s b a else pure s
    split
    · exact erase_rem s b a
    · rfl
  · rfl
  · rfl

theorem search_quiet {c : Cfg} {s s' : St} {t : Nat} {l : List Item} (h : tSearchAndRemove c s t = .ok (s', l)) :
    searchAndRemove c s t = .ok s' ∧ itemPosts l = [] := by
  refine ⟨by rw [← erase_search, h]; rfl, ?_⟩
  unfold tSearchAndRemove at h
  rw [Res.bind'_eq_ok] at h
  obtain ⟨x, _, h2⟩ := h
  split at h2
  · rw [(rem_quiet h2).2]; rfl
  · simp only [Res.ok.injEq, Prod.mk.injEq] at h2; rw [← h2.2]; rfl

theorem erase_init (c : Cfg) (sig : Nat → Nat) (s : St) (t e : Nat) : (tInit c sig s t e).map' Prod.fst = init c s t e := by
  unfold tInit init
  rcases assertIf c.assertEn (decide (t ≠ 0 ∧ e ≠ 0)) with _ | _ | _
  · simp only [Res.bind'_ok, Res.bind_ok]
    have := erase_search c s t
    split
    · rw [← this]; rcases tSearchAndRemove c s t with ⟨_, _⟩ | _ | _ <;> rfl
    · rfl
  · rfl
  · rfl

theorem erase_start (c : Cfg) (s : St) (t sma i p : Nat) : (tStart c s t sma i p).map' Prod.fst = start c s t sma i p := by
  unfold tStart; rcases start c s t sma i p with _ | _ | _ <;> rfl

theorem erase_stop (c : Cfg) (s : St) (t : Nat) : (tStop c s t).map' Prod.fst = stop c s t := by
  unfold tStop stop
  rcases assertIf c.assertEn (decide (t ≠ 0)) with _ | _ | _
  · simp only [Res.bind'_ok, Res.bind_ok]
    have := erase_search c (s.put t { s.heap t with ntick := 0 }) t
    split
    · rw [← this]; rcases tSearchAndRemove c (s.put t { s.heap t with ntick := 0 }) t with ⟨_, _⟩ | _ | _ <;> rfl
    · rfl
  · rfl
  · rfl

theorem stop_quiet {c : Cfg} {s : St} {r : St × Bool} {t : Nat} {l : List Item} (h : tStop c s t = .ok (r, l)) :
    stop c s t = .ok r ∧ itemPosts l = [] := by
  refine ⟨by rw [← erase_stop, h]; rfl, ?_⟩
  unfold tStop at h
  rw [Res.bind'_eq_ok] at h
  obtain ⟨_, _, h2⟩ := h
  dsimp only at h2
  split at h2
  · rw [Res.bind'_eq_ok] at h2
    obtain ⟨x, h3, h4⟩ := h2
    simp only [Res.ok.injEq, Prod.mk.injEq] at h4
    rw [← h4.2]
    exact (search_quiet (l := x.2) (s' := x.1) h3).2
  · simp only [Res.ok.injEq, Prod.mk.injEq] at h2; rw [← h2.2]; rfl

theorem erase_calls (c : Cfg) : ∀ (l : List Call) (s : St), (tRunCalls c s l).map' Prod.fst = runCalls c s l := by
  intro l
  induction l with
  | nil => intro s; rfl
  | cons k l ih =>
    intro s
    cases k with
    | start t sma i p =>
      simp only [tRunCalls, runCalls, ← erase_start]
      rcases tStart c s t sma i p with ⟨s1, _⟩ | _ | _
      · simp only [Res.bind'_ok, Res.map', ← ih]; rcases tRunCalls c s1 l with ⟨_, _⟩ | _ | _ <;> rfl
      · rfl
      · rfl
    | stop t =>
      simp only [tRunCalls, runCalls, ← erase_stop]
      rcases tStop c s t with ⟨⟨s1, _⟩, _⟩ | _ | _
      · simp only [Res.bind'_ok, Res.map', ← ih]; rcases tRunCalls c s1 l with ⟨_, _⟩ | _ | _ <;> rfl
      · rfl
      · rfl

theorem calls_quiet {c : Cfg} : ∀ {l : List Call} {s s' : St} {i : List Item}, tRunCalls c s l = .ok (s', i) → itemPosts i = [] := by
  intro l
  induction l with
  | nil => intro s s' i h; simp only [tRunCalls, Res.ok.injEq, Prod.mk.injEq] at h; rw [← h.2]; rfl
  | cons k l ih =>
    intro s s' i h
    cases k with
    | start t sma n p =>
      simp only [tRunCalls, Res.bind'_eq_ok] at h
      obtain ⟨r, h1, q, h2, h3⟩ := h
      simp only [Res.ok.injEq, Prod.mk.injEq] at h3
      unfold tStart at h1
      rw [Res.map'_eq_ok] at h1
      obtain ⟨x, _, h5⟩ := h1
      rw [← h3.2, ← h5, itemPosts_append, ih h2]
      rfl
    | stop t =>
      simp only [tRunCalls, Res.bind'_eq_ok] at h
      obtain ⟨r, h1, q, h2, h3⟩ := h
      simp only [Res.ok.injEq, Prod.mk.injEq] at h3
      rw [← h3.2, itemPosts_append, ih h2, (stop_quiet (r := r.1) (l := r.2) h1).2]
      rfl

theorem erase_tickLoop (c : Cfg) (sig : Nat → Nat) (hook : Nat → List Call) : ∀ (fuel : Nat) (s : St) (tprev t : Nat),
    (tTickLoop c sig hook fuel s tprev t).map' (fun r => (r.1, itemPosts r.2)) = tickLoop c hook fuel s tprev t := by
  intro fuel
  induction fuel with
  | zero => intro s tprev t; rfl
  | succ fuel ih =>
    intro s tprev t
    simp only [tTickLoop, tickLoop]
    split
    · rfl
    split
    · rw [← erase_rem]
      rcases hx : tRemFromList s t tprev with ⟨s1, l⟩ | _ | _
      · simp only [Res.bind'_ok, Res.map', ← ih]
        rw [(rem_quiet hx).2]
        rcases tTickLoop c sig hook fuel s1 tprev (s1.heap t).tnext with ⟨_, _⟩ | _ | _ <;> rfl
      · rfl
      · rfl
    · generalize s.put t { s.heap t with ntick := ((s.heap t).ntick + (c.W - 1)) % c.W } = s1
      split
      · have key : ∀ (s2 : St) (tp : Nat) (l : List Item) (r0 : TRec), itemPosts l = [] →
            ((tRunCalls c s2 (hook t)).bind fun k =>
              (tTickLoop c sig hook fuel k.1 tp (k.1.heap t).tnext).bind fun q =>
                .ok (q.1, Item.trc r0 :: l ++ k.2 ++ .post ⟨t, (k.1.heap t).sma, (k.1.heap t).evt⟩ :: q.2)).map'
              (fun r => (r.1, itemPosts r.2)) =
            (runCalls c s2 (hook t)).bind fun s =>
              (tickLoop c hook fuel s tp (s.heap t).tnext).bind fun x =>
                .ok (x.1, (⟨t, (s.heap t).sma, (s.heap t).evt⟩ : Post) :: x.2) := by
          intro s2 tp l r0 hl
          rw [← erase_calls]
          rcases hk : tRunCalls c s2 (hook t) with ⟨s3, i⟩ | _ | _
          · simp only [Res.bind'_ok, Res.map', ← ih]
            rcases tTickLoop c sig hook fuel s3 tp (s3.heap t).tnext with ⟨_, _⟩ | _ | _
            · simp [Res.map', hl, calls_quiet hk]
            · rfl
            · rfl
          · rfl
          · rfl
        split
        · rw [← erase_rem]
          rcases hx : tRemFromList s1 t tprev with ⟨s2, l⟩ | _ | _
          · simp only [Res.bind'_ok, Res.map']
            exact key s2 tprev l _ (by rw [(rem_quiet hx).2]; rfl)
          · rfl
          · rfl
        · simp only [Res.bind'_ok]
          exact key _ t [] _ rfl
      · exact ih s1 t _

theorem erase_tick (c : Cfg) (sig : Nat → Nat) (hook : Nat → List Call) (s : St) :
    (tTick c sig hook s).map' (fun r => (r.1, itemPosts r.2)) = tick c hook s := erase_tickLoop c sig hook c.fuel s 0 s.thead

theorem erase_step (c : Cfg) (sig : Nat → Nat) (s : St) (op : Op) :
    (tstep c sig s op).map' (fun r => (r.1, r.2.1)) = step c s op := by
  cases op with
  | init t e => simp only [tstep, step, ← erase_init c sig]; rcases tInit c sig s t e with ⟨_, _⟩ | _ | _ <;> rfl
  | start t sma i p => simp only [tstep, step, ← erase_start]; rcases tStart c s t sma i p with ⟨_, _⟩ | _ | _ <;> rfl
  | stop t => simp only [tstep, step, ← erase_stop]; rcases tStop c s t with ⟨⟨_, _⟩, _⟩ | _ | _ <;> rfl
  | tick => simp only [tstep, step, ← erase_tick c sig]; rcases tTick c sig (fun _ => []) s with ⟨_, _⟩ | _ | _ <;> rfl

/-! ### The records of removals and ticks -/

theorem search_items {c : Cfg} {s : St} {t : Nat} {L : List Nat} (ht : t ≠ 0) (hc : Chain s.heap s.thead L)
    (hf : L.length < c.fuel) {s' : St} {l : List Item} (h : tSearchAndRemove c s t = .ok (s', l)) :
    l = if t ∈ L then [.trc (.rem t)] else [] := by
  unfold tSearchAndRemove at h
  have hp : prevOf [] = 0 := rfl
  rcases searchLoop_ok ht L [] s.thead c.fuel hc hf with ⟨h1, q, h2⟩ | ⟨r1, r2, h1, h2⟩
  · rw [hp] at h2
    rw [h2] at h
    simp only [Res.bind'_ok, ne_eq, not_true_eq_false, if_false, Res.ok.injEq, Prod.mk.injEq] at h
    rw [if_neg h1, h.2]
  · rw [hp] at h2
    rw [h2] at h
    simp only [Res.bind'_ok, ne_eq, ht, not_false_eq_true, if_true] at h
    rw [(rem_quiet h).2, if_pos (by rw [h1]; simp)]

/-- What a tick shows about one expiry. -/
def block (sig per : Nat → Nat) (p : Post) : List Item :=
  .trc (.tout p.tmr (sig p.evt) p.sma) :: (if per p.tmr = 0 then [.trc (.rem p.tmr)] else []) ++ [.post p]

theorem rem_keeps {s s' : St} {t tprev : Nat} (h : remFromList s t tprev = .ok s') :
    (∀ x, (s'.heap x).period = (s.heap x).period ∧ (s'.heap x).evt = (s.heap x).evt ∧ (s'.heap x).sma = (s.heap x).sma) ∧
    (∀ x, x ≠ t → x ≠ tprev → s'.heap x = s.heap x) ∧ (t ≠ tprev → (s'.heap t).tnext = (s.heap t).tnext) := by
  unfold remFromList at h
  split at h
  · simp only [Res.ok.injEq] at h
    subst h
    refine ⟨fun x => ?_, fun x hx _ => put_ne _ _ hx, fun _ => by simp⟩
    by_cases hx : x = t
    · subst hx; simp
    · simp [put_ne _ _ hx]
  split at h
  · cases h
  · simp only [Res.ok.injEq] at h
    subst h
    refine ⟨fun x => ?_, fun x hx hx' => ?_, fun hne => ?_⟩
    · by_cases hx : x = t
      · subst hx
        by_cases hx' : x = tprev
        · subst hx'; simp
        · simp [put_ne _ _ hx']
      · rw [put_ne _ _ hx]
        by_cases hx' : x = tprev
        · subst hx'; simp
        · simp [put_ne _ _ hx']
    · rw [put_ne _ _ hx, put_ne _ _ hx']
    · simp [put_ne _ _ hne]

theorem tick_items {c : Cfg} {sig per : Nat → Nat} : ∀ (fuel : Nat) (rest : List Nat) (s s' : St) (tprev p : Nat) (items : List Item),
    Chain s.heap p rest → rest.Nodup → tprev ∉ rest → (∀ x ∈ rest, (s.heap x).used ≠ 0) → (∀ x, (s.heap x).period = per x) →
    tTickLoop c sig (fun _ => []) fuel s tprev p = .ok (s', items) → items = (itemPosts items).flatMap (block sig per) := by
  intro fuel
  induction fuel with
  | zero => intro rest s s' tprev p items _ _ _ _ _ h; cases h
  | succ fuel ih =>
    intro rest s s' tprev p items hc hnd htp hu hper h
    cases rest with
    | nil =>
      have hc : p = 0 := hc
      subst hc
      simp only [tTickLoop, if_true, Res.ok.injEq, Prod.mk.injEq] at h
      rw [← h.2]; rfl
    | cons t rest =>
      obtain ⟨h1, h2, h3⟩ := hc
      subst h1
      obtain ⟨hn1, hn2⟩ := List.nodup_cons.mp hnd
      have htp' : tprev ≠ p ∧ tprev ∉ rest := by simpa using htp
      simp only [tTickLoop, if_neg h2, if_neg (hu p (by simp))] at h
      generalize hs1 : s.put p { s.heap p with ntick := ((s.heap p).ntick + (c.W - 1)) % c.W } = s1 at h
      have g1 : (∀ x, (s1.heap x).period = per x) ∧ (∀ x, x ≠ p → s1.heap x = s.heap x) ∧ (s1.heap p).tnext = (s.heap p).tnext := by
        subst hs1
        refine ⟨fun x => ?_, fun x hx => put_ne _ _ hx, by simp⟩
        rw [← hper x]
        by_cases hx : x = p
        · subst hx; simp
        · rw [put_ne _ _ hx]
      have c1 : Chain s1.heap (s1.heap p).tnext rest := by
        rw [g1.2.2]
        exact h3.congr fun x hx => by rw [g1.2.1 x (fun e => hn1 (e ▸ hx))]
      have u1 : ∀ x ∈ rest, (s1.heap x).used ≠ 0 := fun x hx => by
        rw [g1.2.1 x (fun e => hn1 (e ▸ hx))]; exact hu x (by simp [hx])
      split at h
      · have fin : ∀ (s2 : St) (tp : Nat) (l : List Item), (∀ x, (s2.heap x).period = per x) → Chain s2.heap (s2.heap p).tnext rest →
            (∀ x ∈ rest, (s2.heap x).used ≠ 0) → tp ∉ rest → (s2.heap p).evt = (s1.heap p).evt → (s2.heap p).sma = (s1.heap p).sma →
            l = (if per p = 0 then [.trc (.rem p)] else []) →
            ((tTickLoop c sig (fun _ => []) fuel s2 tp (s2.heap p).tnext).bind fun q =>
                .ok (q.1, Item.trc (.tout p (sig (s1.heap p).evt) (s1.heap p).sma) :: l ++ [] ++
                  .post ⟨p, (s2.heap p).sma, (s2.heap p).evt⟩ :: q.2)) = .ok (s', items) →
            items = (itemPosts items).flatMap (block sig per) := by
          intro s2 tp l k1 k2 k3 k4 k5 k6 k7 hq
          rw [Res.bind'_eq_ok] at hq
          obtain ⟨⟨s3, i⟩, q1, q2⟩ := hq
          simp only [Res.ok.injEq, Prod.mk.injEq] at q2
          have hi := ih rest s2 s3 tp _ i k2 hn2 k4 k3 k1 q1
          have hl : itemPosts l = [] := by rw [k7]; split <;> rfl
          rw [← q2.2]
          simp only [List.append_nil, List.cons_append, itemPosts_trc, itemPosts_append, hl, List.nil_append, itemPosts_post, List.flatMap_cons]
          rw [← hi]
          simp only [block, k5, k6, k7, List.append_assoc, List.cons_append, List.nil_append]
        have hp0 : (s1.heap p).period = per p := g1.1 p
        split at h
        · rename_i hper0
          rw [Res.bind'_eq_ok] at h
          obtain ⟨⟨s2, tp, l⟩, h4, h5⟩ := h
          rw [Res.bind'_eq_ok] at h4
          obtain ⟨⟨s2', l'⟩, h6, h7⟩ := h4
          simp only [Res.ok.injEq, Prod.mk.injEq] at h7
          obtain ⟨e1, e2, e3⟩ := h7
          subst e1 e2 e3
          obtain ⟨h8, h9⟩ := rem_quiet h6
          obtain ⟨k1, k2, k3⟩ := rem_keeps h8
          have hq : ∀ x ∈ rest, s2'.heap x = s1.heap x := fun x hx =>
            k2 x (fun e => hn1 (e ▸ hx)) (fun e => htp'.2 (e ▸ hx))
          refine fin s2' tprev l' (fun x => (k1 x).1.trans (g1.1 x)) ?_ (fun x hx => by rw [hq x hx]; exact u1 x hx) htp'.2
            (k1 p).2.1 (k1 p).2.2 (by rw [h9, if_pos (by rw [← hp0]; exact hper0)]) h5
          rw [k3 (Ne.symm htp'.1)]
          exact c1.congr fun x hx => by rw [hq x hx]
        · rename_i hper0
          simp only [Res.bind'_ok] at h
          have hk : ∀ x, x ≠ p → (s1.put p { s1.heap p with ntick := (s1.heap p).period }).heap x = s1.heap x := fun x hx => put_ne _ _ hx
          refine fin (s1.put p { s1.heap p with ntick := (s1.heap p).period }) p [] (fun x => ?_) ?_ (fun x hx => ?_) hn1 (by simp) (by simp)
            (by rw [if_neg (by rw [← hp0]; exact hper0)]) h
          · rw [← g1.1 x]
            by_cases hx : x = p
            · subst hx; simp
            · rw [hk x hx]
          · simp only [put_same]
            exact c1.congr fun x hx => by rw [hk x (fun e => hn1 (e ▸ hx))]
          · rw [hk x (fun e => hn1 (e ▸ hx))]; exact u1 x hx
      · exact ih rest s1 s' p _ items c1 hn2 hn1 u1 g1.1 h

end Verif.Timer
