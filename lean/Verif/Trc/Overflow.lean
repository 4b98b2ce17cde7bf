import Verif.Trc.Props
/-
A host that reads the trace while records are written, and falls behind: what an overflow of the stream does to the received records.
-/
namespace Verif.Trc.Spec
open Verif

/-- The bytes `r` are the beginning of `w`, read in one go except for `k` pieces that were left out. -/
inductive Gaps : Nat → List Byte → List Byte → Prop
  | stop (w : List Byte) : Gaps 0 w []
  | read {k : Nat} {w r : List Byte} (b : Byte) : Gaps k w r → Gaps k (b :: w) (b :: r)
  | skip {k : Nat} {w r : List Byte} (x : List Byte) : Gaps k w r → Gaps (k + 1) (x ++ w) r

/-- `Damaged k rs ms`: of the records `rs` written, a host has received `ms`: the records themselves, in order, except that in `k` places
some consecutive records are missing, and at most one message that may be none of them stands there instead. The last records may not have
arrived yet. -/
inductive Damaged : Nat → List (List Byte) → List (List Byte) → Prop
  | rest (rs : List (List Byte)) : Damaged 0 rs []
  | keep {k : Nat} {rs ms : List (List Byte)} (r : List Byte) : Damaged k rs ms → Damaged k (r :: rs) (r :: ms)
  | gap {k : Nat} {rs ms : List (List Byte)} (lost x : List (List Byte)) (hx : x.length ≤ 1) : Damaged k rs ms → Damaged (k + 1) (lost ++ rs) (x ++ ms)

/-- The number of times the stream of a host that reads runs over: records that are written when they do not fit count once until something is
read again. `n` is the sequence number, `len` the number of unread bytes, `over` says that bytes were lost and nothing was read since. -/
def overflows (c : Cfg) (f : FCfg) : On → Byte → Nat → Bool → List Op → List SOut → Nat
  | a, n, len, over, op :: ops, o :: outs =>
    match op with
    | .trace k eid ts fs =>
      if emits f a k eid.toNat then
        let r := recOf k eid ts fs
        if len + (frame (raw c n r)).length ≤ c.sz then overflows c f a (nextSeq c n r) (len + (frame (raw c n r)).length) over ops outs
        else (if over then 0 else 1) + overflows c f a (nextSeq c n r) c.sz true ops outs
      else overflows c f a n len over ops outs
    | _ => overflows c f (onAfter a op) n (len - (readBytes o).length) (over && (readBytes o).isEmpty) ops outs
  | _, _, _, _, _, _ => 0

/-- A host with checksums accepts the messages whose bytes sum up to zero. -/
def accepted (bs : List Byte) : List (List Byte) := (receive bs).filter fun m => sum m == 0#8

/-- What a host computes from the sequence numbers of two records with full header: the number of records missing between them. -/
def missing (m m' : List Byte) : Nat := (m'.getD 1 0#8 - m.getD 1 0#8 - 1#8).toNat

end Verif.Trc.Spec

namespace Verif.Trc
open Verif Spec

/-! ## The receiver of a stream with gaps -/

/-- The end of a frame. -/
def Tail (t : List Byte) : Prop := ∃ u, FLG ∉ u ∧ t = u ++ [FLG]

theorem tail_frame (r : List Byte) : Tail (frame r) := ⟨_, frame_clean r, rfl⟩

theorem tail_cons {b : Byte} {t : List Byte} (h : Tail (b :: t)) : (b = FLG ∧ t = []) ∨ (b ≠ FLG ∧ Tail t) := by
  obtain ⟨u, h1, h2⟩ := h
  cases u with
  | nil => simp at h2; exact .inl h2
  | cons x u =>
    simp only [List.mem_cons, not_or, List.cons_append, List.cons.injEq] at h1 h2
    obtain ⟨rfl, rfl⟩ := h2
    exact .inr ⟨fun h => h1.1 h.symm, u, h1.2, rfl⟩

theorem tail_suffix {x t : List Byte} : ∀ {s : List Byte}, Tail s → s = x ++ t → t = [] ∨ Tail t := by
  induction x with
  | nil => intro s h hs; simp at hs; subst hs; exact .inr h
  | cons b x ih =>
    intro s h hs
    subst hs
    rcases tail_cons h with ⟨_, h1⟩ | ⟨_, h1⟩
    · simp at h1; exact .inl h1.2
    · exact ih h1 rfl

/-- A position in a sequence of frames: what is left is the end of a frame (or nothing) and whole frames. -/
theorem frames_suffix (rs : List (List Byte)) : ∀ (t x w : List Byte), (t = [] ∨ Tail t) → t ++ rs.flatMap frame = x ++ w →
    ∃ a b t', rs = a ++ b ∧ (t' = [] ∨ Tail t') ∧ w = t' ++ b.flatMap frame := by
  induction rs with
  | nil =>
    intro t x w ht h
    simp only [List.flatMap_nil, List.append_nil] at h
    refine ⟨[], [], w, rfl, ?_, by simp⟩
    rcases ht with rfl | ht
    · simp at h; exact .inl h.2
    · exact tail_suffix ht h
  | cons r rs ih =>
    intro t x w ht h
    rcases List.append_eq_append_iff.mp h with ⟨y, h1, h2⟩ | ⟨y, h1, h2⟩
    · obtain ⟨a, b, t', g1, g2, g3⟩ := ih (frame r) y w (.inr (tail_frame r)) h2
      exact ⟨r :: a, b, t', by simp [g1], g2, g3⟩
    · refine ⟨[], r :: rs, y, rfl, ?_, h2⟩
      rcases ht with rfl | ht
      · simp at h1; exact .inl h1.2
      · exact tail_suffix ht h1

theorem collect_other (cur : List Byte) (esc : Bool) {b : Byte} (h : b ≠ FLG) : ∃ cur' esc', ∀ bs, collect cur esc (b :: bs) = collect cur' esc' bs := by
  cases esc with
  | true => exact ⟨_, _, fun bs => by rw [collect, if_neg h, if_pos rfl]⟩
  | false =>
    by_cases he : b = ESC
    · exact ⟨_, _, fun bs => by rw [collect, if_neg h, if_neg (by simp), if_pos he]⟩
    · exact ⟨_, _, fun bs => by rw [collect, if_neg h, if_neg (by simp), if_neg he]⟩

theorem _root_.Verif.Trc.Spec.Damaged.more {k : Nat} {rs ms : List (List Byte)} (h : Damaged k rs ms) (lost : List (List Byte)) : Damaged (k + 1) (lost ++ rs) ms :=
  .gap lost [] (by simp) h

/-- Out of step: up to the next flag one message that may be wrong. -/
theorem out_of_step {k : Nat} {w r : List Byte} (h : Gaps k w r) : ∀ (cur : List Byte) (esc : Bool) (t : List Byte) (rs : List (List Byte)),
    (t = [] ∨ Tail t) → w = t ++ rs.flatMap frame →
    (∃ lost rest x ms, rs = lost ++ rest ∧ collect cur esc r = x ++ ms ∧ x.length ≤ 1 ∧ Damaged k rest ms) ∧
    (t = [] → cur = [] → esc = false → Damaged k rs (collect [] false r)) ∧
    (∀ r0, Tail t → collect cur esc t = [r0] → Damaged k (r0 :: rs) (collect cur esc r)) := by
  induction h with
  | stop w =>
    intro cur esc t rs ht hw
    exact ⟨⟨[], rs, [], [], rfl, by simp [collect], by simp, .rest _⟩, fun _ _ _ => by simpa [collect] using Damaged.rest rs,
      fun r0 _ _ => by simpa [collect] using Damaged.rest (r0 :: rs)⟩
  | @read k w r b h ih =>
    -- within a frame
    have inside : ∀ (cur : List Byte) (esc : Bool) (t : List Byte) (rs : List (List Byte)), Tail t → b :: w = t ++ rs.flatMap frame →
        (∃ lost rest x ms, rs = lost ++ rest ∧ collect cur esc (b :: r) = x ++ ms ∧ x.length ≤ 1 ∧ Damaged k rest ms) ∧
        (∀ r0, collect cur esc t = [r0] → Damaged k (r0 :: rs) (collect cur esc (b :: r))) := by
      intro cur esc t rs ht hw
      cases t with
      | nil => obtain ⟨u, _, hu⟩ := ht; simp at hu
      | cons b' t =>
        simp only [List.cons_append, List.cons.injEq] at hw
        obtain ⟨rfl, hw⟩ := hw
        rcases tail_cons ht with ⟨hb, rfl⟩ | ⟨hb, ht'⟩
        · subst hb
          have := (ih [] false [] rs (.inl rfl) hw).2.1 rfl rfl rfl
          refine ⟨⟨[], rs, [cur], collect [] false r, rfl, by simp [collect], by simp, this⟩, fun r0 h0 => ?_⟩
          simp only [collect, if_true, List.cons.injEq, and_true] at h0
          subst h0
          simp only [collect, if_true]
          exact .keep _ this
        · obtain ⟨cur', esc', hc⟩ := collect_other cur esc hb
          obtain ⟨g1, _, g3⟩ := ih cur' esc' t rs (.inr ht') hw
          rw [hc]
          refine ⟨g1, fun r0 h0 => g3 r0 ht' ?_⟩
          rwa [hc] at h0
    intro cur esc t rs ht hw
    rcases ht with rfl | ht
    · cases rs with
      | nil => simp at hw
      | cons r0 rs =>
        obtain ⟨g1, _⟩ := inside cur esc (frame r0) rs (tail_frame r0) (by simpa using hw)
        refine ⟨?_, fun _ hcur hesc => ?_, fun _ h _ => ?_⟩
        · obtain ⟨lost, rest, x, ms, h1, h2⟩ := g1
          exact ⟨r0 :: lost, rest, x, ms, by simp [h1], h2⟩
        · refine (inside [] false (frame r0) rs (tail_frame r0) (by simpa using hw)).2 r0 ?_
          have := collect_frame r0 [] []
          simpa [collect] using this
        · obtain ⟨u, _, hu⟩ := h; simp at hu
    · obtain ⟨g1, g2⟩ := inside cur esc t rs ht hw
      refine ⟨g1, fun h => ?_, fun r0 _ => g2 r0⟩
      subst h; obtain ⟨u, _, hu⟩ := ht; simp at hu
  | @skip k w r y h ih =>
    intro cur esc t rs ht hw
    obtain ⟨a, b, t', rfl, ht', hw'⟩ := frames_suffix rs t y w ht hw.symm
    obtain ⟨lost, rest, x, ms, h1, h2, h3, h4⟩ := (ih cur esc t' b ht' hw').1
    subst h1
    refine ⟨⟨a ++ lost, rest, x, ms, by simp, h2, h3, h4.more []⟩, fun _ hcur hesc => ?_, fun r0 _ _ => ?_⟩
    · subst hcur hesc
      rw [h2, ← List.append_assoc]
      exact .gap _ _ h3 h4
    · rw [h2, show r0 :: (a ++ (lost ++ rest)) = (r0 :: (a ++ lost)) ++ rest by simp]
      exact .gap _ _ h3 h4

/-- Before the first flag nothing is received. -/
theorem hunting {k : Nat} {w r : List Byte} (h : Gaps k w r) : ∀ (t : List Byte) (rs : List (List Byte)),
    (t = [] ∨ Tail t) → w = t ++ rs.flatMap frame → ∃ lost rest, rs = lost ++ rest ∧ Damaged k rest (receive r) := by
  induction h with
  | stop w => intro t rs _ _; exact ⟨[], rs, rfl, by simpa [receive] using Damaged.rest rs⟩
  | @read k w r b h ih =>
    have inside : ∀ (t : List Byte) (rs : List (List Byte)), Tail t → b :: w = t ++ rs.flatMap frame →
        ∃ lost rest, rs = lost ++ rest ∧ Damaged k rest (receive (b :: r)) := by
      intro t rs ht hw
      cases t with
      | nil => obtain ⟨u, _, hu⟩ := ht; simp at hu
      | cons b' t =>
        simp only [List.cons_append, List.cons.injEq] at hw
        obtain ⟨rfl, hw⟩ := hw
        rcases tail_cons ht with ⟨hb, rfl⟩ | ⟨hb, ht'⟩
        · subst hb
          refine ⟨[], rs, rfl, ?_⟩
          rw [receive_flag]
          exact (out_of_step h [] false [] rs (.inl rfl) hw).2.1 rfl rfl rfl
        · rw [receive, if_neg hb]
          exact ih t rs (.inr ht') hw
    intro t rs ht hw
    rcases ht with rfl | ht
    · cases rs with
      | nil => simp at hw
      | cons r0 rs =>
        obtain ⟨lost, rest, h1, h2⟩ := inside (frame r0) rs (tail_frame r0) (by simpa using hw)
        exact ⟨r0 :: lost, rest, by simp [h1], h2⟩
    · exact inside t rs ht hw
  | @skip k w r y h ih =>
    intro t rs ht hw
    obtain ⟨a, b, t', rfl, ht', hw'⟩ := frames_suffix rs t y w ht hw.symm
    obtain ⟨lost, rest, rfl, h2⟩ := ih t' b ht' hw'
    exact ⟨a ++ lost, rest, by simp, h2.more []⟩

theorem receive_gaps {k : Nat} {rs : List (List Byte)} {r : List Byte} (h : Gaps k (FLG :: rs.flatMap frame) r) : Damaged k rs (receive r) := by
  generalize hw : FLG :: rs.flatMap frame = w at h
  cases h with
  | stop => exact .rest _
  | read b h =>
    simp only [List.cons.injEq] at hw
    obtain ⟨rfl, hw⟩ := hw
    rw [receive_flag]
    exact (out_of_step h [] false [] rs (.inl rfl) hw.symm).2.1 rfl rfl rfl
  | skip x h =>
    obtain ⟨a, b, t', rfl, ht', hw'⟩ := frames_suffix rs [FLG] x _ (.inr ⟨[], by simp, rfl⟩) hw
    obtain ⟨lost, rest, rfl, h2⟩ := hunting h t' b ht' hw'
    rw [← List.append_assoc]
    exact h2.more _

/-! ## The reader of a stream that runs over -/

/-- The bytes of `ps`: read, then lost. -/
theorem gaps_pieces (ps : List (List Byte × List Byte)) (last rest : List Byte) :
    Gaps ps.length (ps.flatMap (fun p => p.1 ++ p.2) ++ (last ++ rest)) (ps.flatMap (·.1) ++ last) := by
  have rd : ∀ (l : List Byte) {k w r}, Gaps k w r → Gaps k (l ++ w) (l ++ r) := by
    intro l
    induction l with
    | nil => intro k w r h; exact h
    | cons b l ih => intro k w r h; exact .read b (ih h)
  induction ps with
  | nil => simpa using rd last (.stop rest)
  | cons p ps ih =>
    have := rd p.1 (.skip p.2 ih)
    simpa using this

theorem snoc_of_ne_nil {α : Type} {l : List α} (h : l ≠ []) : ∃ i x, l = i ++ [x] := by
  rcases List.eq_nil_or_concat l with h0 | ⟨y, z, h0⟩
  · exact absurd h0 h
  · exact ⟨y, z, by rw [h0, List.concat_eq_append]⟩

theorem behind {c : Cfg} {f : FCfg} : ∀ (ops : List Op) (a : Abs) (outs : List SOut) (a' : Abs) (ps : List (List Byte × List Byte)) (last W : List Byte) (over : Bool),
    WRun c f a ops outs a' → W = ps.flatMap (fun p => p.1 ++ p.2) ++ (last ++ a.unread) → a.unread.length ≤ c.sz → (over = true → last = [] ∧ ps ≠ []) →
    ∃ (ps' : List (List Byte × List Byte)) (last' : List Byte), W ++ (raws c a.nseq (emitted f a.on ops)).flatMap frame = ps'.flatMap (fun p => p.1 ++ p.2) ++ (last' ++ a'.unread) ∧
      ps.flatMap (·.1) ++ last ++ outs.flatMap readBytes = ps'.flatMap (·.1) ++ last' ∧
      ps'.length = ps.length + overflows c f a.on a.nseq a.unread.length over ops outs := by
  intro ops
  induction ops with
  | nil =>
    intro a outs a' ps last W over h hW _ _
    cases h
    exact ⟨ps, last, by simpa [emitted, raws] using hW, by simp, by simp [overflows]⟩
  | cons op ops ih =>
    intro a outs a' ps last W over h hW hsz hover
    cases h with
    | @cons _ a1 _ _ out _ outs hs ht =>
    -- calls that do not write
    have reads : ∀ u on', a1 = { a with unread := u, on := on' } → readBytes out ++ u = a.unread → on' = onAfter a.on op →
        (∀ rest, emitted f a.on (op :: rest) = emitted f on' rest) →
        (overflows c f a.on a.nseq a.unread.length over (op :: ops) (out :: outs) =
          overflows c f on' a.nseq (a.unread.length - (readBytes out).length) (over && (readBytes out).isEmpty) ops outs) →
        ∃ (ps' : List (List Byte × List Byte)) (last' : List Byte), W ++ (raws c a.nseq (emitted f a.on (op :: ops))).flatMap frame = ps'.flatMap (fun p => p.1 ++ p.2) ++ (last' ++ a'.unread) ∧
          ps.flatMap (·.1) ++ last ++ (out :: outs).flatMap readBytes = ps'.flatMap (·.1) ++ last' ∧
          ps'.length = ps.length + overflows c f a.on a.nseq a.unread.length over (op :: ops) (out :: outs) := by
      intro u on' ha1 hu hon hem hov
      subst ha1
      have hl : u.length = a.unread.length - (readBytes out).length := by rw [← hu]; simp
      obtain ⟨ps', last', g1, g2, g3⟩ := ih { a with unread := u, on := on' } outs a' ps (last ++ readBytes out) W (over && (readBytes out).isEmpty) ht
        (by rw [hW, ← hu]; simp) (by show u.length ≤ c.sz; omega) (fun hp => by
          simp only [Bool.and_eq_true, List.isEmpty_iff] at hp
          obtain ⟨h1, h2⟩ := hover hp.1
          exact ⟨by simp [h1, hp.2], h2⟩)
      refine ⟨ps', last', by rw [hem]; exact g1, by simpa using g2, ?_⟩
      rw [hov, g3]
      simp only [hl]
    have quiet : ∀ on', a1 = { a with on := on' } → out = .unit → on' = onAfter a.on op →
        (∀ rest, emitted f a.on (op :: rest) = emitted f on' rest) →
        (overflows c f a.on a.nseq a.unread.length over (op :: ops) (out :: outs) =
          overflows c f on' a.nseq (a.unread.length - (readBytes out).length) (over && (readBytes out).isEmpty) ops outs) →
        ∃ (ps' : List (List Byte × List Byte)) (last' : List Byte), W ++ (raws c a.nseq (emitted f a.on (op :: ops))).flatMap frame = ps'.flatMap (fun p => p.1 ++ p.2) ++ (last' ++ a'.unread) ∧
          ps.flatMap (·.1) ++ last ++ (out :: outs).flatMap readBytes = ps'.flatMap (·.1) ++ last' ∧
          ps'.length = ps.length + overflows c f a.on a.nseq a.unread.length over (op :: ops) (out :: outs) := by
      intro on' ha1 hout hon hem hov
      exact reads a.unread on' ha1 (by rw [hout]; rfl) hon hem hov
    cases hs with
    | group emit g ch => exact quiet _ rfl rfl rfl (fun _ => rfl) rfl
    | event emit e => exact quiet _ rfl rfl rfl (fun _ => rfl) rfl
    | sym d slot emit all => exact quiet _ rfl rfl rfl (fun _ => rfl) rfl
    | get u o hs => exact reads u a.on rfl (read_inv hs (by simp)) rfl (fun _ => rfl) rfl
    | block u o n hs => exact reads u a.on rfl (read_inv hs (by simp)) rfl (fun _ => rfl) rfl
    | whole u o d n hs => exact reads u a.on rfl (read_inv hs (by simp)) rfl (fun _ => rfl) rfl
    | trace k eid ts fs =>
      by_cases he : emits f a.on k eid.toNat = true
      · have hem : ∀ rest, emitted f a.on (.trace k eid ts fs :: rest) = recOf k eid ts fs :: emitted f a.on rest := by
          intro rest; simp [emitted, he, onAfter]
        rw [if_pos he] at ht
        generalize hfr : frame (raw c a.nseq (recOf k eid ts fs)) = fr at *
        by_cases hfit : a.unread.length + fr.length ≤ c.sz
        · have hun : (emit c a (recOf k eid ts fs)).unread = a.unread ++ fr := by
            show lastN _ _ = _
            rw [hfr, lastN_le (by simpa using hfit)]
          obtain ⟨ps', last', g1, g2, g3⟩ := ih _ outs a' ps last (W ++ fr) over ht (by rw [hun, hW]; simp) (by rw [hun]; simpa using hfit) hover
          refine ⟨ps', last', by rw [hem]; simpa [raws, emit, hfr] using g1, by simpa [readBytes] using g2, ?_⟩
          rw [g3, hun]
          simp [overflows, he, hfr, hfit, emit]
        · obtain ⟨d, hd⟩ : ∃ d, a.unread ++ fr = d ++ (emit c a (recOf k eid ts fs)).unread := by
            refine ⟨(a.unread ++ fr).take ((a.unread ++ fr).length - c.sz), ?_⟩
            show _ = _ ++ lastN _ _
            rw [hfr, lastN, List.take_append_drop]
          have hlen : (emit c a (recOf k eid ts fs)).unread.length = c.sz := by
            show (lastN _ _).length = _
            rw [length_lastN, hfr]
            simp; omega
          cases over with
          | false =>
            obtain ⟨ps', last', g1, g2, g3⟩ := ih _ outs a' (ps ++ [(last, d)]) [] (W ++ fr) true ht (by rw [hW]; simp [hd]) (by omega) (fun _ => ⟨rfl, by simp⟩)
            refine ⟨ps', last', by rw [hem]; simpa [raws, emit, hfr] using g1, by simpa [readBytes] using g2, ?_⟩
            rw [g3, hlen]
            simp [overflows, he, hfr, hfit, emit]; omega
          | true =>
            obtain ⟨rfl, hne⟩ := hover rfl
            obtain ⟨i, x, rfl⟩ := snoc_of_ne_nil hne
            obtain ⟨ps', last', g1, g2, g3⟩ := ih _ outs a' (i ++ [(x.1, x.2 ++ d)]) [] (W ++ fr) true ht
              (by rw [hW]; simp [hd]) (by omega) (fun _ => ⟨rfl, by simp⟩)
            refine ⟨ps', last', by rw [hem]; simpa [raws, emit, hfr] using g1, by simpa [readBytes] using g2, ?_⟩
            rw [g3, hlen]
            simp [overflows, he, hfr, hfit, emit]
      · have hem : ∀ rest, emitted f a.on (.trace k eid ts fs :: rest) = emitted f a.on rest := by
          intro rest; simp [emitted, he, onAfter]
        exact quiet a.on (by rw [if_neg he]) rfl rfl hem (by simp [overflows, he, readBytes])

theorem _root_.Verif.Trc.Spec.Damaged.filter {k : Nat} {rs ms : List (List Byte)} (h : Damaged k rs ms) (p : List Byte → Bool) (hp : ∀ r ∈ rs, p r = true) :
    Damaged k rs (ms.filter p) := by
  induction h with
  | rest => exact .rest _
  | keep r _ ih =>
    rw [List.filter_cons, if_pos (hp r (by simp))]
    exact .keep _ (ih fun x hx => hp x (by simp [hx]))
  | gap lost x hx _ ih =>
    rw [List.filter_append]
    exact .gap _ _ (Nat.le_trans (List.length_filter_le ..) hx) (ih fun y hy => hp y (by simp [hy]))

theorem sum_raws {c : Cfg} (h : c.chkEn = true) : ∀ (rs : List Record) (n : Byte) (m : List Byte), m ∈ raws c n rs → sum m = 0#8 := by
  intro rs
  induction rs with
  | nil => intro n m hm; simp [raws] at hm
  | cons r rs ih =>
    intro n m hm
    simp only [raws, List.mem_cons] at hm
    rcases hm with rfl | hm
    · exact sum_raw h n r
    · exact ih _ m hm

/-- **C163, what remains true.** Any legal interleaving of filter calls, trace points and reads, the reader falling behind or not: what the reader
gets is the wire of the emitted records with as many pieces missing as the stream ran over between two reads, and the records a host receives from
it are the emitted ones, in order, with at most one other message for each time the stream ran over. With checksums the same holds of
the messages the host accepts. -/
theorem one_bad_message_per_overflow_partial {c : Cfg} {f : FCfg} (hc : CfgOk c f) (mem : List Byte) (hm : mem.length = c.sz)
    (ops : List Op) (hl : ∀ op ∈ ops, Legal f op) :
    ∃ w0 outs w', start c f mem = .ok w0 ∧ runOps (step c f) w0 ops = (outs, .ok w') ∧
      Gaps (overflows c f On.none 0#8 1 false ops outs) (wire c (emitted f On.none ops)) (outs.flatMap readBytes) ∧
      Damaged (overflows c f On.none 0#8 1 false ops outs) (raws c 0#8 (emitted f On.none ops)) (receive (outs.flatMap readBytes)) ∧
      (c.chkEn = true →
        Damaged (overflows c f On.none 0#8 1 false ops outs) (raws c 0#8 (emitted f On.none ops)) (accepted (outs.flatMap readBytes))) := by
  obtain ⟨w0, h1, h2⟩ := start_rep hc mem hm
  obtain ⟨outs, w', a', k1, k2, k3⟩ := run_rep hc ops w0 _ hl h2
  obtain ⟨ps, last, g1, g2, g3⟩ := behind ops Abs.init outs a' [] [] [FLG] false k3 rfl (by have := hc.sz.1; simp [Abs.init]; omega) (by simp)
  have hg : Gaps (overflows c f On.none 0#8 1 false ops outs) (FLG :: (raws c 0#8 (emitted f On.none ops)).flatMap frame) (outs.flatMap readBytes) := by
    have := gaps_pieces ps last a'.unread
    rw [← g1, ← g2, g3] at this
    simpa [Abs.init] using this
  have hd := receive_gaps hg
  exact ⟨w0, outs, w', h1, k1, by simpa [wire] using hg, hd, fun hchk => hd.filter _ fun r hr => by simp [sum_raws hchk _ _ r hr]⟩

/-- Without overflow nothing is lost. -/
theorem _root_.Verif.Trc.Spec.Damaged.zero {rs ms : List (List Byte)} (h : Damaged 0 rs ms) : ms <+: rs := by
  generalize hk : 0 = k at h
  induction h with
  | rest => exact List.nil_prefix
  | keep r _ ih => exact List.prefix_cons_inj _ |>.2 (ih hk)
  | gap => cases hk

/-- The number of received messages that are no records is at most the number of gaps. -/
theorem _root_.Verif.Trc.Spec.Damaged.count {k : Nat} {rs ms : List (List Byte)} (h : Damaged k rs ms) : (ms.filter fun m => !(rs.contains m)).length ≤ k := by
  have mono : ∀ {rs rs' ms : List (List Byte)}, (∀ r ∈ rs, r ∈ rs') → (ms.filter fun m => !(rs'.contains m)).length ≤ (ms.filter fun m => !(rs.contains m)).length := by
    intro rs rs' ms hs
    induction ms with
    | nil => simp
    | cons m ms ih =>
      simp only [List.filter_cons]
      by_cases h1 : m ∈ rs
      · simp [h1, hs m h1] ; simpa using ih
      · by_cases h2 : m ∈ rs'
        · simp [h1, h2]; simp at ih; omega
        · simp [h1, h2]; simpa using ih
  induction h with
  | rest => simp
  | @keep k rs ms r h ih =>
    rw [List.filter_cons, if_neg (by simp)]
    exact Nat.le_trans (mono (by simp +contextual)) ih
  | @gap k rs ms lost x hx h ih =>
    rw [List.filter_append, List.length_append]
    have h1 := List.length_filter_le (fun m => !((lost ++ rs).contains m)) x
    have h2 := mono (rs := rs) (rs' := lost ++ rs) (ms := ms) (by simp +contextual)
    omega

/-! ## C164 -/

/-- **C164, what remains true.** The sequence numbers of two records with full header tell how many such records were written between
them, modulo 256; so a host knows the number of lost records if it is less than 256. -/
theorem lost_records_counted_partial {c : Cfg} (hn : c.nseqEn = true) (rs : List Record) {i j : Nat} {r r' : Record} {m m' : List Byte} (hij : i < j)
    (hi : rs[i]? = some r) (hj : rs[j]? = some r') (hr : r.dft = false) (hr' : r'.dft = false)
    (hm : (raws c 0#8 rs)[i]? = some m) (hm' : (raws c 0#8 rs)[j]? = some m') :
    missing m m' = (((rs.take j).drop (i + 1)).countP fun r => !r.dft) % 256 := by
  rw [sequence_numbers_consecutive hn rs i r hi] at hm
  rw [sequence_numbers_consecutive hn rs j r' hj] at hm'
  cases hm
  cases hm'
  have hg : ∀ n (r : Record), r.dft = false → (raw c n r).getD 1 0#8 = n := by
    intro n r hr
    simp [raw, body, hr, hn]
  have hcnt : (rs.take j).countP (fun r => !r.dft) = (rs.take i).countP (fun r => !r.dft) + 1 + ((rs.take j).drop (i + 1)).countP (fun r => !r.dft) := by
    have h1 : rs.take j = (rs.take (i + 1)) ++ (rs.take j).drop (i + 1) := by
      conv => lhs; rw [← List.take_append_drop (i + 1) (rs.take j), List.take_take, Nat.min_eq_left (by omega)]
    have h2 : rs.take (i + 1) = rs.take i ++ [r] := by
      rw [List.take_add_one, hi]; rfl
    conv => lhs; rw [h1, h2]
    rw [List.countP_append, List.countP_append]
    simp [hr]
  rw [missing, hg _ _ hr, hg _ _ hr', hcnt]
  generalize ((rs.take j).drop (i + 1)).countP _ = d
  generalize (rs.take i).countP _ = a
  simp only [BitVec.toNat_sub, BitVec.toNat_ofNat]
  omega

/-- Which of the written records each received message is; the messages that are none are at most as many as the gaps. -/
theorem _root_.Verif.Trc.Spec.Damaged.places {k : Nat} {rs ms : List (List Byte)} (h : Damaged k rs ms) :
    ∃ pos : List (Option Nat), pos.length = ms.length ∧ pos.count none ≤ k ∧
      (∀ (p i : Nat), pos[p]? = some (some i) → i < rs.length ∧ rs[i]? = ms[p]?) ∧
      (∀ (p q i j : Nat), p < q → pos[p]? = some (some i) → pos[q]? = some (some j) → i < j) := by
  have shift : ∀ (n : Nat) (pos : List (Option Nat)) (p i : Nat), (pos.map (Option.map (· + n)))[p]? = some (some i) → ∃ i', i = i' + n ∧ pos[p]? = some (some i') := by
    intro n pos p i hp
    rw [List.getElem?_map] at hp
    cases ho : pos[p]? with
    | none => simp [ho] at hp
    | some o =>
      cases o with
      | none => simp [ho] at hp
      | some i' => simp [ho] at hp; exact ⟨i', hp.symm, rfl⟩
  have cnt : ∀ (n : Nat) (pos : List (Option Nat)), (pos.map (Option.map (· + n))).count none = pos.count none := by
    intro n pos
    induction pos with
    | nil => rfl
    | cons o pos ih => cases o <;> simp [List.count_cons, ih]
  induction h with
  | rest => exact ⟨[], rfl, by simp, by simp, by simp⟩
  | @keep k rs ms r h ih =>
    obtain ⟨pos, h1, h2, h3, h4⟩ := ih
    refine ⟨some 0 :: pos.map (Option.map (· + 1)), by simp [h1], by simpa [List.count_cons, cnt] using h2, ?_, ?_⟩
    · intro p i hp
      cases p with
      | zero => simp at hp; subst hp; simp
      | succ p =>
        rw [List.getElem?_cons_succ] at hp
        obtain ⟨i', rfl, hi⟩ := shift _ _ _ _ hp
        have := h3 p i' hi
        simpa using this
    · intro p q i j hpq hp hq
      obtain ⟨q, rfl⟩ : ∃ q', q = q' + 1 := ⟨q - 1, by omega⟩
      rw [List.getElem?_cons_succ] at hq
      obtain ⟨j', rfl, hj⟩ := shift _ _ _ _ hq
      cases p with
      | zero => simp at hp; omega
      | succ p =>
        rw [List.getElem?_cons_succ] at hp
        obtain ⟨i', rfl, hi⟩ := shift _ _ _ _ hp
        have := h4 p q i' j' (by omega) hi hj
        omega
  | @gap k rs ms lost x hx h ih =>
    obtain ⟨pos, h1, h2, h3, h4⟩ := ih
    have base : ∀ (p i : Nat), (pos.map (Option.map (· + lost.length)))[p]? = some (some i) → i < (lost ++ rs).length ∧ (lost ++ rs)[i]? = ms[p]? := by
      intro p i hp
      obtain ⟨i', rfl, hi⟩ := shift _ _ _ _ hp
      have := h3 p i' hi
      refine ⟨by simp; omega, ?_⟩
      rw [List.getElem?_append_right (by omega), Nat.add_sub_cancel]; exact this.2
    have inc : ∀ (p q i j : Nat), p < q → (pos.map (Option.map (· + lost.length)))[p]? = some (some i) →
        (pos.map (Option.map (· + lost.length)))[q]? = some (some j) → i < j := by
      intro p q i j hpq hp hq
      obtain ⟨i', rfl, hi⟩ := shift _ _ _ _ hp
      obtain ⟨j', rfl, hj⟩ := shift _ _ _ _ hq
      have := h4 p q i' j' hpq hi hj
      omega
    match x, hx with
    | [], _ => exact ⟨pos.map (Option.map (· + lost.length)), by simp [h1], by rw [cnt]; omega, by simpa using base, inc⟩
    | [m], _ =>
      refine ⟨none :: pos.map (Option.map (· + lost.length)), by simp [h1], by simp [cnt]; omega, ?_, ?_⟩
      · intro p i hp
        cases p with
        | zero => simp at hp
        | succ p => simpa using base p i (by simpa using hp)
      · intro p q i j hpq hp hq
        obtain ⟨q, rfl⟩ : ∃ q', q = q' + 1 := ⟨q - 1, by omega⟩
        cases p with
        | zero => simp at hp
        | succ p => exact inc p q i j (by omega) (by simpa using hp) (by simpa using hq)

/-- **C164, as the host sees it.** Any legal interleaving of filter calls, trace points and reads with sequence numbers enabled. Of the messages
the host receives all but one for each time the stream ran over are records that were written, each at its place, in the order of writing
(`pos` says which); and for any two of them with full header the host computes, from the received bytes alone, the number of records with full
header that were written between them, modulo 256. -/
theorem host_counts_lost_records_partial {c : Cfg} {f : FCfg} (hc : CfgOk c f) (hn : c.nseqEn = true) (mem : List Byte) (hm : mem.length = c.sz)
    (ops : List Op) (hl : ∀ op ∈ ops, Legal f op) :
    ∃ w0 outs w', start c f mem = .ok w0 ∧ runOps (step c f) w0 ops = (outs, .ok w') ∧
      ∃ pos : List (Option Nat), pos.length = (receive (outs.flatMap readBytes)).length ∧
        pos.count none ≤ overflows c f On.none 0#8 1 false ops outs ∧
        (∀ (p q i j : Nat), p < q → pos[p]? = some (some i) → pos[q]? = some (some j) → i < j) ∧
        (∀ (p i : Nat), pos[p]? = some (some i) → i < (emitted f On.none ops).length ∧
          (receive (outs.flatMap readBytes))[p]? = (raws c 0#8 (emitted f On.none ops))[i]?) ∧
        ∀ (p q i j : Nat) (r r' : Record) (m m' : List Byte), p < q → pos[p]? = some (some i) → pos[q]? = some (some j) →
          (emitted f On.none ops)[i]? = some r → (emitted f On.none ops)[j]? = some r' → r.dft = false → r'.dft = false →
          (receive (outs.flatMap readBytes))[p]? = some m → (receive (outs.flatMap readBytes))[q]? = some m' →
          missing m m' = ((((emitted f On.none ops).take j).drop (i + 1)).countP fun r => !r.dft) % 256 := by
  obtain ⟨w0, outs, w', h1, h2, -, hd, -⟩ := one_bad_message_per_overflow_partial hc mem hm ops hl
  obtain ⟨pos, p1, p2, p3, p4⟩ := hd.places
  have hlen : ∀ n (rs : List Record), (raws c n rs).length = rs.length := by
    intro n rs
    induction rs generalizing n with
    | nil => rfl
    | cons r rs ih => simp [raws, ih]
  refine ⟨w0, outs, w', h1, h2, pos, p1, p2, p4, fun p i hp => ⟨by have := (p3 p i hp).1; rwa [hlen] at this, (p3 p i hp).2.symm⟩, ?_⟩
  intro p q i j r r' m m' hpq hp hq hi hj hr hr' hmp hmq
  exact lost_records_counted_partial hn _ (p4 p q i j hpq hp hq) hi hj hr hr' ((p3 p i hp).2.trans hmp) ((p3 q j hq).2.trans hmq)

/-! ## Concrete runs -/

/-- Event 34 is traced, the host reads three bytes of it (and the initial flag), then three other events fill the stream. -/
def spliceOps : List Op :=
  [.event true 33, .event true 34, .trace .woAoSig 34 1 [.u8 1], .get, .get, .get, .trace .woAoSig 33 2 [.u8 2], .trace .woAoSig 33 3 [.u8 3],
   .trace .woAoSig 33 4 [.u8 4], .whole (List.replicate 16 0) 16]

theorem spliceOps_legal : ∀ op ∈ spliceOps, Legal exF op := by
  simp [spliceOps, Legal, KindOk, FieldOk, Used, eventsOf, ALL_EVENTS, UT_IGNORE_ARG, UT_START]

/-- **C163 refuted.** After an overflow the host receives, with a correct checksum, a record that was never written: event 34 with the time
stamp and the data of event 33. -/
theorem spliced_record_is_accepted :
    ∃ (c : Cfg) (f : FCfg) (mem : List Byte) (ops : List Op) (w0 : World) (outs : List SOut) (w' : World) (m : List Byte),
      CfgOk c f ∧ c.chkEn = true ∧ mem.length = c.sz ∧ (∀ op ∈ ops, Legal f op) ∧ start c f mem = .ok w0 ∧ runOps (step c f) w0 ops = (outs, .ok w') ∧
      m ∈ accepted (outs.flatMap readBytes) ∧ m ∉ raws c 0#8 (emitted f On.none ops) ∧ m.head? = some 34#8 := by
  have hc : CfgOk exCfg exF := ⟨by decide, by decide, by decide⟩
  obtain ⟨w0, outs, w', h1, h2, -⟩ := one_bad_message_per_overflow_partial hc (List.replicate 16 0) rfl spliceOps spliceOps_legal
  have ho : ∀ x y, start exCfg exF (List.replicate 16 0) = .ok x → runOps (step exCfg exF) x spliceOps = y →
      [34, 0, 2, 2, 0xDA] ∈ accepted (y.1.flatMap readBytes) := by
    intro x y hx hy
    have : ((start exCfg exF (List.replicate 16 0)).map' fun w => decide ([34, 0, 2, 2, 0xDA] ∈ accepted ((runOps (step exCfg exF) w spliceOps).1.flatMap readBytes))) = .ok true := by
      decide +kernel
    rw [hx] at this
    simpa [Res.map', hy] using this
  exact ⟨exCfg, exF, _, spliceOps, w0, outs, w', [34, 0, 2, 2, 0xDA], hc, rfl, rfl, spliceOps_legal, h1, h2, ho _ _ h1 h2, by decide +kernel, rfl⟩

/-- In this run the stream runs over once, and one of the three received messages is wrong. -/
example : ((start exCfg exF (List.replicate 16 0)).map' fun w =>
    (overflows exCfg exF On.none 0#8 1 false spliceOps (runOps (step exCfg exF) w spliceOps).1,
      (receive ((runOps (step exCfg exF) w spliceOps).1.flatMap readBytes)).length)) = .ok (1, 3) := by decide +kernel

/-- A host reads a record, then 259 records are written, then it reads again. -/
def lossOps : List Op :=
  .event true 33 :: .trace .woAoSig 33 1 [] :: .whole (List.replicate 15 0) 15 ::
    (List.replicate 259 (.trace .woAoSig 33 1 []) ++ [.whole (List.replicate 15 0) 15])

@[inherit_doc lossOps] def lossCfg : Cfg := ⟨15, true, true, .b8⟩

theorem lossOps_legal : ∀ op ∈ lossOps, Legal exF op := by
  intro op h
  simp only [lossOps, List.mem_cons, List.mem_append, List.mem_replicate, List.not_mem_nil, or_false] at h
  rcases h with rfl | rfl | rfl | ⟨_, rfl⟩ | rfl <;> simp [Legal, KindOk, Used, eventsOf, ALL_EVENTS, UT_IGNORE_ARG, UT_START]

/-- **C164 refuted.** A host that reads seldom loses 256 records and does not notice: the messages it receives are correct and their sequence
numbers follow each other without a gap. -/
theorem lost_records_not_noticed :
    ∃ (c : Cfg) (f : FCfg) (mem : List Byte) (ops : List Op) (w0 : World) (outs : List SOut) (w' : World) (m0 m1 m2 m3 : List Byte),
      CfgOk c f ∧ c.chkEn = true ∧ c.nseqEn = true ∧ mem.length = c.sz ∧ (∀ op ∈ ops, Legal f op) ∧ start c f mem = .ok w0 ∧
      runOps (step c f) w0 ops = (outs, .ok w') ∧
      receive (outs.flatMap readBytes) = [m0, m1, m2, m3] ∧ accepted (outs.flatMap readBytes) = [m0, m1, m2, m3] ∧
      missing m0 m1 = 0 ∧ missing m1 m2 = 0 ∧ missing m2 m3 = 0 ∧ (emitted f On.none ops).length = 260 ∧
      (raws c 0#8 (emitted f On.none ops))[1]? = some m1 ∧ (raws c 0#8 (emitted f On.none ops))[257]? = some m1 := by
  have hc : CfgOk lossCfg exF := ⟨by decide, by decide, by decide⟩
  obtain ⟨w0, outs, w', h1, h2, -⟩ := one_bad_message_per_overflow_partial hc (List.replicate 15 0) rfl lossOps lossOps_legal
  have ho : receive (outs.flatMap readBytes) = [[0x21, 0, 1, 0xde], [0x21, 1, 1, 0xdd], [0x21, 2, 1, 0xdc], [0x21, 3, 1, 0xdb]] := by
    have : ((start lossCfg exF (List.replicate 15 0)).map' fun w => receive ((runOps (step lossCfg exF) w lossOps).1.flatMap readBytes)) =
        .ok [[0x21, 0, 1, 0xde], [0x21, 1, 1, 0xdd], [0x21, 2, 1, 0xdc], [0x21, 3, 1, 0xdb]] := by decide +kernel
    rw [h1] at this
    simpa [Res.map', h2] using this
  refine ⟨lossCfg, exF, _, lossOps, w0, outs, w', _, _, _, _, hc, rfl, rfl, rfl, lossOps_legal, h1, h2, ho, ?_, ?_⟩
  · rw [accepted, ho]; decide
  · decide +kernel

/-- A run that meets the hypotheses: the stream runs over once, one of the three messages is none of the records. -/
example : ∃ w0 outs w', start exCfg exF (List.replicate 16 0) = .ok w0 ∧ runOps (step exCfg exF) w0 spliceOps = (outs, .ok w') :=
  let ⟨w0, outs, w', h1, h2, _⟩ := host_counts_lost_records_partial (c := exCfg) (f := exF) ⟨by decide, by decide, by decide⟩ rfl (List.replicate 16 0) rfl spliceOps spliceOps_legal
  ⟨w0, outs, w', h1, h2⟩

/-- Five records written between two received ones: the host counts five. -/
example : missing (raw exCfg 7 ⟨false, 33, 0, []⟩) (raw exCfg 13 ⟨false, 34, 0, [.u8 1]⟩) = 5 := by decide

end Verif.Trc
