import Verif.Trc.FilterLemmas
/-
Properties of the trace facility. The receiver, the wire format and the filter semantics are in Spec.lean.
-/
namespace Verif.Trc
open Verif Spec

/-- A configuration used in the examples: 16-byte stream, sequence numbers, checksum, 8-bit time stamps. -/
def exCfg : Cfg := ⟨16, true, true, .b8⟩
@[inherit_doc exCfg] def exF : FCfg := ⟨8, 16, true, true, true, 65534⟩

example : CfgOk exCfg exF := by constructor <;> decide

/-! ## C52 -/

/-- **C52.** From initialisation on, every legal history of puts, gets, block gets and whole-block gets runs without
undefined behaviour, and its results are those of a queue that keeps the newest `sz` unread bytes. -/
theorem stream_keeps_newest (sz : Nat) (hsz : 0 < sz ∧ sz ≤ 2048) (mem : List Byte) (hm : mem.length = sz)
    (ops : List SOp) (hl : ∀ op ∈ ops, SLegal op) :
    ∃ s0 outs s' u', streamInit sz mem = .ok s0 ∧ runOps (sstep sz) s0 ops = (outs, .ok s') ∧ Run sz [FLG] ops outs u' := by
  obtain ⟨s0, h1, h2⟩ := streamInit_rep hsz mem hm
  have key : ∀ (ops : List SOp) (s : Stream) (u : List Byte), (∀ op ∈ ops, SLegal op) → Rep sz s u →
      ∃ outs s' u', runOps (sstep sz) s ops = (outs, .ok s') ∧ Run sz u ops outs u' := by
    intro ops
    induction ops with
    | nil => intro s u _ _; exact ⟨[], s, u, rfl, .nil u⟩
    | cons op ops ih =>
      intro s u hl h
      obtain ⟨s1, o, u1, g1, g2, g3⟩ := sstep_rep hsz.2 h op (hl op (by simp))
      obtain ⟨outs, s2, u2, k1, k2⟩ := ih s1 u1 (fun x hx => hl x (by simp [hx])) g2
      exact ⟨o :: outs, s2, u2, by simp [runOps, g1, k1], .cons g3 k2⟩
  obtain ⟨outs, s', u', k1, k2⟩ := key ops s0 _ hl h2
  exact ⟨s0, outs, s', u', h1, k1, k2⟩

/-- Overwrite and wrap-around are reached: three bytes, five puts after the initial flag. -/
example : (runOps (sstep 3) ⟨[9, 9, 9], 0, 0, 0⟩
    [.put 1, .put 2, .get, .put 3, .put 4, .put 5, .whole [0, 0, 0, 7] 4]).1.getLast? =
    some (.buffer 3 [3, 4, 5, 7]) := by decide

/-- **C52, reading everything.** After putting any bytes, one whole-block read of the stream's size returns the newest
`sz` bytes, oldest first. -/
theorem stream_read_all (sz : Nat) (hsz : 0 < sz ∧ sz ≤ 2048) (mem : List Byte) (hm : mem.length = sz) (bs d : List Byte)
    (hd : d.length = sz) :
    ∃ s0 outs s', streamInit sz mem = .ok s0 ∧
      runOps (sstep sz) s0 (bs.map .put ++ [.whole d sz]) = (outs, .ok s') ∧
      ∃ n b, outs.getLast? = some (.buffer n b) ∧ b.take n = lastN sz (FLG :: bs) := by
  obtain ⟨s0, outs, s', u', h1, h2, h3⟩ := stream_keeps_newest sz hsz mem hm (bs.map .put ++ [.whole d sz]) (by
    intro op hop
    rw [List.mem_append, List.mem_map] at hop
    rcases hop with ⟨b, _, rfl⟩ | hop
    · trivial
    · simp only [List.mem_singleton] at hop; subst hop; simp [SLegal, hd])
  refine ⟨s0, outs, s', h1, h2, ?_⟩
  have key : ∀ (bs : List Byte) (u : List Byte) (outs : List SOut) (u' : List Byte),
      Run sz u (bs.map .put ++ [.whole d sz]) outs u' →
      ∃ n b, outs.getLast? = some (.buffer n b) ∧ b.take n = lastN sz (lastN sz u ++ bs) ∨
        (u.length > sz ∧ bs = []) := by
    intro bs
    induction bs with
    | nil =>
      intro u outs u' h
      cases h with
      | cons hs ht =>
        cases hs with
        | whole =>
          cases ht
          by_cases hu : u.length > sz
          · exact ⟨0, [], Or.inr ⟨hu, rfl⟩⟩
          · refine ⟨_, _, Or.inl ⟨rfl, ?_⟩⟩
            have hu' : u.length ≤ sz := by omega
            rw [List.append_nil, lastN_le hu', lastN_le hu', List.take_of_length_le hu']
            simp
    | cons b bs ih =>
      intro u outs u' h
      cases h with
      | cons hs ht =>
        cases hs with
        | put =>
          obtain ⟨n, b', hb⟩ := ih _ _ _ ht
          rcases hb with ⟨hb1, hb2⟩ | ⟨hb1, hb2⟩
          · refine ⟨n, b', Or.inl ⟨?_, ?_⟩⟩
            · rename_i outs' 
              cases outs' with
              | nil => simp at hb1
              | cons o outs' => simpa [List.getLast?_cons_cons] using hb1
            · rw [hb2]
              have := lastN_append sz (u ++ [b]) bs
              rw [lastN_le (u := lastN sz (u ++ [b])) (by rw [length_lastN]; omega), this, lastN_append]
              simp
          · rw [length_lastN] at hb1
            omega
  obtain ⟨n, b, hb⟩ := key bs _ _ _ h3
  rcases hb with ⟨hb1, hb2⟩ | ⟨hb1, hb2⟩
  · refine ⟨n, b, hb1, ?_⟩
    rw [hb2, lastN_append]; rfl
  · simp at hb1; omega

/-! ## The whole facility -/

theorem run_rep {c : Cfg} {f : FCfg} (hc : CfgOk c f) : ∀ (ops : List Op) (w : World) (a : Abs), (∀ op ∈ ops, Legal f op) →
    WRep c f w a → ∃ outs w' a', runOps (step c f) w ops = (outs, .ok w') ∧ WRep c f w' a' ∧ WRun c f a ops outs a' := by
  intro ops
  induction ops with
  | nil => intro w a _ h; exact ⟨[], w, a, rfl, h, .nil a⟩
  | cons op ops ih =>
    intro w a hl h
    obtain ⟨w1, o, a1, g1, g2, g3⟩ := step_rep hc h op (hl op (by simp))
    obtain ⟨outs, w2, a2, k1, k2, k3⟩ := ih w1 a1 (fun x hx => hl x (by simp [hx])) g2
    exact ⟨o :: outs, w2, a2, by simp [runOps, g1, k1], k2, .cons g3 k3⟩

/-- **C53 (and C49-C52 together).** From start-up, every legal history of filter calls, trace points and stream reads
runs without assertion failure or undefined behaviour, and behaves as specified: a trace point emits exactly when its
group and event are enabled, and its active object and signal where it names them; every filter call changes exactly
the entries it names; the stream keeps the newest `sz` bytes. -/
theorem trace_facility_refines {c : Cfg} {f : FCfg} (hc : CfgOk c f) (mem : List Byte) (hm : mem.length = c.sz)
    (ops : List Op) (hl : ∀ op ∈ ops, Legal f op) :
    ∃ w0 outs w' a', start c f mem = .ok w0 ∧ runOps (step c f) w0 ops = (outs, .ok w') ∧ WRun c f Abs.init ops outs a' := by
  obtain ⟨w0, h1, h2⟩ := start_rep hc mem hm
  obtain ⟨outs, w', a', k1, _, k3⟩ := run_rep hc ops w0 _ hl h2
  exact ⟨w0, outs, w', a', h1, k1, k3⟩

/-- A trace point that passes and one that does not. -/
example : ∀ op ∈ [Op.event true 33, .sym .sma 3 true false, .sym .signal 5 true false, .event false 34,
    .trace (.full 3 5) 33 7 [.u8 1], .trace (.full 2 5) 33 7 [.u8 1], .trace (.full 3 5) 34 7 []], Legal exF op := by
  simp [Legal, KindOk, SlotOk, exF, FieldOk, Used, eventsOf, ALL_EVENTS, UT_IGNORE_ARG, UT_START]

example : ((start exCfg exF (List.replicate 16 0)).bind fun w =>
    (runOps (step exCfg exF) w [.event true 33, .sym .sma 3 true false, .sym .signal 5 true false, .event false 34,
      .trace (.full 3 5) 33 7 [.u8 1], .trace (.full 2 5) 33 7 [.u8 1], .trace (.full 3 5) 34 7 []]).2).map'
        (fun w => w.tr.stm.qty) = .ok 7 := by decide

theorem on_after {c : Cfg} {f : FCfg} {ops : List Op} {a a' : Abs} {outs : List SOut} (h : WRun c f a ops outs a') :
    a'.on = ops.foldl onAfter a.on := by
  induction h with
  | nil => rfl
  | cons hs _ ih =>
    rw [ih, List.foldl_cons]
    congr 1
    cases hs with
    | trace k eid ts fs => split <;> rfl
    | _ => rfl

/-- **C53, silence.** After any legal history of calls, a trace point that the filters set by that history do not let
pass changes nothing. -/
theorem filtered_trace_point_is_silent {c : Cfg} {f : FCfg} (hc : CfgOk c f) (mem : List Byte) (hm : mem.length = c.sz)
    (ops : List Op) (hl : ∀ op ∈ ops, Legal f op) {k : Kind} {eid : Byte} {ts : BitVec 32} {fs : List Field}
    (hlt : Legal f (.trace k eid ts fs)) (hf : emits f (ops.foldl onAfter On.none) k eid.toNat = false) :
    ∃ w0 outs w, start c f mem = .ok w0 ∧ runOps (step c f) w0 ops = (outs, .ok w) ∧
      step c f w (.trace k eid ts fs) = .ok (w, .unit) := by
  obtain ⟨w0, h1, h2⟩ := start_rep hc mem hm
  obtain ⟨outs, w, a, k1, h, k3⟩ := run_rep hc ops w0 _ hl h2
  refine ⟨w0, outs, w, h1, k1, ?_⟩
  rw [show On.none = Abs.init.on from rfl, ← on_after k3] at hf
  obtain ⟨l1, l2, _⟩ := hlt
  have hs : f.maxSma ≤ 64 ∧ f.maxSig ≤ 2040 := ⟨hc.sma.2, hc.sig.2⟩
  rcases l1 with rfl | rfl | l1
  · cases hf
  · cases hf
  · simp [step, trace, passes_rep hs h.flt l1 l2, hf, Res.map']

/-- An event enabled, then its group switched off. -/
example : emits exF ([Op.event true 33, .sym .sma 3 true false, .group false 1 false].foldl onAfter On.none) (.woSig 3) 33 = false ∧
    emits exF ([Op.event true 33, .sym .sma 3 true false].foldl onAfter On.none) (.woSig 3) 33 = true := by decide

theorem whole_inv {sz n : Nat} {u d u' : List Byte} {o : SOut} (h : Step sz u (.whole d n) o u') :
    ∃ b, o = .buffer (u.take n).length b ∧ b.take (u.take n).length = u.take n ∧ u' = u.drop n := by
  cases h with
  | whole => exact ⟨_, rfl, by simp, rfl⟩

/-- A read hands over exactly what it removes. -/
theorem read_inv {sz : Nat} {u u' : List Byte} {op : SOp} {o : SOut} (h : Step sz u op o u') (hr : ∀ b, op ≠ .put b) :
    readBytes o ++ u' = u := by
  cases h with
  | put b => exact absurd rfl (hr _)
  | getNone => rfl
  | get b u => rfl
  | block n k => simp [readBytes]
  | whole d n => simp [readBytes]

/-! ## C49 -/

/-- **C49, decoding.** A receiver reading everything put on the wire recovers exactly the records, in order; no flag byte
occurs inside a record. -/
theorem framing_roundtrip (c : Cfg) (rs : List Record) :
    receive (wire c rs) = raws c 0#8 rs ∧ ∀ m ∈ raws c 0#8 rs, FLG ∉ m.flatMap escape := by
  refine ⟨?_, fun m _ => frame_clean m⟩
  rw [wire, receive_flag]
  have := collect_frames (raws c 0#8 rs) []
  simpa [collect] using this

example : wire exCfg [⟨false, 33, 0x7E, [.u16 0x7D7E]⟩] =
    [0x7E, 33, 0, 0x7D, 0x5E, 0x7D, 0x5E, 0x7D, 0x5D, 0x66, 0x7E] := by decide

/-- A suffix of the wire starting inside a record. -/
theorem window_receive (rs : List (List Byte)) (sz : Nat) :
    ∃ lost kept, rs = lost ++ kept ∧ receive (lastN sz (FLG :: rs.flatMap frame)) = kept ∧
      ((FLG :: rs.flatMap frame).length ≤ sz → lost = []) ∧
      ∀ k', k' <:+ rs → (FLG :: k'.flatMap frame).length ≤ sz → k' <:+ kept := by
  have hsuf : receive (lastN sz (FLG :: rs.flatMap frame)) <:+ rs := by
    by_cases h : (FLG :: rs.flatMap frame).length ≤ sz
    · rw [lastN_le h, receive_flag]
      have := collect_frames rs []
      simp only [List.append_nil, collect] at this
      rw [this]
      exact List.suffix_refl _
    · apply receive_suffix
      unfold lastN
      obtain ⟨k, hk⟩ : ∃ k, (FLG :: rs.flatMap frame).length - sz = k + 1 := ⟨_, (Nat.succ_pred_eq_of_pos (by omega)).symm⟩
      rw [hk, List.drop_succ_cons]
      exact List.drop_suffix _ _
  obtain ⟨lost, hlost⟩ := hsuf
  refine ⟨lost, _, hlost.symm, rfl, ?_, ?_⟩
  · intro h
    rw [lastN_le h, receive_flag] at hlost
    have := collect_frames rs []
    simp only [List.append_nil, collect] at this
    rw [this] at hlost
    simpa using hlost
  · intro k' hk' hlen
    obtain ⟨pre, hpre⟩ := hk'
    -- the byte in front of the frames of `k'` is a flag
    have hflag : ∃ y, FLG :: rs.flatMap frame = y ++ FLG :: k'.flatMap frame := by
      rw [← hpre]
      rcases List.eq_nil_or_concat pre with h0 | ⟨p, r, h0⟩
      · exact ⟨[], by simp [h0]⟩
      · refine ⟨FLG :: (p.flatMap frame ++ r.flatMap escape), ?_⟩
        rw [h0, List.concat_eq_append]
        simp [frame]
    obtain ⟨y, hy⟩ := hflag
    have hlast : lastN sz (FLG :: rs.flatMap frame) = y.drop (y.length + (FLG :: k'.flatMap frame).length - sz) ++ FLG :: k'.flatMap frame := by
      rw [hy]
      unfold lastN
      rw [List.length_append, List.drop_append]
      rw [show y.length + (FLG :: k'.flatMap frame).length - sz - y.length = 0 by omega]
      rfl
    obtain ⟨l, hl⟩ := receive_ends (y.drop (y.length + (FLG :: k'.flatMap frame).length - sz)) (k'.flatMap frame)
    rw [← hlast] at hl
    have := collect_frames k' []
    simp only [List.append_nil, collect] at this
    rw [this] at hl
    exact ⟨l, hl.symm⟩

/-- A history of unfiltered trace calls puts their records on the wire. -/
theorem run_calls {c : Cfg} {f : FCfg} (d : List Byte) : ∀ (rs : List Record) (a : Abs) (outs : List SOut) (a' : Abs),
    a.unread.length ≤ c.sz → WRun c f a (rs.map callOf ++ [.whole d c.sz]) outs a' →
    ∃ n b, outs.getLast? = some (.buffer n b) ∧
      b.take n = lastN c.sz (a.unread ++ (raws c a.nseq rs).flatMap frame) := by
  intro rs
  induction rs with
  | nil =>
    intro a outs a' ha h
    cases h with
    | cons hs ht =>
      cases ht
      cases hs with
      | whole _ _ _ _ hs =>
        obtain ⟨b, rfl, hb, _⟩ := whole_inv hs
        refine ⟨_, b, rfl, ?_⟩
        simp only [raws, List.flatMap_nil, List.append_nil]
        rw [hb, lastN_le ha, List.take_of_length_le ha]
  | cons r rs ih =>
    intro a outs a' ha h
    cases h with
    | cons hs ht =>
      cases hs with
      | trace =>
        have hem : emits f a.on (if r.dft then .dft else .woFil) r.eid.toNat = true := by cases r.dft <;> rfl
        rw [if_pos hem] at ht
        have hr : recOf (if r.dft then .dft else .woFil) r.eid r.ts r.fs = r := by
          cases r with
          | mk dft eid ts fs => cases dft <;> rfl
        rw [hr] at ht
        obtain ⟨n, b, h1, h2⟩ := ih _ _ _ (by simp only [emit]; rw [length_lastN]; omega) ht
        refine ⟨n, b, ?_, ?_⟩
        · rename_i outs'
          cases outs' with
          | nil => simp at h1
          | cons o outs' => simpa [List.getLast?_cons_cons] using h1
        · rw [h2]
          simp only [emit, raws, List.flatMap_cons]
          rw [lastN_append, List.append_assoc]

/-- **C49.** Write any records with any fields through the trace calls and read the stream in one block: the receiver
recovers exactly the newest records; all of them if everything written fits in the stream, and in any case every final
run of records whose frames (with one flag in front) fit. -/
theorem written_records_are_received {c : Cfg} {f : FCfg} (hc : CfgOk c f) (mem : List Byte) (hm : mem.length = c.sz)
    (rs : List Record) (hrs : ∀ r ∈ rs, ∀ x ∈ r.fs, FieldOk x) (d : List Byte) (hd : d.length = c.sz) :
    ∃ w0 outs w' n b lost kept, start c f mem = .ok w0 ∧
      runOps (step c f) w0 (rs.map callOf ++ [.whole d c.sz]) = (outs, .ok w') ∧
      outs.getLast? = some (.buffer n b) ∧
      raws c 0#8 rs = lost ++ kept ∧ receive (b.take n) = kept ∧
      ((wire c rs).length ≤ c.sz → lost = []) ∧
      ∀ k', k' <:+ raws c 0#8 rs → (FLG :: k'.flatMap frame).length ≤ c.sz → k' <:+ kept := by
  obtain ⟨w0, outs, w', a', h1, h2, h3⟩ := trace_facility_refines hc mem hm (rs.map callOf ++ [.whole d c.sz]) (by
    intro op hop
    rw [List.mem_append, List.mem_map] at hop
    rcases hop with ⟨r, hr, rfl⟩ | hop
    · have := hrs r hr
      cases hdft : r.dft <;> simp [callOf, Legal, KindOk, hdft] <;> exact this
    · simp only [List.mem_singleton] at hop; subst hop; simp [Legal, hd])
  obtain ⟨n, b, k1, k2⟩ := run_calls d rs Abs.init outs a' (by have := hc.sz; simp [Abs.init]; omega) h3
  obtain ⟨lost, kept, e1, e2, e3, e4⟩ := window_receive (raws c 0#8 rs) c.sz
  refine ⟨w0, outs, w', n, b, lost, kept, h1, h2, k1, e1, ?_, e3, e4⟩
  rw [k2]
  exact e2

/-- Overflow: of three records of six bytes on the wire the 16-byte stream retains two. -/
example : (raws exCfg 0#8 [⟨false, 33, 1, [.u8 1]⟩, ⟨false, 34, 2, [.u8 2]⟩, ⟨false, 35, 3, [.u8 3]⟩]).map (fun m => (frame m).length) =
    [6, 6, 6] := by decide

/-! ### A reader that keeps up -/

theorem keeps_up {c : Cfg} {f : FCfg} : ∀ (ops : List Op) (a : Abs) (outs : List SOut) (a' : Abs) (R W : List Byte),
    WRun c f a ops outs a' → R ++ a.unread = W →
    (∀ i, i ≤ ops.length → (W ++ (raws c a.nseq (emitted f a.on (ops.take i))).flatMap frame).length ≤
      c.sz + (R ++ (outs.take i).flatMap readBytes).length) →
    (R ++ outs.flatMap readBytes) ++ a'.unread = W ++ (raws c a.nseq (emitted f a.on ops)).flatMap frame := by
  intro ops
  induction ops with
  | nil =>
    intro a outs a' R W h hRW _
    cases h
    simpa [emitted, raws] using hRW
  | cons op ops ih =>
    intro a outs a' R W h hRW hk
    cases h with
    | @cons _ a1 _ _ out _ outs hs ht =>
    -- calls that do not touch the stream
    have quiet : ∀ on', a1 = { a with on := on' } → out = .unit → onAfter a.on op = on' →
        (∀ rest, emitted f a.on (op :: rest) = emitted f on' rest) →
        (R ++ (out :: outs).flatMap readBytes) ++ a'.unread = W ++ (raws c a.nseq (emitted f a.on (op :: ops))).flatMap frame := by
      intro on' ha1 hout _ hem
      subst ha1 hout
      have := ih { a with on := on' } outs a' R W ht hRW (fun i hi => by
        have := hk (i + 1) (by simp; omega)
        simpa [hem, readBytes] using this)
      simpa [hem, readBytes] using this
    have reads : ∀ u, a1 = { a with unread := u } → readBytes out ++ u = a.unread →
        (∀ rest, emitted f a.on (op :: rest) = emitted f a.on rest) →
        (R ++ (out :: outs).flatMap readBytes) ++ a'.unread = W ++ (raws c a.nseq (emitted f a.on (op :: ops))).flatMap frame := by
      intro u ha1 hu hem
      subst ha1
      have := ih { a with unread := u } outs a' (R ++ readBytes out) W ht
        (by simp only [List.append_assoc, hu, hRW]) (fun i hi => by
          have := hk (i + 1) (by simp; omega)
          simpa [hem, Nat.add_assoc] using this)
      simpa [hem] using this
    cases hs with
    | group emit g ch => exact quiet _ rfl rfl rfl (fun _ => rfl)
    | event emit e => exact quiet _ rfl rfl rfl (fun _ => rfl)
    | sym d slot emit all => exact quiet _ rfl rfl rfl (fun _ => rfl)
    | trace k eid ts fs =>
      by_cases he : emits f a.on k eid.toNat = true
      · have hem : ∀ rest, emitted f a.on (.trace k eid ts fs :: rest) = recOf k eid ts fs :: emitted f a.on rest := by
          intro rest; simp [emitted, he, onAfter]
        rw [if_pos he] at ht
        have h1 := hk 1 (by simp)
        have hfit : (a.unread ++ frame (raw c a.nseq (recOf k eid ts fs))).length ≤ c.sz := by
          rw [← hRW] at h1
          simp [hem, raws, emitted, readBytes] at h1
          simp; omega
        have hun : (emit c a (recOf k eid ts fs)).unread = a.unread ++ frame (raw c a.nseq (recOf k eid ts fs)) :=
          lastN_le hfit
        have := ih _ outs a' R (W ++ frame (raw c a.nseq (recOf k eid ts fs))) ht
          (by rw [hun, ← List.append_assoc, hRW]) (fun i hi => by
            have := hk (i + 1) (by simp; omega)
            simpa [hem, raws, readBytes, emit, Nat.add_assoc] using this)
        simpa [hem, raws, readBytes, emit] using this
      · have hem : ∀ rest, emitted f a.on (.trace k eid ts fs :: rest) = emitted f a.on rest := by
          intro rest; simp [emitted, he, onAfter]
        rw [if_neg he] at ht
        exact quiet a.on (by rw [if_neg he]) rfl rfl hem
    | get u o hs => exact reads _ rfl (read_inv hs (by simp)) (fun _ => rfl)
    | block u o n hs => exact reads _ rfl (read_inv hs (by simp)) (fun _ => rfl)
    | whole u o d n hs => exact reads _ rfl (read_inv hs (by simp)) (fun _ => rfl)

/-- **C49, concurrent reader.** Any legal interleaving of filter calls, trace points and reads: if at no moment more than
`sz` bytes are written and unread, the bytes handed over to the reader are, concatenated, the beginning of the wire of
the emitted records, nothing is lost, and what is missing is still in the stream. -/
theorem reader_keeping_up_loses_nothing {c : Cfg} {f : FCfg} (hc : CfgOk c f) (mem : List Byte) (hm : mem.length = c.sz)
    (ops : List Op) (hl : ∀ op ∈ ops, Legal f op) :
    ∃ w0 outs w', start c f mem = .ok w0 ∧ runOps (step c f) w0 ops = (outs, .ok w') ∧
      ((∀ i, i ≤ ops.length → (wire c (emitted f On.none (ops.take i))).length ≤ c.sz + ((outs.take i).flatMap readBytes).length) →
        ∃ unread, outs.flatMap readBytes ++ unread = wire c (emitted f On.none ops) ∧
          ∀ d, d.length = c.sz → ∃ w'' n b, step c f w' (.whole d c.sz) = .ok (w'', .buffer n b) ∧ b.take n = unread) := by
  obtain ⟨w0, h1, h2⟩ := start_rep hc mem hm
  obtain ⟨outs, w', a', k1, k2, k3⟩ := run_rep hc ops w0 _ hl h2
  refine ⟨w0, outs, w', h1, k1, fun hk => ⟨a'.unread, ?_, fun d hd => ?_⟩⟩
  · have := keeps_up ops Abs.init outs a' [] [FLG] k3 rfl (fun i hi => by
      simpa [wire, Abs.init] using hk i hi)
    simpa [wire, Abs.init] using this
  · obtain ⟨w2, o, a2, g1, _, g3⟩ := step_rep hc k2 (.whole d c.sz) (by simp [Legal, hd])
    cases g3 with
    | whole _ _ _ _ hs =>
      obtain ⟨b, rfl, hb, _⟩ := whole_inv hs
      refine ⟨w2, _, b, g1, ?_⟩
      rw [hb, List.take_of_length_le k2.stm.le]

/-- Reads between the trace points; the reader keeps up. -/
example : (emitted exF On.none [.event true 33, .trace .woAoSig 33 1 [.u8 1], .block 4, .get, .trace .woAoSig 33 2 [.u8 2],
    .trace .woAoSig 34 2 [.u8 2]]).length = 2 := by decide

/-! ## C50 -/

theorem sum_raw {c : Cfg} (h : c.chkEn = true) (n : Byte) (r : Record) : sum (raw c n r) = 0#8 := by
  rw [raw, if_pos h, sum_append]
  simp only [sum, BitVec.add_zero]
  rw [BitVec.add_right_neg]

theorem mem_raws {c : Cfg} : ∀ (rs : List Record) (n : Byte) (m : List Byte), m ∈ raws c n rs → ∃ k r, m = raw c k r := by
  intro rs
  induction rs with
  | nil => intro n m h; cases h
  | cons r rs ih =>
    intro n m h
    rw [raws, List.mem_cons] at h
    rcases h with rfl | h
    · exact ⟨n, r, rfl⟩
    · exact ih _ m h

/-- **C50.** With checksums enabled, every record the receiver recovers, after any records were written through the trace
calls, sums to zero; and changing any single byte of it makes the sum non-zero. -/
theorem received_checksum_is_zero {c : Cfg} {f : FCfg} (hc : CfgOk c f) (hchk : c.chkEn = true) (mem : List Byte)
    (hm : mem.length = c.sz) (rs : List Record) (hrs : ∀ r ∈ rs, ∀ x ∈ r.fs, FieldOk x) (d : List Byte) (hd : d.length = c.sz) :
    ∃ w0 outs w' n b, start c f mem = .ok w0 ∧
      runOps (step c f) w0 (rs.map callOf ++ [.whole d c.sz]) = (outs, .ok w') ∧ outs.getLast? = some (.buffer n b) ∧
      ∀ m ∈ receive (b.take n), sum m = 0#8 ∧
        ∀ l x r, m = l ++ x :: r → ∀ y, y ≠ x → sum (l ++ y :: r) ≠ 0#8 := by
  obtain ⟨w0, outs, w', n, b, lost, kept, h1, h2, h3, h4, h5, _⟩ := written_records_are_received hc mem hm rs hrs d hd
  refine ⟨w0, outs, w', n, b, h1, h2, h3, fun m hmem => ?_⟩
  rw [h5] at hmem
  obtain ⟨k, r, rfl⟩ := mem_raws rs 0#8 m (by rw [h4]; simp [hmem])
  refine ⟨sum_raw hchk k r, ?_⟩
  intro l x s hl y hy hsum
  have h0 := sum_raw hchk k r
  rw [hl, sum_append, sum] at h0
  rw [sum_append, sum, ← h0] at hsum
  apply hy
  have e1 : y + sum s = x + sum s := by
    have := congrArg (fun z => -(sum l) + z) hsum
    simpa [← BitVec.add_assoc, BitVec.add_left_neg] using this
  have := congrArg (fun z => z + -(sum s)) e1
  simpa [BitVec.add_assoc, BitVec.add_right_neg] using this

example : sum (raw exCfg 5 ⟨false, 33, 9, [.u32 0xDEADBEEF, .fmtStr [104, 105, 0]]⟩) = 0#8 := by decide

/-! ## C51 -/

/-- **C51.** The un-stuffed bytes of every record parse back to the identifier, sequence number, time stamp (reduced to
its configured width) and the values passed in the fields: 8-, 16- and 32-bit integers, strings, memory blocks. What
remains is the checksum byte, if enabled. -/
theorem fields_roundtrip (c : Cfg) (n : Byte) (r : Record) (hr : ∀ x ∈ r.fs, FieldOk x) :
    parse (hdrTy c r ++ r.fs.flatMap fieldTy) (raw c n r) =
      some (hdrVal c n r ++ r.fs.flatMap fieldVal, if c.chkEn then [-(sum (body c n r))] else []) := by
  have nil : ∀ bs, parse [] bs = some ([], bs) := fun _ => rfl
  unfold raw body
  rw [List.append_assoc]
  refine parse_append ?_ (parse_fields r.fs hr _)
  generalize r.fs.flatMap fieldBytes ++ _ = rest
  unfold hdrTy hdrVal tsBytes
  have hts1 : le (leBytes 1 r.ts.toNat) = r.ts.toNat % 2 ^ 8 := le_leBytes 1 _
  have hts2 : le (leBytes 2 r.ts.toNat) = r.ts.toNat % 2 ^ 16 := le_leBytes 2 _
  refine parse_cons (parse1_u8 r.eid _) ?_
  cases r.dft with
  | true => exact nil _
  | false =>
    simp only [Bool.false_eq_true, if_false, List.append_assoc]
    have hts : ∀ rest, parse (match c.ts with | .off => [] | .b8 => [Ty.int 1] | .b16 => [.int 2] | .b32 => [.int 4])
        ((match c.ts with
          | .off => [] | .b8 => leBytes 1 r.ts.toNat | .b16 => leBytes 2 r.ts.toNat | .b32 => leBytes 4 r.ts.toNat) ++ rest) =
        some ((match c.ts with
          | .off => [] | .b8 => [Val.int (r.ts.toNat % 2 ^ 8)] | .b16 => [.int (r.ts.toNat % 2 ^ 16)]
          | .b32 => [.int r.ts.toNat]), rest) := by
      intro rest
      cases c.ts with
      | off => exact nil _
      | b8 =>
        refine parse_cons ?_ (nil _)
        have : leBytes 1 r.ts.toNat = [BitVec.ofNat 8 r.ts.toNat] := rfl
        rw [this]
        have := parse1_u8 (BitVec.ofNat 8 r.ts.toNat) rest
        simpa using this
      | b16 =>
        refine parse_cons ?_ (nil _)
        have h2 : leBytes 2 r.ts.toNat = leBytes 2 (r.ts.toNat % 2 ^ 16) := by
          simp only [leBytes, List.cons.injEq, and_true]
          constructor <;> apply BitVec.eq_of_toNat_eq <;> simp <;> omega
        rw [h2]
        exact parse1_int 2 _ rest (by have := Nat.mod_lt r.ts.toNat (show 0 < 2 ^ 16 by decide); simpa using this)
      | b32 => exact parse_cons (parse1_int 4 _ rest (by have := r.ts.isLt; simpa using this)) (nil _)
    cases c.nseqEn with
    | true => exact parse_append (parse_cons (parse1_u8 n _) (nil _)) (hts rest)
    | false => exact hts rest

example : parse [.int 1, .int 1, .int 1, .int 1, .int 4, .int 1, .text]
    (raw exCfg 5 ⟨false, 33, 9, [.fmtU32 6 0xDEADBEEF, .fmtStr [104, 105, 0]]⟩) =
    some ([.int 33, .int 5, .int 9, .int 6, .int 0xDEADBEEF, .int 7, .text [104, 105]], [0xBB]) := by decide

/-! ## C61 -/

/-- **C61.** Sequence numbers count the records with a full header, modulo 256: the `i`-th record written carries the
number of such records before it. -/
theorem sequence_numbers_consecutive {c : Cfg} (hn : c.nseqEn = true) (rs : List Record) (i : Nat) (r : Record)
    (hi : rs[i]? = some r) :
    (raws c 0#8 rs)[i]? = some (raw c (BitVec.ofNat 8 ((rs.take i).countP fun r => !r.dft)) r) := by
  have key : ∀ (rs : List Record) (i : Nat) (n : Byte), rs[i]? = some r →
      (raws c n rs)[i]? = some (raw c (n + BitVec.ofNat 8 ((rs.take i).countP fun r => !r.dft)) r) := by
    intro rs
    induction rs with
    | nil => intro i n h; simp at h
    | cons s rs ih =>
      intro i n h
      cases i with
      | zero =>
        simp only [List.getElem?_cons_zero, Option.some.injEq] at h
        subst h; simp [raws]
      | succ i =>
        rw [List.getElem?_cons_succ] at h
        rw [raws, List.getElem?_cons_succ, ih i _ h, List.take_succ_cons, List.countP_cons]
        congr 2
        simp only [nextSeq, hn]
        cases s.dft with
        | true => simp
        | false =>
          simp only [Bool.not_true, Bool.or_false, Bool.false_eq_true, if_false, Bool.not_false, if_true]
          rw [BitVec.ofNat_add, BitVec.add_assoc, BitVec.add_comm 1#8]
  simpa using key rs i 0#8 hi

/-- The 257th full record has sequence number 0 again. -/
example : (raws exCfg 0#8 (List.replicate 257 ⟨false, 1, 0, []⟩))[256]? = some (raw exCfg 0 ⟨false, 1, 0, []⟩) := by decide +kernel

/-! ## C54, C58, C59, C60: places where the code departs from the intention -/

/-- **C54, negation.** With assertions enabled, one past the last slot passes the range check and writes behind the table. -/
theorem symbol_filter_accepts_slot_past_table (f : FCfg) (t : Flt) (d : Tbl) (emit : Bool)
    (ht : (tbl t d).length = tblSize f d) (hm : 8 * tblSize f d < slotMod f) :
    symFil f t d (8 * tblSize f d) (symMode emit false) = .ub ∧
      (8 * tblSize f d < 256 → symFilIsOff f t d (8 * tblSize f d) = .ub) := by
  have hle : 8 * tblSize f d ≤ tblSize f d <<< 3 := by rw [Nat.shiftLeft_eq]; omega
  have hix : RdyGrp.ix (tbl t d) (tblSize f d) = .ub := by simp [RdyGrp.ix, ht]
  obtain ⟨m1, m2⟩ := mode_split emit false
  constructor
  · unfold symFil
    simp only [Nat.mod_eq_of_lt hm, assertIf, hle, decide_true, Bool.not_true, Bool.and_false, Bool.false_eq_true, if_false, Res.bind]
    rw [if_neg (fun hc => by simpa using m2.mp hc)]
    unfold setOneAt
    rw [RdyGrp.shr3, show 8 * tblSize f d / 8 = tblSize f d by omega, hix]
    rfl
  · intro h256
    unfold symFilIsOff isOffFilter
    simp only [Nat.mod_eq_of_lt hm, Nat.mod_eq_of_lt h256, assertIf, hle, decide_true, Bool.not_true, Bool.and_false, Bool.false_eq_true, if_false, Res.bind]
    rw [RdyGrp.shr3, show 0 + 8 * tblSize f d / 8 = tblSize f d by omega, hix]

example : symFil exF (fltInit exF) .signal 16 (symMode true false) = .ub := by decide

/-- **C54, positive part.** With assertions enabled, slots beyond that one are rejected; slots below the limits are
accepted. -/
theorem symbol_filter_range_check_partial {f : FCfg} (hs : f.maxSma ≤ 64 ∧ f.maxSig ≤ 2040) {t : Flt} {a : On} (h : FRep f t a)
    (hen : f.assertEn = true) (d : Tbl) (slot : Nat) (hslot : slot < slotMod f) (emit all : Bool) :
    (8 * tblSize f d < slot → symFil f t d slot (symMode emit all) = .assert) ∧
    (SlotOk f d slot → ∃ t', symFil f t d slot (symMode emit all) = .ok t' ∧ FRep f t' (sym a d slot emit all)) := by
  refine ⟨fun hgt => ?_, fun hok => symFil_rep hs h d hok emit all⟩
  have : ¬ slot ≤ tblSize f d <<< 3 := by rw [Nat.shiftLeft_eq]; omega
  simp [symFil, Nat.mod_eq_of_lt hslot, assertIf, hen, this]

/-- **C58, negation.** The identifier of the unit-test success event is the "all events" code, so suppressing that one
event suppresses all of them; and the unit-test failure event cannot be named in an event filter at all. -/
theorem success_event_is_all_events (f : FCfg) (hen : f.assertEn = true) :
    UT_SUCCESS = ALL_EVENTS ∧ Used UT_SUCCESS ∧ Used UT_FAIL ∧
    (∀ (t : Flt), t.evt.length = 17 → ∃ t', filterEvent f t (ctl false) UT_SUCCESS = .ok t' ∧
      ∀ e, Used e → isOff t' e = .ok false) ∧
    ∀ (t : Flt) (emit : Bool), filterEvent f t (ctl emit) UT_FAIL = .assert := by
  refine ⟨by decide, by decide, by decide, ?_, ?_⟩
  · intro t ht
    obtain ⟨l', g1, g2, g3⟩ := setAllFilters_ok t.evt false (ft := 0) (size := evtBytes) (by decide) (by rw [ht]; decide)
    refine ⟨{ t with evt := l', grp := 0#8 }, ?_, ?_⟩
    · simp only [filterEvent, assertIf, show decide (UT_SUCCESS ≤ ALL_EVENTS) = true by decide, Bool.not_true, Bool.and_false,
        Bool.false_eq_true, if_false, Res.bind]
      rw [if_pos (by decide), g1, if_neg (by decide)]
      rfl
    · intro e he
      obtain ⟨u1, _, _⟩ := used_pos he
      obtain ⟨k1, _, _⟩ := gmtbl_ok u1
      simp [isOff, getGrp_eq he.1, k1, RdyGrp.mask_ok _ u1]
  · intro t emit
    simp [filterEvent, assertIf, hen, show ¬ UT_FAIL ≤ ALL_EVENTS by decide]

/-- **C59, negation.** Signals from 256 on share the filter of the signal modulo 256: what is read is the bit of `s % 256`
although the bit of `s` was set. -/
theorem signal_filter_aliases_from_256 (f : FCfg) (hs : f.maxSig ≤ 2040 ∧ f.maxSma ≤ 64) (t : Flt) (s : Nat)
    (h : s < f.maxSig) (h2 : t.sig.length = tblBytes f.maxSig) :
    symFilIsOff f t .signal s = .ok (bitAt t.sig (s % 256)) := by
  have hm := slotMod_gt ⟨hs.2, hs.1⟩ (d := .signal) h
  have hle := slot_le_row (d := .signal) h
  have hrow := slot_row (d := .signal) h
  unfold symFilIsOff
  simp only [Nat.mod_eq_of_lt hm, assertIf, hle, decide_true, Bool.not_true, Bool.and_false, Bool.false_eq_true, if_false, Res.bind]
  have : isOffFilter (tbl t .signal) 0 s = isOffFilter (tbl t .signal) 0 (s % 256) := by simp [isOffFilter]
  rw [this, isOffFilter_ok _ 0 (by omega) (by
    have : (tbl t .signal).length = tblSize f .signal := h2
    rw [this]
    have : s % 256 / 8 ≤ s / 8 := Nat.div_le_div_right (Nat.mod_le _ _)
    omega)]
  simp [tbl]

/-- Enabling signal 256 leaves it filtered out, and disabling signal 0 filters signal 256. -/
example : ((symFil ⟨8, 512, true, true, true, 65534⟩ (fltInit ⟨8, 512, true, true, true, 65534⟩) .signal 256 (symMode true false)).bind
    fun t => symFilIsOff ⟨8, 512, true, true, true, 65534⟩ t .signal 256) = .ok false := by decide +kernel

/-- **C60, negation.** "All signals" with a table of more than 255 bytes writes past the table, whatever the table. -/
theorem set_all_signals_overruns_large_tables (f : FCfg) (t : Flt) (slot : Nat) (emit : Bool)
    (hbig : 2040 < f.maxSig) (hslot : slot % slotMod f ≤ tblSize f .signal <<< 3) :
    symFil f t .signal slot (symMode emit true) = .ub := by
  have loop : ∀ (k : Nat) (c : Byte) (size : Nat) (l : List Byte) (ft ix : Nat), 256 ≤ size → ix < 256 → l.length - ft = k →
      setAllLoop c size l ft ix = .ub := by
    intro k
    induction k with
    | zero =>
      intro c size l ft ix h1 h2 h3
      rw [setAllLoop, if_pos (by omega), if_neg (by omega)]
    | succ k ih =>
      intro c size l ft ix h1 h2 h3
      rw [setAllLoop, if_pos (by omega), if_pos (by omega)]
      exact ih _ _ _ _ _ h1 (by omega) (by simp; omega)
  have hsz : 256 ≤ tblSize f .signal := by simp only [tblSize, tblBytes]; split <;> omega
  obtain ⟨m1, m2⟩ := mode_split emit true
  unfold symFil
  simp only [assertIf, hslot, decide_true, Bool.not_true, Bool.and_false, Bool.false_eq_true, if_false, Res.bind]
  rw [if_pos (m2.mpr rfl)]
  unfold setAllFilters
  rw [loop _ _ _ _ _ _ hsz (by omega) rfl]
  rfl

example : 2040 < (⟨8, 2048, true, true, true, 65534⟩ : FCfg).maxSig ∧
    0 % slotMod ⟨8, 2048, true, true, true, 65534⟩ ≤ tblSize ⟨8, 2048, true, true, true, 65534⟩ .signal <<< 3 := by decide

end Verif.Trc
