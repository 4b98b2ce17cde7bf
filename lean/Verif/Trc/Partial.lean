import Verif.Trc.Props
/-
What remains true of C58, C59 and C60, stated for the trace points themselves: whether a trace point with given arguments
emits its record before and after a filter call, after any history of calls.
-/
namespace Verif.Trc
open Spec

/-- The trace facility after a history of legal calls from start-up. -/
def After (c : Cfg) (f : FCfg) (w : World) : Prop :=
  ∃ mem ops w0 outs, mem.length = c.sz ∧ (∀ op ∈ ops, Legal f op) ∧ start c f mem = .ok w0 ∧
    runOps (step c f) w0 ops = (outs, .ok w)

theorem After.rep {c : Cfg} {f : FCfg} {w : World} (hc : CfgOk c f) (h : After c f w) : ∃ a, WRep c f w a := by
  obtain ⟨mem, ops, w0, outs, hm, hl, h0, hr⟩ := h
  obtain ⟨w0', h1, h2⟩ := start_rep hc mem hm
  rw [h0] at h1
  cases h1
  obtain ⟨_, w', a', k1, k2, _⟩ := run_rep hc ops w0 _ hl h2
  rw [hr] at k1
  cases k1
  exact ⟨a', k2⟩

/-- **C58** (partial: not for the unit-test success and failure events, see `success_event_is_all_events`). After any
history, for identifiers up to the last one defined, suppressing one event suppresses it and changes nothing for any other event; enabling one event enables it
and changes nothing for any event of another group, and an enabled event stays enabled. -/
theorem event_filter_is_separate_partial {c : Cfg} {f : FCfg} (hc : CfgOk c f) {w : World} (hw : After c f w) {e : Nat}
    (he : Used e) (hle : e ≤ UT_FAIL) (hne : e ≠ UT_SUCCESS ∧ e ≠ UT_FAIL) (emit : Bool) :
    ∃ w', step c f w (.event emit e) = .ok (w', .unit) ∧ passes f w'.flt .woAoSig e = .ok emit ∧
      ∀ e' k, Used e' → e' ≠ e → KindOk f k →
        (emit = false ∨ e' / 32 ≠ e / 32 → passes f w'.flt k e' = passes f w.flt k e') ∧
        (passes f w.flt k e' = .ok true → passes f w'.flt k e' = .ok true) := by
  obtain ⟨a, ha⟩ := hw.rep hc
  have hs : f.maxSma ≤ 64 ∧ f.maxSig ≤ 2040 := ⟨hc.sma.2, hc.sig.2⟩
  have hlt : e < ALL_EVENTS := by
    have h1 := hne.1
    have h2 := hne.2
    simp only [ALL_EVENTS, UT_SUCCESS, UT_FAIL, UT_IGNORE_ARG] at *
    omega
  obtain ⟨t', h1, h2⟩ := filterEvent_rep ha.flt emit (.inr ⟨he, hlt⟩)
  refine ⟨{ w with flt := t' }, by simp only [step, h1]; rfl, ?_, fun e' k he' hee hk => ⟨fun hcase => ?_, fun hon => ?_⟩⟩
  · show passes f t' .woAoSig e = _
    rw [passes_rep hs h2 he (by trivial)]
    simp only [emits, event, if_neg (show e ≠ ALL_EVENTS by omega), upd]
    cases emit <;> simp [upd]
  · show passes f t' k e' = _
    rw [passes_rep hs h2 he' hk, passes_rep hs ha.flt he' hk]
    have hg : (event a.on emit e).grp (e' / 32) = a.on.grp (e' / 32) := by
      simp only [event, if_neg (show e ≠ ALL_EVENTS by omega)]
      rcases hcase with rfl | hcase
      · simp
      · cases emit <;> simp [hcase, upd]
    have hev : (event a.on emit e).evt e' = a.on.evt e' := by
      simp [event, if_neg (show e ≠ ALL_EVENTS by omega), upd, hee]
    have hsm : (event a.on emit e).sma = a.on.sma := by simp [event, if_neg (show e ≠ ALL_EVENTS by omega)]
    have hsg : (event a.on emit e).sig = a.on.sig := by simp [event, if_neg (show e ≠ ALL_EVENTS by omega)]
    simp only [emits, hg, hev, hsm, hsg]
  · show passes f t' k e' = _
    rw [passes_rep hs ha.flt he' hk] at hon
    rw [passes_rep hs h2 he' hk]
    have hon : emits f a.on k e' = true := by simpa using hon
    have hev : (event a.on emit e).evt e' = a.on.evt e' := by
      simp [event, if_neg (show e ≠ ALL_EVENTS by omega), upd, hee]
    have hsm : (event a.on emit e).sma = a.on.sma := by simp [event, if_neg (show e ≠ ALL_EVENTS by omega)]
    have hsg : (event a.on emit e).sig = a.on.sig := by simp [event, if_neg (show e ≠ ALL_EVENTS by omega)]
    have hg : a.on.grp (e' / 32) = true → (event a.on emit e).grp (e' / 32) = true := by
      intro hgt
      simp only [event, if_neg (show e ≠ ALL_EVENTS by omega)]
      cases emit
      · simpa using hgt
      · simp [upd, hgt]
    congr 1
    cases k <;> simp only [emits, hev, hsm, hsg, Bool.and_eq_true] at hon ⊢ <;> simp_all

/-- A trace point names a signal. -/
def names (s : Nat) : Kind → Bool
  | .full _ s' => s == s'
  | .woAo s' => s == s'
  | _ => false

/-- **C59** (partial: signals below 256 only, see `signal_filter_aliases_from_256`). After any history, filtering one signal
decides about the trace points naming it as far as the signal goes, and changes nothing for trace points that do
not name it. -/
theorem signal_filter_is_separate_partial {c : Cfg} {f : FCfg} (hc : CfgOk c f) (hen : f.sigEn = true) {w : World}
    (hw : After c f w) {s : Nat} (hs : s < f.maxSig) (h256 : s < 256) (hcompl : s ≠ f.compl) (emit : Bool) :
    ∃ w', step c f w (.sym .signal s emit false) = .ok (w', .unit) ∧
      (∀ e, Used e → passes f w'.flt (.woAo s) e = (if emit then passes f w.flt .woAoSig e else .ok false)) ∧
      ∀ e k, Used e → KindOk f k → names s k = false → passes f w'.flt k e = passes f w.flt k e := by
  obtain ⟨a, ha⟩ := hw.rep hc
  have hb : f.maxSma ≤ 64 ∧ f.maxSig ≤ 2040 := ⟨hc.sma.2, hc.sig.2⟩
  obtain ⟨t', h1, h2⟩ := symFil_rep hb ha.flt .signal (slot := s) hs emit false
  refine ⟨{ w with flt := t' }, by simp only [step, h1]; rfl, fun e he => ?_, fun e k he hk hn => ?_⟩
  · show passes f t' (.woAo s) e = _
    rw [passes_rep hb h2 he (k := .woAo s) (.inr ⟨hs, h256⟩), passes_rep hb ha.flt he (by trivial)]
    simp only [emits, sym, hen]
    cases emit <;> simp [hcompl, upd]
  · show passes f t' k e = _
    rw [passes_rep hb h2 he hk, passes_rep hb ha.flt he hk]
    cases k with
    | full p s' =>
      have hn : s' ≠ s := fun h => by simp [names, h] at hn
      simp [emits, sym, upd, hn]
    | woAo s' =>
      have hn : s' ≠ s := fun h => by simp [names, h] at hn
      simp [emits, sym, upd, hn]
    | _ => simp only [emits, sym]

/-- **C60** (partial: at most 2040 signals, see `set_all_signals_overruns_large_tables`). After any history, enabling or
suppressing all signals stays inside the table, decides for every signal, and changes nothing for trace points that name
no signal. -/
theorem all_signals_stays_inside_partial {c : Cfg} {f : FCfg} (hc : CfgOk c f) (hen : f.sigEn = true) {w : World}
    (hw : After c f w) {slot : Nat} (hs : slot < f.maxSig) (emit : Bool) :
    ∃ w', step c f w (.sym .signal slot emit true) = .ok (w', .unit) ∧ w'.flt.sig.length = w.flt.sig.length ∧
      (∀ e s, Used e → s < f.maxSig → s < 256 → s ≠ f.compl →
        passes f w'.flt (.woAo s) e = (if emit then passes f w.flt .woAoSig e else .ok false)) ∧
      ∀ e k, Used e → KindOk f k → (∀ s, names s k = false) → passes f w'.flt k e = passes f w.flt k e := by
  obtain ⟨a, ha⟩ := hw.rep hc
  have hb : f.maxSma ≤ 64 ∧ f.maxSig ≤ 2040 := ⟨hc.sma.2, hc.sig.2⟩
  obtain ⟨t', h1, h2⟩ := symFil_rep hb ha.flt .signal (slot := slot) hs emit true
  refine ⟨{ w with flt := t' }, by simp only [step, h1]; rfl, ?_, fun e s he hs1 hs2 hs3 => ?_, fun e k he hk hn => ?_⟩
  · exact h2.sigLen.trans ha.flt.sigLen.symm
  · show passes f t' (.woAo s) e = _
    rw [passes_rep hb h2 he (k := .woAo s) (.inr ⟨hs1, hs2⟩), passes_rep hb ha.flt he (by trivial)]
    simp only [emits, sym, hen]
    cases emit <;> simp [hs3]
  · show passes f t' k e = _
    rw [passes_rep hb h2 he hk, passes_rep hb ha.flt he hk]
    cases k with
    | full p s => have := hn s; simp [names] at this
    | woAo s => have := hn s; simp [names] at this
    | _ => simp only [emits, sym]

/-- The hypotheses are met, e.g., after enabling two events. -/
example : CfgOk exCfg exF ∧ exF.sigEn = true ∧ ∃ w, After exCfg exF w := by
  have hc : CfgOk exCfg exF := ⟨by decide, by decide, by decide⟩
  refine ⟨hc, rfl, ?_⟩
  have hl : ∀ op ∈ [Op.event true 33, .event true 34], Legal exF op := by
    simp [Legal, Used, eventsOf, ALL_EVENTS, UT_IGNORE_ARG, UT_START]
  obtain ⟨w0, outs, w', a', h1, h2, _⟩ := trace_facility_refines hc (List.replicate exCfg.sz 0) (by simp) _ hl
  exact ⟨w', _, _, w0, outs, by simp, hl, h1, h2⟩

end Verif.Trc
