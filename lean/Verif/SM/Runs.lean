import Verif.SM.Det
/-
Histories of a state machine: reachable situations and what always holds in them.
-/
namespace Verif.SM.Spec
open Verif.SM

/-- A log is settled if no state has been entered or left since the last stable state was reported. -/
def settled : List Obs → Bool → Bool
  | [], b => b
  | .entry _ :: os, _ => settled os false
  | .exit _ :: os, _ => settled os false
  | .stable _ :: os, _ => settled os true
  | _ :: os, b => settled os b

/-- The last reported stable state. -/
def lastStable : List Obs → Option Vid → Option Vid
  | [], r => r
  | .stable v :: os, _ => lastStable os (some v)
  | _ :: os, r => lastStable os r

/-- The call returned to the application, with success or with an error code. -/
def Returns (r : Ans Unit) : Prop := r = .ok () ∨ ∃ c, r = .stop (.rc c)

/-- Situations after any sequence of calls. A machine is abandoned if a dispatch fails half-way, i.e. after some states
have been entered or left; such a failure is visible to the application in the log. -/
inductive Reached (m : Machine) (env : Env) : Mem → Prop where
  | init {f : Nat} {s : Mem} {r : Ans Unit} : init m env f (mem0 m) = (s, r) → Returns r → settled s.log true = true →
      Reached m env s
  | dispatch {f : Nat} {e : Sig} {s s' : Mem} {r : Ans Unit} : Reached m env s → e ≠ sigCreation →
      dispatch m env f e s = (s', r) → Returns r → settled s'.log true = true → Reached m env s'
  | clear {h : Vid} {s s' : Mem} {r : Ans Unit} : Reached m env s → clearHistory h s = (s', r) → Reached m env s'

end Verif.SM.Spec

namespace Verif.SM
open Eng Spec

theorem settled_append (a b : List Obs) (x : Bool) : settled (a ++ b) x = settled b (settled a x) := by
  induction a generalizing x with
  | nil => rfl
  | cons o a ih => cases o <;> simp only [List.cons_append, settled] <;> exact ih _

theorem lastStable_append (a b : List Obs) (x : Option Vid) : lastStable (a ++ b) x = lastStable b (lastStable a x) := by
  induction a generalizing x with
  | nil => rfl
  | cons o a ih => cases o <;> simp only [List.cons_append, lastStable] <;> exact ih _

theorem settled_quiet {l : List Obs} (h : ∀ o ∈ l, Quiet o) (x : Bool) : settled l x = x := by
  induction l generalizing x with
  | nil => rfl
  | cons o l ih =>
    have h1 := h o (by simp)
    have h2 := ih fun o ho => h o (by simp [ho])
    cases o with
    | act a e => exact h2 x
    | guard g e b => exact h2 x
    | _ => exact h1.elim

theorem settled_noHist {l : List Obs} (h : ∀ o ∈ l, NoHist o) : settled l false = false := by
  induction l with
  | nil => rfl
  | cons o l ih =>
    have h1 := h o (by simp)
    have h2 := ih fun o ho => h o (by simp [ho])
    cases o <;> simp_all [settled, NoHist]

theorem lastStable_noStable {l : List Obs} (h : ∀ v, .stable v ∉ l) (x : Option Vid) : lastStable l x = x := by
  induction l generalizing x with
  | nil => rfl
  | cons o l ih =>
    have h2 := ih fun v hv => h v (by simp [hv])
    cases o with
    | stable v => exact absurd (by simp) (h v)
    | _ => simp only [lastStable]; exact h2 _

theorem Ext.settled {log log' : List Obs} (h : Ext log log') {x : Bool} : settled log' x = settled log x := by
  obtain ⟨l, rfl, hl⟩ := h
  rw [settled_append, settled_quiet hl]

theorem Ext.replay {m : Machine} {log log' : List Obs} (h : Ext log log') {x : List Vid} :
    replay m log' x = replay m log x := by
  obtain ⟨l, rfl, hl⟩ := h
  rw [replay_append]
  cases hr : Spec.replay m log x with
  | none => rfl
  | some st => exact replay_silent (fun o ho => (hl o ho).silent) st

theorem Ext.lastStable {log log' : List Obs} (h : Ext log log') {x : Option Vid} :
    lastStable log' x = lastStable log x := by
  obtain ⟨l, rfl, hl⟩ := h
  rw [lastStable_append]
  exact lastStable_noStable (fun v hv => hl _ hv) _

/-- Leaving and entering states in the log of a transition. -/
theorem replay_move {m : Machine} {cs ts : Vid} {l lt : List Vid} (hl : Path m cs l) (hlt : Path m ts lt) {q : List Obs}
    (hq : ∀ o ∈ q, Quiet o) :
    replay m ((exited l lt).map .exit ++ q ++ (entered l lt).reverse.map .entry) l = some lt := by
  have key : ∃ a b c, l = a ++ c ∧ lt = b ++ c ∧ exited l lt = a ∧ entered l lt = b := by
    by_cases he : l = lt
    · subst he
      obtain ⟨r, rfl⟩ := hl.cons
      exact ⟨[cs], [cs], r, rfl, rfl, by simp [exited], by simp [entered]⟩
    · obtain ⟨a, b, c, h1, h2, ha, hb⟩ := hl.split hlt
      exact ⟨a, b, c, h1, h2, by unfold exited; rw [if_neg he]; exact filter_split h1 h2 ha,
        by unfold entered; rw [if_neg he]; exact filter_split h2 h1 hb⟩
  obtain ⟨a, b, c, h1, h2, h3, h4⟩ := key
  rw [h3, h4, replay_append, replay_append]
  subst h1
  rw [replay_exits]
  simp only [Option.bind_some]
  rw [replay_silent fun o ho => (hq o ho).silent]
  simp only [Option.bind_some]
  subst h2
  exact replay_entries b hlt

/-- The log of a finished transition. -/
theorem goes_ok {m : Machine} {env : Env} {e : Sig} {cs ts w : Vid} {pend : List Act} {log log' : List Obs}
    {l : List Vid} (hl : Path m cs l) (hr : replay m log [] = some l)
    (h : Goes m env e cs ts pend log (.ok w) log') : ∃ lw, Path m w lw ∧ IsLeaf m w ∧ replay m log' [] = some lw ∧
      settled log' true = true ∧ lastStable log' none = some w := by
  obtain ⟨l', lt, hl', hlt, hc⟩ := h
  have := hl'.unique hl
  subst this
  cases hc with
  | ok hde =>
    obtain ⟨q, lw, rfl, _, h2, h3, h4⟩ := hde.facts hlt
    refine ⟨lw, h3, h2, ?_, ?_, ?_⟩
    · have : log ++ (exited l' lt).map .exit ++ acts e pend ++ (entered l' lt).reverse.map .entry ++ q ++ [.stable w] =
        log ++ ((exited l' lt).map .exit ++ acts e pend ++ (entered l' lt).reverse.map .entry ++ (q ++ [.stable w])) := by
        simp
      rw [this, replay_append, hr]
      simp only [Option.bind_some]
      rw [replay_append, replay_move hl' hlt (by
        intro o ho; obtain ⟨a, _, rfl⟩ := List.mem_map.1 ho; trivial)]
      simp only [Option.bind_some]
      rw [replay_append, h4]
      rfl
    · rw [settled_append]; rfl
    · rw [lastStable_append]; rfl

/-- The log of a transition that failed half-way is not settled. -/
theorem goes_failed {m : Machine} (wf : WellFormed m) {env : Env} {e : Sig} {cs ts : Vid} {c : RC} {pend : List Act}
    {log log' : List Obs} (hcs : IsLeaf m cs) (h : Goes m env e cs ts pend log (.failed c) log') {x : Bool} :
    settled log' x = false := by
  obtain ⟨l', lt, hl', hlt, hc⟩ := h
  obtain ⟨r, hr⟩ := exited_cons hl' hlt hcs wf
  cases hc with
  | failed hds =>
    obtain ⟨q, rfl, hq⟩ := hds.facts
    rw [settled_append, settled_append, settled_append, settled_append]
    have h1 : ∀ (l : List Vid) (y : Bool), l ≠ [] → settled (l.map .exit) y = false := by
      intro l
      induction l with
      | nil => intro y h; exact absurd rfl h
      | cons v l ih =>
        intro y _
        simp only [List.map_cons, settled]
        cases l with
        | nil => rfl
        | cons w l => exact ih _ (by simp)
    rw [h1 _ _ (by rw [hr]; simp)]
    rw [settled_noHist (l := acts e pend) (by intro o ho; obtain ⟨a, _, rfl⟩ := List.mem_map.1 ho; trivial)]
    rw [settled_noHist (l := List.map .entry _) (by intro o ho; obtain ⟨a, _, rfl⟩ := List.mem_map.1 ho; trivial)]
    exact settled_noHist hq

/-- Everything an outcome tells about the log. -/
theorem turn_facts {m : Machine} (wf : WellFormed m) {env : Env} {e : Sig} {cs : Vid} {log log' : List Obs} {o : Outcome}
    (h : Turn m env e cs log o log') (hcs : IsLeaf m cs) {l : List Vid} (hl : Path m cs l)
    (hr : replay m log [] = some l) :
    match o with
    | .internal => Ext log log'
    | .ok w => ∃ lw, Path m w lw ∧ IsLeaf m w ∧ replay m log' [] = some lw ∧ settled log' true = true ∧
        lastStable log' none = some w
    | .failed _ => Ext log log' ∨ settled log' true = false := by
  cases h with
  | none _ hn => exact .inl hn.ext
  | taken hp hs ht =>
    cases ht with
    | internal => exact (selected_ext hs).trans (Ext.acts _ _ _)
    | external _ hc =>
      cases hc with
      | stuck hst => exact .inl ((selected_ext hs).trans hst.ext)
      | moves hf hg =>
        have hx := (selected_ext hs).trans hf.ext
        cases o with
        | internal => obtain ⟨_, _, _, _, hc⟩ := hg; cases hc
        | ok w => exact goes_ok hl (by rw [hx.replay]; exact hr) hg
        | failed c => exact .inr (goes_failed wf hcs hg)

/-- Reported stable states are basic or final states. -/
def Stables (m : Machine) (log : List Obs) : Prop := ∀ v, .stable v ∈ log → IsLeaf m v

theorem Stables.noHist {m : Machine} {log l : List Obs} (h : Stables m log) (hl : ∀ o ∈ l, NoHist o) :
    Stables m (log ++ l) := by
  intro v hv
  rcases List.mem_append.1 hv with hv | hv
  · exact h v hv
  · exact (hl _ hv).elim

theorem Stables.ext {m : Machine} {log log' : List Obs} (h : Stables m log) (he : Ext log log') : Stables m log' := by
  obtain ⟨l, rfl, hl⟩ := he
  exact h.noHist fun o ho => (hl o ho).noHist

theorem Stables.append {m : Machine} {log l : List Obs} (h : Stables m log) (hl : ∀ v, .stable v ∉ l) :
    Stables m (log ++ l) := by
  intro v hv
  rcases List.mem_append.1 hv with hv | hv
  · exact h v hv
  · exact absurd hv (hl v)

theorem completes_stables {m : Machine} {env : Env} {e : Sig} {hist : Vid → Option Vid} {ts : Vid} {lt : List Vid}
    (hlt : Path m ts lt) {log log' : List Obs} {o : Outcome} (h : Completes m env e hist ts log o log')
    (hs : Stables m log) : Stables m log' := by
  cases h with
  | ok hde =>
    obtain ⟨q, lw, rfl, h1, h2, _⟩ := hde.facts hlt
    intro v hv
    rcases List.mem_append.1 hv with hv | hv
    · exact hs.noHist h1 v hv
    · simp only [List.mem_singleton, Obs.stable.injEq] at hv; subst hv; exact h2
  | failed hds => obtain ⟨q, rfl, hq⟩ := hds.facts; exact hs.noHist hq

theorem turn_stables {m : Machine} {env : Env} {e : Sig} {cs : Vid} {log log' : List Obs} {o : Outcome}
    (h : Turn m env e cs log o log') (hs : Stables m log) : Stables m log' := by
  cases h with
  | none _ hn => exact hs.ext hn.ext
  | taken _ hsel ht =>
    have hs := hs.ext (selected_ext hsel)
    cases ht with
    | internal => exact hs.ext (Ext.acts _ _ _)
    | external _ hc =>
      cases hc with
      | stuck hst => exact hs.ext hst.ext
      | moves hf hg =>
        have hs := hs.ext hf.ext
        obtain ⟨l, lt, _, hlt, hc⟩ := hg
        exact completes_stables hlt hc (((hs.append (by simp)).ext (Ext.acts _ _ _)).append (by simp))

theorem dispatches_stables {m : Machine} {env : Env} {e : Sig} {cs cs' : Vid} {log log' : List Obs} {r : Ans Unit}
    (h : Dispatches m env e cs log cs' log' r) (hs : Stables m log) : Stables m log' := by
  induction h with
  | internal ht => exact turn_stables ht hs
  | ok ht _ => exact turn_stables ht hs
  | failed ht => exact turn_stables ht hs
  | completion ht _ _ ih => exact ih (turn_stables ht hs)

theorem creates_stables {m : Machine} {env : Env} {log' : List Obs} {o : Outcome} (h : Creates m env [] o log') :
    Stables m log' := by
  obtain ⟨l, hl, hc⟩ := h
  refine completes_stables hl hc ?_
  intro v hv
  simp [acts] at hv

theorem inits_stables {m : Machine} {env : Env} {cs' : Vid} {log' : List Obs} {r : Ans Unit}
    (h : Inits m env [] cs' log' r) : Stables m log' := by
  cases h with
  | ok hc _ => exact creates_stables hc
  | failed hc => exact creates_stables hc
  | completion hc _ hd => exact dispatches_stables hd (creates_stables hc)

/-- What holds in every reachable situation. -/
structure Inv (m : Machine) (s : Mem) (cs : Vid) (l : List Vid) : Prop where
  rep : Rep m s cs
  path : Path m cs l
  replay : replay m s.log [] = some l
  settled : settled s.log true = true
  last : lastStable s.log none = some cs
  stables : Stables m s.log

theorem dispatches_facts {m : Machine} (wf : WellFormed m) {env : Env} {e : Sig} {cs cs' : Vid} {log log' : List Obs}
    {r : Ans Unit} (h : Dispatches m env e cs log cs' log' r) : IsLeaf m cs → ∀ {l : List Vid}, Path m cs l →
    replay m log [] = some l → settled log true = true → lastStable log none = some cs →
    lastStable log' none = some cs' ∧
    ((∃ l', Path m cs' l' ∧ replay m log' [] = some l' ∧ settled log' true = true) ∨
      (settled log' true = false ∧ ∃ c, r = .stop (shown m c))) := by
  induction h with
  | internal ht =>
    intro hcs l hl hr hs hls
    have := turn_facts wf ht hcs hl hr
    exact ⟨by rw [this.lastStable, hls], .inl ⟨l, hl, by rw [this.replay, hr], by rw [this.settled, hs]⟩⟩
  | ok ht _ =>
    intro hcs l hl hr hs hls
    obtain ⟨lw, h1, _, h2, h3, h4⟩ := turn_facts wf ht hcs hl hr
    exact ⟨h4, .inl ⟨lw, h1, h2, h3⟩⟩
  | @failed e cs log log' c ht =>
    intro hcs l hl hr hs hls
    have hst : lastStable log' none = some cs := by
      rw [← hls]
      cases ht with
      | none _ hn => exact hn.ext.lastStable
      | taken hp hsel htk =>
        rcases htk with _ | ⟨_, hcn⟩
        cases hcn with
        | stuck hst => exact ((selected_ext hsel).trans hst.ext).lastStable
        | moves hf hg =>
          have hx := (selected_ext hsel).trans hf.ext
          rw [← hx.lastStable]
          obtain ⟨l', lt, hl', hlt, hc⟩ := hg
          cases hc with
          | failed hds =>
            obtain ⟨q, rfl, hq⟩ := hds.facts
            rw [lastStable_append, lastStable_append, lastStable_append, lastStable_append]
            rw [lastStable_noStable (l := q) fun v hv => hq _ hv]
            rw [lastStable_noStable (by simp), lastStable_noStable (by simp [acts]), lastStable_noStable (by simp)]
    rcases turn_facts wf ht hcs hl hr with h | h
    · exact ⟨hst, .inl ⟨l, hl, by rw [h.replay, hr], by rw [h.settled, hs]⟩⟩
    · exact ⟨hst, .inr ⟨h, _, rfl⟩⟩
  | completion ht _ _ ih =>
    intro hcs l hl hr hs hls
    obtain ⟨lw, h1, h2, h3, h4, h5⟩ := turn_facts wf ht hcs hl hr
    exact ih h2 h1 h3 h4 h5

theorem creates_facts {m : Machine} {env : Env} {o : Outcome} {log' : List Obs}
    (h : Creates m env [] o log') :
    match o with
    | .internal => False
    | .ok w => ∃ lw, Path m w lw ∧ IsLeaf m w ∧ replay m log' [] = some lw ∧ settled log' true = true ∧
        lastStable log' none = some w
    | .failed _ => settled log' true = false := by
  obtain ⟨l, hl, hc⟩ := h
  cases hc with
  | ok hde =>
    rename_i w _
    obtain ⟨q, lw, rfl, _, h2, h3, h4⟩ := hde.facts hl
    refine ⟨lw, h3, h2, ?_, ?_, ?_⟩
    · simp only [List.nil_append]
      rw [replay_append, replay_append, replay_append, replay_silent (by
        intro o ho; obtain ⟨a, _, rfl⟩ := List.mem_map.1 ho; trivial)]
      simp only [Option.bind_some]
      have := replay_entries (m := m) l (t := m.istate) (c := []) (by simpa using hl)
      rw [List.append_nil] at this
      rw [this]
      simp only [Option.bind_some]
      rw [h4]
      rfl
    · rw [settled_append]; rfl
    · rw [lastStable_append]; rfl
  | failed hds =>
    obtain ⟨q, rfl, hq⟩ := hds.facts
    rw [settled_append, settled_append]
    have h1 : ∀ (l : List Vid) (y : Bool), l ≠ [] → settled (l.map .entry) y = false := by
      intro l
      induction l with
      | nil => intro y h; exact absurd rfl h
      | cons v l ih =>
        intro y _
        simp only [List.map_cons, settled]
        cases l with
        | nil => rfl
        | cons w l => exact ih _ (by simp)
    rw [h1 _ _ (by obtain ⟨r, rfl⟩ := hl.cons; simp)]
    exact settled_noHist hq

theorem histInv_mem0 (m : Machine) : HistInv m (mem0 m).hist (mem0 m).log := by
  intro h d p trn _
  cases d <;> rfl

theorem init_inv {m : Machine} (wf : WellFormed m) (lim : Limits m) {env : Env} {f : Nat} {s : Mem} {r : Ans Unit}
    (h : init m env f (mem0 m) = (s, r)) (hr : r ≠ .stop .fuel) :
    (∃ cs l, Inv m s cs l ∧ Inits m env [] cs s.log r) ∨ (settled s.log true = false ∧ ∃ c, r = .stop (shown m c)) := by
  obtain ⟨cs, hi, hst, hrep⟩ := create_refines wf lim (histInv_mem0 m) rfl h hr
  rcases hrep with hrep | ⟨c, hcr, rfl⟩
  · cases hi with
    | failed hc => exact .inr ⟨creates_facts hc, _, rfl⟩
    | ok hc hd =>
      obtain ⟨lw, h1, h2, h3, h4, h5⟩ := creates_facts hc
      exact .inl ⟨cs, lw, ⟨hrep, h1, h3, h4, h5, creates_stables hc⟩, .ok hc hd⟩
    | completion hc hd hds =>
      obtain ⟨lw, h1, h2, h3, h4, h5⟩ := creates_facts hc
      obtain ⟨h6, ⟨l', h7, h8, h9⟩ | ⟨h7, h8⟩⟩ := dispatches_facts wf hds h2 h1 h3 h4 h5
      · exact .inl ⟨cs, l', ⟨hrep, h7, h8, h9, h6, dispatches_stables hds (creates_stables hc)⟩, .completion hc hd hds⟩
      · exact .inr ⟨h7, h8⟩
  · exact .inr ⟨creates_facts hcr, c, rfl⟩

theorem dispatch_inv {m : Machine} (wf : WellFormed m) (lim : Limits m) {env : Env} {f : Nat} {e : Sig} {s s' : Mem}
    {r : Ans Unit} {cs : Vid} {l : List Vid} (hi : Inv m s cs l) (he : e ≠ sigCreation)
    (h : dispatch m env f e s = (s', r)) (hr : r ≠ .stop .fuel) :
    ∃ cs', Dispatches m env e cs s.log cs' s'.log r ∧ Rep m s' cs' ∧ (Ext s.log s'.log → s'.hist = s.hist) ∧
      lastStable s'.log none = some cs' ∧
      ((∃ l', Inv m s' cs' l') ∨ (settled s'.log true = false ∧ ∃ c, r = .stop (shown m c))) := by
  have h : passes m env f e false s = (s', r) := by
    unfold dispatch at h
    rw [show (e == sigCreation) = false by simpa using he] at h
    exact h
  obtain ⟨cs', h1, h2, hx⟩ := passes_refines wf lim hi.rep h hr
  obtain ⟨h3, h4⟩ := dispatches_facts wf h1 hi.rep.leaf hi.path hi.replay hi.settled hi.last
  refine ⟨cs', h1, h2, hx, h3, ?_⟩
  rcases h4 with ⟨l', h5, h6, h7⟩ | h4
  · exact .inl ⟨l', h2, h5, h6, h7, h3, dispatches_stables h1 hi.stables⟩
  · exact .inr h4

theorem returns_not_fuel {r : Ans Unit} (h : Returns r) : r ≠ .stop .fuel := by
  rcases h with rfl | ⟨c, rfl⟩ <;> simp

theorem reached_inv {m : Machine} (wf : WellFormed m) (lim : Limits m) {env : Env} {s : Mem} (h : Reached m env s) :
    ∃ cs l, Inv m s cs l := by
  induction h with
  | init h hr hs =>
    rcases init_inv wf lim h (returns_not_fuel hr) with ⟨cs, l, h1, _⟩ | ⟨h1, _⟩
    · exact ⟨cs, l, h1⟩
    · rw [hs] at h1; simp at h1
  | dispatch _ he h hr hs ih =>
    obtain ⟨cs, l, hi⟩ := ih
    obtain ⟨cs', _, _, _, _, ⟨l', h1⟩ | ⟨h1, _⟩⟩ := dispatch_inv wf lim hi he h (returns_not_fuel hr)
    · exact ⟨cs', l', h1⟩
    · rw [hs] at h1; simp at h1
  | @clear k s s' r _ h ih =>
    obtain ⟨cs, l, hi⟩ := ih
    have h : ({ s with hist := setHist s.hist k none, log := s.log ++ [.clear k] }, Ans.ok ()) = (s', r) := h
    simp only [Prod.mk.injEq] at h
    obtain ⟨rfl, _⟩ := h
    refine ⟨cs, l, ⟨hi.rep.state, hi.rep.leaf, ?_⟩, hi.path, ?_, ?_, ?_, hi.stables.append (by simp)⟩
    · intro h d p trn hh
      have := hi.rep.hist h d p trn hh
      simp only
      rw [lastChild_append, lastLeaf_append]
      cases d with
      | true =>
        simp only [if_true] at this ⊢
        simp only [lastLeaf, setHist, this]
        by_cases hk : h = k
        · simp [hk]
        · rw [if_neg hk, if_neg fun e => hk e.symm]
      | false =>
        simp only [Bool.false_eq_true, if_false] at this ⊢
        simp only [lastChild, setHist, this]
        by_cases hk : h = k
        · simp [hk]
        · rw [if_neg hk, if_neg fun e => hk e.symm]
    · simp only; rw [replay_append, hi.replay]; rfl
    · simp only; rw [settled_append, hi.settled]; rfl
    · simp only; rw [lastStable_append, hi.last]; rfl

end Verif.SM
