import Verif.Fwk.Model
import Verif.MemPool.Props
/-
Independent specification of the framework layer: sequences, sets and who-holds-what. There are no reference counters,
no ring buffers, no bit tables and no free-list links here. An event is given back to its pool when its last holder lets go.
-/
namespace Verif.Fwk.Spec
open Verif Verif.Fwk

/-- A bounded queue. -/
structure AQ where
  cap : Nat
  items : List Nat
  deriving DecidableEq, Repr

/-- An active object. -/
structure AAo where
  prio : Nat
  q : AQ
  deriving DecidableEq, Repr

/-- An event pool: its storage, the block size, the free blocks (next to be handed out first), the blocks handed out. -/
structure APool where
  start : Nat
  size : Nat
  bsize : Nat
  free : List Nat
  used : List Nat
  deriving DecidableEq, Repr

/-- Abstract state. `reg p` is the active object registered with priority `p`; `sub ch p` says whether priority `p` is
subscribed to `ch`; `fresh` are the allocated events that nobody has posted, deferred, published or reserved yet;
`resv` lists the reservations clients hold (one entry per reservation). -/
structure Abs where
  reg : Nat → Option Nat
  aos : List AAo
  dqs : List AQ
  sub : Nat → Nat → Bool
  pools : List APool
  sig : Nat → Nat
  fresh : List Nat
  resv : List Nat
  ph : Phase
  conts : List Cont

/-- Nothing registered, allocated or subscribed. -/
def init (sig : Nat → Nat) : Abs :=
  { reg := fun _ => none, aos := [], dqs := [], sub := fun _ _ => false, pools := [], sig := sig, fresh := [], resv := [],
    ph := .none, conts := [] }

/-- The event being dispatched. -/
def phEvts : Phase → List Nat
  | .run _ e => [e]
  | _ => []

/-- Every reference to an event that exists right now, one entry per reference: places in event queues, places in deferred
queues, reservations, the event being dispatched, and the references held by functions that are between two of
their critical sections. -/
def holders (a : Abs) : List Nat :=
  a.aos.flatMap (·.q.items) ++ a.dqs.flatMap (·.items) ++ a.resv ++ phEvts a.ph ++ a.conts.map Cont.evt

/-- Number of outstanding references to `e`. -/
def refs (a : Abs) (e : Nat) : Nat := (holders a).count e

/-- Some event is waiting for the active object with priority `p`. -/
def pending (a : Abs) (p : Nat) : Bool :=
  match a.reg p with
  | none => false
  | some i => match a.aos[i]? with
    | none => false
    | some x => !x.q.items.isEmpty

/-- Put an event at the front or at the back. A full queue is a programming error (assertion). -/
def qput (front : Bool) (q : AQ) (e : Nat) : Res AQ :=
  if q.items.length = q.cap then .assert
  else .ok { q with items := if front then e :: q.items else q.items ++ [e] }

/-- Post an event to an active object. -/
def post (front : Bool) (a : Abs) (ao e : Nat) : Res Abs :=
  match a.aos[ao]? with
  | none => .ub
  | some x => (qput front x.q e).bind fun q =>
    .ok { a with aos := a.aos.set ao { x with q := q }, fresh := a.fresh.erase e }

/-- The pool an event in use belongs to. -/
def poolOf (a : Abs) (e : Nat) : Nat := a.pools.findIdx fun P => P.used.contains e

/-- Post to the active object registered with priority `p` unless it is the sender. -/
def deliver (e : Nat) (sender : Option Nat) (a : Abs) (p : Nat) : Res Abs :=
  match a.reg p with
  | none => .assert
  | some ao => if some ao = sender then .ok a else post false a ao e

/-- The subscribers of a channel, highest priority first. -/
def subscribers (maxSma : Nat) (a : Abs) (ch : Nat) : List Nat := (List.range maxSma).filter (a.sub ch)

/-- The pool an allocation of `n` bytes is served from: the first registered one whose reported block size suffices. -/
def firstFit (a : Abs) (n : Nat) : Option Nat := a.pools.findIdx? fun P => decide (n ≤ P.bsize % 256)

/-- The next piece of a pending function (whose continuation was already removed from `a`). -/
def resumeCont (c : Cfg) (a : Abs) : Cont → Res Abs
  | .gc1 e => .ok (if c.static e then a else { a with conts := .gc2 e :: a.conts })
  | .gc2 e => .ok (if refs a e = 0 then { a with conts := .put (poolOf a e) e :: a.conts } else a)
  | .put i e =>
    match a.pools[i]? with
    | none => .ub
    | some P => .ok { a with pools := a.pools.set i { P with free := e :: P.free, used := P.used.erase e } }
  | .rc2 ao e => (post true a ao e).map' fun a => { a with conts := .rc3 ao e :: a.conts }
  | .rc3 _ _ => .ok a
  | .thr _ e => .ok (if c.static e then a else { a with conts := .gc2 e :: a.conts })

/-- Effect of one operation. -/
def step (c : Cfg) (a : Abs) : Op → Res (Abs × Out)
  | .activate p _ n =>
    if n = 0 ∨ c.maxSma ≤ p ∨ a.reg p ≠ none then .assert
    else .ok ({ a with aos := a.aos ++ [⟨p, n, []⟩],
                       reg := fun x => if x = p then some a.aos.length else a.reg x }, .num a.aos.length)
  | .terminate ao =>
    match a.aos[ao]? with
    | none => .ub
    | some x =>
      if a.reg x.prio = some ao then .ok ({ a with reg := fun y => if y = x.prio then none else a.reg y }, .unit)
      else .assert
  | .newDefer _ n => .ok ({ a with dqs := a.dqs ++ [⟨n, []⟩] }, .num a.dqs.length)
  | .regPool _ s n es =>
    if a.pools.length = c.maxPool then .assert
    else
      .ok ({ a with pools := a.pools ++
        [{ start := s, size := n, bsize := MemPool.roundUp c.mpc.psz es,
           free := MemPool.blocks s (MemPool.roundUp c.mpc.psz es) (n / MemPool.roundUp c.mpc.psz es), used := [] }] }, .unit)
  | .alloc n sig =>
    match firstFit a n with
    | none => .assert
    | some i =>
      match a.pools[i]? with
      | none => .ub
      | some P =>
        match P.free with
        | [] => .assert
        | b :: rest =>
          .ok ({ a with pools := a.pools.set i { P with free := rest, used := b :: P.used },
                        sig := fun x => if x = b then sig else a.sig x, fresh := b :: a.fresh }, .evt b)
  | .postFifo ao e => (post false a ao e).map' fun a => (a, .unit)
  | .postLifo ao e => (post true a ao e).map' fun a => (a, .unit)
  | .defer i e =>
    match a.dqs[i]? with
    | none => .ub
    | some q => (qput false q e).map' fun q => ({ a with dqs := a.dqs.set i q, fresh := a.fresh.erase e }, .unit)
  | .recall ao i =>
    match a.dqs[i]? with
    | none => .ub
    | some q =>
      match q.items with
      | [] => .ok (a, .evt 0)
      | e :: rest => .ok ({ a with dqs := a.dqs.set i { q with items := rest }, conts := .rc2 ao e :: a.conts }, .evt e)
  | .reserve e => .ok ({ a with resv := e :: a.resv, fresh := a.fresh.erase e }, .unit)
  | .gc e => .ok ({ a with resv := a.resv.erase e, conts := .gc1 e :: a.conts }, .unit)
  | .subscribe ch ao =>
    if c.maxChan ≤ ch then .assert
    else match a.aos[ao]? with
      | none => .ub
      | some x => .ok ({ a with sub := fun h p => if h = ch ∧ p = x.prio then true else a.sub h p }, .unit)
  | .unsubscribe ch ao =>
    if c.maxChan ≤ ch then .assert
    else match a.aos[ao]? with
      | none => .ub
      | some x => .ok ({ a with sub := fun h p => if h = ch ∧ p = x.prio then false else a.sub h p }, .unit)
  | .unsubscribeAll ao =>
    match a.aos[ao]? with
    | none => .ub
    | some x => .ok ({ a with sub := fun h p => if p = x.prio then false else a.sub h p }, .unit)
  | .publish ch e s =>
    (RdyGrp.foldRes (deliver e s) { a with conts := .gc1 e :: a.conts, fresh := a.fresh.erase e }
      (subscribers c.maxSma a ch)).map' fun a' => (a', .num (subscribers c.maxSma a ch).length)
  | .select =>
    match (List.range c.maxSma).find? (pending a) with
    | none => .ok (a, .idle)
    | some p => match a.reg p with
      | none => .ub
      | some ao => .ok ({ a with ph := .fetch ao }, .chose ao)
  | .fetch =>
    match a.ph with
    | .fetch ao =>
      match a.aos[ao]? with
      | none => .ub
      | some x =>
        match x.q.items with
        | [] => .assert
        | e :: rest => .ok ({ a with aos := a.aos.set ao { x with q := { x.q with items := rest } }, ph := .run ao e },
                            .dispatch ao e)
    | _ => .ub
  | .done =>
    match a.ph with
    | .run _ e => .ok ({ a with ph := .none, conts := .gc1 e :: a.conts }, .unit)
    | _ => .ub
  | .take ao =>
    match a.aos[ao]? with
    | none => .ub
    | some x =>
      match x.q.items with
      | [] => .assert
      | e :: rest => .ok ({ a with aos := a.aos.set ao { x with q := { x.q with items := rest } }, conts := .thr ao e :: a.conts },
                          .dispatch ao e)
  | .resume k =>
    match a.conts[k]? with
    | none => .ub
    | some t => (resumeCont c { a with conts := a.conts.eraseIdx k } t).map' fun a => (a, .unit)
  | .numUsed i =>
    match a.pools[i]? with
    | none => .ub
    | some P => .ok (a, .num (P.used.length % 256))

/-! ### What clients must respect -/

/-- `ao` is a currently registered active object. -/
def Registered (a : Abs) (ao : Nat) : Prop := ∃ x, a.aos[ao]? = some x ∧ a.reg x.prio = some ao

/-- A client may hand `e` to the framework: a static event, a freshly allocated one, or one that somebody still
references and that is not being given back. -/
def Usable (c : Cfg) (a : Abs) (e : Nat) : Prop :=
  e ≠ 0 ∧ (c.static e = true ∨ e ∈ a.fresh ∨ (0 < refs a e ∧ ∀ i, Cont.put i e ∉ a.conts))

/-- `n` more references to `e` still fit in the 8-bit counter. -/
def Room (c : Cfg) (a : Abs) (e n : Nat) : Prop := c.static e = true ∨ refs a e + n ≤ 255

/-- No recall is in progress: `rkh_sma_recall` is called from a run-to-completion step (or an interrupt), so the
scheduler loop does not advance while one is pending. -/
def NoRecall (a : Abs) : Prop := ∀ t ∈ a.conts, (∀ ao e, t ≠ .rc2 ao e) ∧ ∀ ao e, t ≠ .rc3 ao e

/-- Contract of each operation. Calls rejected by an assertion are allowed. The thread of an active object takes an event when one is
waiting, and not while a recall by the object itself is in progress (the thread is then executing the recall). -/
def Legal (c : Cfg) (a : Abs) : Op → Prop
  | .activate _ mem n => n ≤ mem.length ∧ n < c.qW
  | .terminate ao => ∃ x, a.aos[ao]? = some x ∧ a.reg x.prio = some ao ∧ x.q.items = []
  | .newDefer mem n => n ≤ mem.length ∧ n < c.qW
  | .regPool _ s n es =>
    MemPool.Accepted c.mp s n es ∧ MemPool.Representable c.mp n es ∧
    (∀ P ∈ a.pools, s + n ≤ P.start ∨ P.start + P.size ≤ s) ∧ (∀ e, c.static e = true → e < s ∨ s + n ≤ e)
  | .alloc _ _ => True
  | .postFifo ao e => Registered a ao ∧ Usable c a e ∧ Room c a e 1
  | .postLifo ao e => Registered a ao ∧ Usable c a e ∧ Room c a e 1
  | .defer i e => i < a.dqs.length ∧ Usable c a e ∧ Room c a e 1
  | .recall ao i => Registered a ao ∧ i < a.dqs.length
  | .reserve e => Usable c a e ∧ Room c a e 1
  | .gc e => e ≠ 0 ∧ (c.static e = true ∨ e ∈ a.resv)
  | .subscribe _ ao => ao < a.aos.length
  | .unsubscribe _ ao => ao < a.aos.length
  | .unsubscribeAll ao => ao < a.aos.length
  | .publish ch e _ => ch < c.maxChan ∧ Usable c a e ∧ Room c a e (1 + (subscribers c.maxSma a ch).length)
  | .select => a.ph = .none ∧ NoRecall a
  | .fetch => (∃ ao, a.ph = .fetch ao) ∧ NoRecall a
  | .done => (∃ ao e, a.ph = .run ao e) ∧ NoRecall a
  | .take ao => (∃ x, a.aos[ao]? = some x ∧ a.reg x.prio = some ao ∧ x.q.items ≠ []) ∧ a.ph ≠ .fetch ao ∧ ∀ e, .rc3 ao e ∉ a.conts
  | .resume k => ∃ t, a.conts[k]? = some t ∧ ∀ ao e, t = .rc2 ao e → Registered a ao ∧ Room c a e 1
  | .numUsed i => i < a.pools.length

/-- Every operation of the history respects the contract in the state it is executed in. -/
def LegalRun (c : Cfg) : Abs → List Op → Prop
  | _, [] => True
  | a, op :: ops => Legal c a op ∧ ∀ a' o, step c a op = .ok (a', o) → LegalRun c a' ops

end Verif.Fwk.Spec
