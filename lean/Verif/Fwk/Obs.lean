import Verif.Fwk.Spec
/-
What an outside observer sees: the contents of queues and pools read off memory, and bookkeeping read off the
history of calls and their results. Nothing here knows how the framework works; the properties in `Props` are stated
with these definitions.
-/
namespace Verif.Fwk.Obs
open Verif Verif.Fwk

/-- The events stored in a ring buffer, oldest (next to be taken) first. -/
def contents (q : Queue.Queue) : List Nat :=
  (List.range q.qty).filterMap fun i => q.mem[(q.pout + i) % q.nelems]?

/-- Follow `n` links of a free list. -/
def walk (psz : Nat) (m : MemPool.Mem) : Nat → Nat → List Nat
  | _, 0 => []
  | p, n + 1 => p :: walk psz m (MemPool.ldp m p psz) n

/-- The blocks a pool has available, found by walking its free list. -/
def freeBlocks (c : Cfg) (p : MemPool.Pool) : List Nat := walk c.mpc.psz p.mem p.free p.nfree

/-- All blocks of a pool. -/
def allBlocks (p : MemPool.Pool) : List Nat := (List.range p.nblocks).map fun k => p.start + k * p.bsize

/-- The registered pools in registration order. -/
def pools (w : World) : List MemPool.Pool := w.regs.filterMap fun s => w.slots[s]?

/-- `e` is a block of registered pool `i` that is not available, i.e. it was allocated and not given back. -/
def Allocated (c : Cfg) (w : World) (i e : Nat) : Prop :=
  ∃ p, (pools w)[i]? = some p ∧ e ∈ allBlocks p ∧ e ∉ freeBlocks c p

/-- The active object registered at a priority. -/
def registered (w : World) (p : Nat) : Option Ao := (w.sptbl[p]?.join).bind fun i => w.aos[i]?

/-- A call and what it returned. -/
abbrev Hist := List (Op × Out)

/-- Reservations made with `rkh_fwk_reserve` and not yet collected. -/
def reservations : List Op → List Nat → List Nat
  | [], r => r
  | .reserve e :: ops, r => reservations ops (e :: r)
  | .gc e :: ops, r => reservations ops (r.erase e)
  | _ :: ops, r => reservations ops r

/-- Events allocated and not yet handed to the framework. -/
def fresh : Hist → List Nat → List Nat
  | [], r => r
  | (.alloc _ _, .evt b) :: h, r => fresh h (b :: r)
  | (.postFifo _ e, _) :: h, r => fresh h (r.erase e)
  | (.postLifo _ e, _) :: h, r => fresh h (r.erase e)
  | (.defer _ e, _) :: h, r => fresh h (r.erase e)
  | (.reserve e, _) :: h, r => fresh h (r.erase e)
  | (.publish _ e _, _) :: h, r => fresh h (r.erase e)
  | _ :: h, r => fresh h r

/-- The signal each event was given when it was last allocated. -/
def signal : Hist → (Nat → Nat) → Nat → Nat
  | [], s => s
  | (.alloc _ sg, .evt b) :: h, s => signal h fun x => if x = b then sg else s x
  | _ :: h, s => signal h s

/-- Every reference to an event, one entry per reference: places in event queues and deferred queues, the event being
dispatched, references owned by functions that are between two critical sections, and reservations. -/
def references (w : World) (resv : List Nat) : List Nat :=
  w.aos.flatMap (fun x => contents x.q) ++ w.dqs.flatMap contents ++ resv ++
    (match w.ph with | .run _ e => [e] | _ => []) ++ w.conts.map Cont.evt

/-- Priorities in order of activation. -/
def activations : List Op → List Nat
  | [] => []
  | .activate p _ _ :: ops => p :: activations ops
  | _ :: ops => activations ops

/-- Who is registered at each priority: the object activated last there and not yet terminated. `n` objects exist
already, `prio` gives their priorities. -/
def registry : List Op → List Nat → (Nat → Option Nat) → Nat → Option Nat
  | [], _, reg => reg
  | .activate p _ _ :: ops, prio, reg =>
    registry ops (prio ++ [p]) fun x => if x = p then some prio.length else reg x
  | .terminate ao :: ops, prio, reg =>
    registry ops prio fun x => if prio[ao]? = some x then none else reg x
  | _ :: ops, prio, reg => registry ops prio reg

/-- Is priority `p` subscribed to channel `ch`: decided by the last call that concerns both. -/
def subscribed (ch p : Nat) : List Op → List Nat → Bool → Bool
  | [], _, b => b
  | .activate q _ _ :: ops, prio, b => subscribed ch p ops (prio ++ [q]) b
  | .subscribe k ao :: ops, prio, b => subscribed ch p ops prio (if k = ch ∧ prio[ao]? = some p then true else b)
  | .unsubscribe k ao :: ops, prio, b => subscribed ch p ops prio (if k = ch ∧ prio[ao]? = some p then false else b)
  | .unsubscribeAll ao :: ops, prio, b => subscribed ch p ops prio (if prio[ao]? = some p then false else b)
  | _ :: ops, prio, b => subscribed ch p ops prio b

/-- Events deferred into deferred queue `i`, in order. -/
def deferredTo (i : Nat) : List Op → List Nat
  | [] => []
  | .defer j e :: ops => (if j = i then [e] else []) ++ deferredTo i ops
  | _ :: ops => deferredTo i ops

/-- Events recalled from deferred queue `i`, in order. -/
def recalledFrom (i : Nat) : Hist → List Nat
  | [] => []
  | (.recall _ j, .evt e) :: h => (if j = i ∧ e ≠ 0 then [e] else []) ++ recalledFrom i h
  | _ :: h => recalledFrom i h

/-- Events dispatched to active object `ao`, in order. -/
def dispatched (ao : Nat) : List Out → List Nat
  | [] => []
  | .dispatch i e :: outs => (if i = ao then [e] else []) ++ dispatched ao outs
  | _ :: outs => dispatched ao outs

/-- Events sent to active object `ao` by FIFO posts and by publishing, in order. `prio`, `reg` and `sub` describe the
situation at the beginning of the history. -/
def sentTo (ao : Nat) : List Op → List Nat → (Nat → Option Nat) → (Nat → Nat → Bool) → List Nat
  | [], _, _, _ => []
  | op :: ops, prio, reg, sub =>
    (match op with
     | .postFifo i e => if i = ao then [e] else []
     | .publish ch e s =>
       (match prio[ao]? with
        | some p => if reg p = some ao ∧ sub ch p = true ∧ s ≠ some ao then [e] else []
        | none => [])
     | _ => []) ++
    sentTo ao ops (prio ++ activations [op]) (registry [op] prio reg) (fun ch p => subscribed ch p [op] prio (sub ch p))

end Verif.Fwk.Obs
