import Verif.SM.Memory
import Verif.SM.Check
/-
The example application demo/cross/shared: one server, some clients that share a resource, and the framework between them.

The state machines are the program's tables run by the engine of `SM`; what their actions do is done when the engine calls them. The
event queues are lists: that an event queue is a first-in first-out list, with `rkh_sma_recall` posting in front, is C01 to C05 and
C21 to C24. Timers are on or off and may expire whenever they are on (C28 to C33 say when). Any active object with a waiting event may
run at any time, so that every scheduler, with or without threads, is covered. The queues have no limit here: how long they can get
is a theorem. Dispatching an event and the calls made by its actions are one step: an action posts at most one event to another
active object. The number of clients is arbitrary (NUM_CLIENTS is 4), client `i` has the priority `i + 1` (`clino`).
-/
namespace Verif.App.Shared
open Verif.SM

/-! ### The program (demo/cross/shared) -/

/-- Signals, shared.h:33-42. -/
abbrev REQ : Sig := 0
@[inherit_doc REQ] abbrev START : Sig := 1
@[inherit_doc REQ] abbrev DONE : Sig := 2
@[inherit_doc REQ] abbrev TOUT_REQ : Sig := 3
@[inherit_doc REQ] abbrev TOUT_USING : Sig := 4
@[inherit_doc REQ] abbrev PAUSE : Sig := 5
@[inherit_doc REQ] abbrev TERM : Sig := 6

/-- States of the server, server.c:30. -/
abbrev server_idle : Vid := 0
@[inherit_doc server_idle] abbrev server_busy : Vid := 1
@[inherit_doc server_idle] abbrev server_paused : Vid := 2

/-- Actions of the server, server.c:33-39. -/
abbrev server_init : Act := 0
@[inherit_doc server_init] abbrev server_start : Act := 1
@[inherit_doc server_init] abbrev server_end : Act := 2
@[inherit_doc server_init] abbrev server_defer : Act := 3
@[inherit_doc server_init] abbrev server_terminate : Act := 4

/-- States of a client, client.c:33. -/
abbrev client_idle : Vid := 0
@[inherit_doc client_idle] abbrev client_waiting : Vid := 1
@[inherit_doc client_idle] abbrev client_using : Vid := 2
@[inherit_doc client_idle] abbrev client_paused : Vid := 3

/-- Actions of a client, client.c:36-41. -/
abbrev client_init : Act := 0
@[inherit_doc client_init] abbrev client_req : Act := 1
@[inherit_doc client_init] abbrev client_start : Act := 2
@[inherit_doc client_init] abbrev client_end : Act := 3

/-- `RKH_TRREG`, `RKH_TRINT` (rkhsm.h), no guards. -/
def trreg (e : Sig) (a : Option Act) (t : Vid) : Tr := ⟨e, none, a, some t⟩
@[inherit_doc trreg] def trint (e : Sig) (a : Option Act) : Tr := ⟨e, none, a, none⟩

/-- server.c:49-71. -/
def serverVertices : List Vertex := [
  /- server_idle -/ .basic none [trint TERM (some server_terminate), trreg REQ (some server_start) server_busy,
      trreg PAUSE none server_paused],
  /- server_busy -/ .basic none [trint REQ (some server_defer), trint TERM (some server_terminate),
      trreg DONE (some server_end) server_idle, trreg PAUSE none server_paused],
  /- server_paused -/ .basic none [trint REQ (some server_defer), trint DONE none, trint TERM (some server_terminate),
      trreg PAUSE none server_idle]]

/-- client.c:53-79. -/
def clientVertices : List Vertex := [
  /- client_idle -/ .basic none [trreg TOUT_REQ (some client_req) client_waiting, trreg PAUSE none client_paused],
  /- client_waiting -/ .basic none [trreg START (some client_start) client_using],
  /- client_using -/ .basic none [trreg TOUT_USING (some client_end) client_idle, trreg PAUSE none client_paused],
  /- client_paused -/ .basic none [trint TOUT_USING (some client_end), trreg PAUSE none client_idle]]

/-- `RKH_SMA_CREATE` (server.c:82, client.c:89-96); depth 4, 4 segments, assertions (rkhcfg.h:126, 270, 279). -/
def serverM : Machine := ofList serverVertices server_idle (some server_init) 4 4 true
@[inherit_doc serverM] def clientM : Machine := ofList clientVertices client_idle (some client_init) 4 4 true

/-- There are no guards. -/
def env : Env := fun _ _ _ => false

/-- An event: signal and, for REQ and START, `clino` (shared.h:45-55). -/
structure Evt where
  sig : Sig
  cli : Nat
  deriving DecidableEq, Repr

/-- The application. -/
structure St where
  /-- state machine of the server, its event queue, and `queueReq` (server.c:89) -/
  srv : Mem
  sq : List Evt
  dq : List Evt
  /-- state machines and event queues of the clients -/
  cli : Nat → Mem
  cq : Nat → List Evt
  /-- whether `waitReqTmr` and `usageTmr` run (client.c:82-87) -/
  wait : Nat → Bool
  use : Nat → Bool
  /-- not in the program: which clients sent requests, and which were granted, in order -/
  asked : List Nat
  granted : List Nat

/-- Change at one place. -/
def set {α : Type} (f : Nat → α) (i : Nat) (x : α) : Nat → α := fun j => if j = i then x else f j

/-- Post to the server, to a client (RKH_SMA_POST_FIFO). -/
def postS (s : St) (e : Evt) : St := { s with sq := s.sq ++ [e] }
@[inherit_doc postS] def postC (s : St) (i : Nat) (e : Evt) : St := { s with cq := set s.cq i (s.cq i ++ [e]) }

/-- `rkh_sma_recall(server, &queueReq)` (rkhsma.c): the oldest deferred event goes to the front of the queue. -/
def recall (s : St) : St :=
  match s.dq with
  | [] => s
  | e :: r => { s with dq := r, sq := e :: s.sq }

/-- What the functions of the server do when called with event `e` (server.c:95-186): `server_start` posts START to the client that
asked, `server_end` and the exit action `server_resume` recall, `server_defer` defers. The other functions only print, count, or (TERM)
end the program. -/
def srvDo (e : Evt) (s : St) : Obs → St
  | .act 1 _ => { postC s e.cli ⟨START, e.cli⟩ with granted := s.granted ++ [e.cli] }
  | .act 2 _ => recall s
  | .act 3 _ => { s with dq := s.dq ++ [e] }
  | .exit 2 => recall s
  | _ => s

/-- What the functions of client `i` do (client.c:114-184): `client_req` posts a request, `client_start` starts the usage timer,
`client_end` posts DONE, the entry action of idle starts the request timer and that of paused stops it. -/
def cliDo (i : Nat) (s : St) : Obs → St
  | .act 1 _ => { postS s ⟨REQ, i⟩ with asked := s.asked ++ [i] }
  | .act 2 _ => { s with use := set s.use i true }
  | .act 3 _ => postS s ⟨DONE, i⟩
  | .entry 0 => { s with wait := set s.wait i true }
  | .entry 3 => { s with wait := set s.wait i false }
  | _ => s

/-- A dispatch and what it called. The answer "event not found" is ignored; anything else that is not success is a failure. -/
def deliver (m : Machine) (e : Sig) (x : Mem) : Option (Mem × List Obs) :=
  match dispatch m env 30 e x with
  | (y, .ok ()) => some (y, y.log.drop x.log.length)
  | (y, .stop (.rc .evtNFound)) => some (y, y.log.drop x.log.length)
  | _ => none

/-- What can happen: the server or a client takes its next event, a timer expires, or a key is pressed, which posts PAUSE to the server
and to all clients one after the other (`publish`, demo/libbsp/platform/80x86/linux/bsp_shared.c:97-107); each of these posts is a step.
TERM (bsp_shared.c:277-279) ends the program. -/
inductive Op where
  | server
  | client (i : Nat)
  | waitOver (i : Nat)
  | useOver (i : Nat)
  | pauseServer
  | pauseClient (i : Nat)
  deriving DecidableEq, Repr

/-- One step with `n` clients; `none` if it is not possible or fails. -/
def step (n : Nat) (s : St) : Op → Option St
  | .server =>
    match s.sq with
    | [] => none
    | e :: r => (deliver serverM e.sig s.srv).map fun d => d.2.foldl (srvDo e) { s with srv := d.1, sq := r }
  | .client i =>
    if i < n then
      match s.cq i with
      | [] => none
      | e :: r => (deliver clientM e.sig (s.cli i)).map fun d =>
          d.2.foldl (cliDo i) { s with cli := set s.cli i d.1, cq := set s.cq i r }
    else none
  | .waitOver i => if i < n ∧ s.wait i = true then some (postC { s with wait := set s.wait i false } i ⟨TOUT_REQ, i⟩) else none
  | .useOver i => if i < n ∧ s.use i = true then some (postC { s with use := set s.use i false } i ⟨TOUT_USING, i⟩) else none
  | .pauseServer => some (postS s ⟨PAUSE, 0⟩)
  | .pauseClient i => if i < n then some (postC s i ⟨PAUSE, i⟩) else none

/-- A client's state machine after `rkh_sm_init`, and the same for the server. -/
def mem0c : Mem := (init clientM env 30 (mem0 clientM)).1
@[inherit_doc mem0c] def mem0s : Mem := (init serverM env 30 (mem0 serverM)).1

/-- After `main` has activated all (main.c:62-67): the entry actions of the clients' initial states have started their timers. -/
def start : St :=
  { srv := mem0s, sq := [], dq := [], cli := fun _ => mem0c, cq := fun _ => [], wait := fun _ => true, use := fun _ => false,
    asked := [], granted := [] }

/-- A run. -/
def run (n : Nat) (s : St) : List Op → Option St
  | [] => some s
  | o :: os => (step n s o).bind fun t => run n t os

end Verif.App.Shared
