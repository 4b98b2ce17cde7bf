/-
Starting and stopping the framework on the port with one thread per active object: source/portable/80x86/win32_mt/vc/rkhport.c
(`rkh_fwk_enter` 192-230, `rkh_fwk_exit` 232-240, `rkhport_fwk_stop` 140-144, `idle_thread_function` 79-95, the priorities of
`rkh_sma_activate` 261-284), together with the trace output of demo/libbsp/platform/80x86/win/trace_io.c (`rkh_trc_flush` 165-197,
`rkh_trc_close` 147-156) and `rkh_hook_exit` of demo/libbsp/platform/80x86/win/hook.c:122-126, which flushes.

The main thread, the idle thread and any number of threads of active objects interleave freely. A step is one access to `running`, one
critical section, or one call. What the trace holds is a list of numbered blocks, in the order they were recorded (ring and block sizes
are in `Trc`; here the ring never overflows). The priorities of the threads play no role: any thread may run at any time. Creating the
idle thread does not fail (rkhport.c:206-212 would only print a message).
-/
namespace Verif.Life.Multi

/-- Place in `rkh_trc_flush` (trace_io.c:165-197): `get`: before the critical section around `rkh_trc_get_block`; `send b`: block `b` was
taken and is about to be sent. -/
inductive Flush where
  | get
  | send (b : Nat)
  deriving DecidableEq, Repr

/-- Place in `rkh_fwk_enter` (rkhport.c:192-230). `first`: before `running = 1`; `resume`: before the idle thread is resumed; `start`:
`RKH_HOOK_START` and the records of the start; `test`: `while (running)`; `sleep`: `Sleep` and then the tick; `flush`: in `RKH_HOOK_EXIT`;
`close`: before `RKH_TRC_CLOSE`; `delete`: before `DeleteCriticalSection`; `returned`. -/
inductive MPc where
  | first | resume | start | test | sleep
  | flush (f : Flush)
  | close | delete | returned
  deriving DecidableEq, Repr

/-- Place in `idle_thread_function` (rkhport.c:79-95). -/
inductive IPc where
  | none | test
  | flush (f : Flush)
  | sleep | ended
  deriving DecidableEq, Repr

/-- Place of a thread of an active object: `out`: anywhere outside `rkh_fwk_exit`; `flush`: in the `RKH_HOOK_EXIT` of `rkh_fwk_exit`
(rkhport.c:238); `stop`: before `running = 0` (rkhport.c:239). -/
inductive APc where
  | out
  | flush (f : Flush)
  | stop
  deriving DecidableEq, Repr

/-- `running`, the threads, the trace (blocks recorded and not yet taken; number of blocks recorded so far; blocks that arrived at the
other end), whether the trace is closed and the critical section deleted, whether they were used afterwards, the number of ticks and of
calls of `rkh_hook_exit`. -/
structure Sys where
  running : Bool
  main : MPc
  idle : IPc
  ao : Nat → APc
  buf : List Nat
  next : Nat
  sent : List Nat
  closed : Bool
  deleted : Bool
  usedClosed : Bool
  usedDeleted : Bool
  ticks : Nat
  exits : Nat

/-- At the call of `rkh_fwk_enter`: the objects were activated, so their threads may run already. `n` blocks wait in the trace. `running`
is a static variable, hence 0 (rkhport.c:70). -/
def init (n : Nat) : Sys :=
  { running := false, main := .first, idle := .none, ao := fun _ => .out, buf := List.range n, next := n, sent := [], closed := false,
    deleted := false, usedClosed := false, usedDeleted := false, ticks := 0, exits := 0 }

/-- Use of the critical section (rkhport.c:146-156). -/
def Sys.use (s : Sys) : Sys := { s with usedDeleted := s.usedDeleted || s.deleted }

/-- `k` blocks are recorded (in a critical section). -/
def Sys.record (s : Sys) (k : Nat) : Sys := { s with buf := s.buf ++ List.range' s.next k, next := s.next + k }

/-- `fwrite` and `trace_io_tcp_send` (trace_io.c:184-189): after `rkh_trc_close` nothing arrives any more. -/
def Sys.send (s : Sys) (b : Nat) : Sys := if s.closed then { s with usedClosed := true } else { s with sent := s.sent ++ [b] }

/-- One step of `rkh_trc_flush`; `none`: it returns (trace_io.c:171-196). -/
def flushStep (s : Sys) : Flush → Sys × Option Flush
  | .get =>
    match s.buf with
    | [] => (s.use, none)
    | b :: bs => ({ s.use with buf := bs }, some (.send b))
  | .send b => (s.send b, some .get)

/-- What happens next. `main k`: a step of the main thread, recording `k` blocks if it is the start or a tick; `idle`: a step of the idle
thread; `call j k`: the thread of object `j` calls a function of the framework, which records `k` blocks; `stop`: some thread calls
`rkhport_fwk_stop`; `exit j k`: the thread of object `j` calls `rkh_fwk_exit`; `ao j`: its next step in there. -/
inductive Op where
  | main (k : Nat)
  | idle
  | call (j k : Nat)
  | stop
  | exit (j k : Nat)
  | ao (j : Nat)
  deriving DecidableEq, Repr

/-- A step of the main thread (rkhport.c:192-230). -/
def mainStep (k : Nat) (s : Sys) : Sys :=
  match s.main with
  | .first => { s with running := true, main := .resume }
  | .resume => { s with idle := .test, main := .start }
  | .start => { (s.use.record k) with main := .test }
  | .test => if s.running then { s with main := .sleep } else { s with main := .flush .get, exits := s.exits + 1 }
  | .sleep => { (s.use.record k) with main := .test, ticks := s.ticks + 1 }
  | .flush f =>
    match flushStep s f with
    | (s', some f') => { s' with main := .flush f' }
    | (s', none) => { s' with main := .close }
  | .close => { s with closed := true, main := .delete }
  | .delete => { s with deleted := true, main := .returned }
  | .returned => s

/-- A step of the idle thread (rkhport.c:79-95). -/
def idleStep (s : Sys) : Sys :=
  match s.idle with
  | .none => s
  | .test => if s.running then { s with idle := .flush .get } else { s with idle := .ended }
  | .flush f =>
    match flushStep s f with
    | (s', some f') => { s' with idle := .flush f' }
    | (s', none) => { s' with idle := .sleep }
  | .sleep => { s with idle := .test }
  | .ended => s

/-- The thread of object `j` goes to `p`. -/
def Sys.goto (s : Sys) (j : Nat) (p : APc) : Sys := { s with ao := fun i => if i = j then p else s.ao i }

/-- A step of the thread of object `j` inside `rkh_fwk_exit` (rkhport.c:232-240). -/
def aoStep (j : Nat) (s : Sys) : Sys :=
  match s.ao j with
  | .out => s
  | .flush f =>
    match flushStep s f with
    | (s', some f') => s'.goto j (.flush f')
    | (s', none) => s'.goto j .stop
  | .stop => { s.goto j .out with running := false }

/-- One step. -/
def step (s : Sys) : Op → Sys
  | .main k => mainStep k s
  | .idle => idleStep s
  | .call j k => if s.ao j = .out then s.use.record k else s
  | .stop => { s with running := false }
  | .exit j k => if s.ao j = .out then { ((s.use.record k).goto j (.flush .get)) with exits := s.exits + 1 } else s
  | .ao j => aoStep j s

/-- An execution. -/
def run (s : Sys) (os : List Op) : Sys := os.foldl step s

/-! ## Priorities of the threads -/

/-- Windows' relative thread priorities (winbase.h). -/
inductive WPrio where
  | idle | lowest | belowNormal | normal | aboveNormal | highest
  deriving DecidableEq, Repr

/-- Their values: THREAD_PRIORITY_IDLE = -15, LOWEST = -2, …, HIGHEST = 2. -/
def WPrio.val : WPrio → Int
  | .idle => -15
  | .lowest => -2
  | .belowNormal => -1
  | .normal => 0
  | .aboveNormal => 1
  | .highest => 2

/-- The `switch` of `rkh_sma_activate` (rkhport.c:261-282); `low` is RKH_LOWEST_PRIO. It compiles only if the five case labels differ
(`labelsDiffer`). -/
def winPrio (low p : Nat) : WPrio :=
  if p = 0 then .highest
  else if p = 1 then .aboveNormal
  else if p = low then .idle
  else if (p : Int) = (low : Int) - 1 then .lowest
  else if (p : Int) = (low : Int) - 2 then .belowNormal
  else .normal

/-- The case labels 0, 1, `low`, `low` - 1, `low` - 2 are pairwise different, as C demands (rkhport.c:264-276). -/
def labelsDiffer (low : Nat) : Bool := decide (([0, 1, (low : Int), (low : Int) - 1, (low : Int) - 2] : List Int).Nodup)

end Verif.Life.Multi
