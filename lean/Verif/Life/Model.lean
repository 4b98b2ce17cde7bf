/-
Starting and stopping the framework on the ports with one thread for all active objects: source/portable/80x86/linux_st/gnu/rkhport.c and
source/portable/80x86/win32_st/vc/rkhport.c, together with the threads that stand for the interrupts of the clock and of the keyboard:
demo/libbsp/platform/80x86/linux/hook.c and demo/libbsp/platform/80x86/win/hook.c.

The steps of three threads interleave in any order. A step is one access to the variable `running`, one critical section, one operation on
the signal, or one call. The events are counted only (what is done with them is in the other models). The thread of the clock and that of
the keyboard are created in one step.
-/
namespace Verif.Life

/-- The port. Linux waits on a counting semaphore, Windows on an auto-reset event. -/
inductive Port where
  | linux
  | windows
  deriving DecidableEq, Repr

/-- Place in `rkh_fwk_enter` (linux_st rkhport.c:152-188, win32_st rkhport.c:145-179). `first`, `second`: the statements before the loop;
`test`: `while (running)`; `check`: is an object ready; `work`: get, dispatch and collect an event; `wait`: `rkh_hook_idle` waits for the
signal; `hook`: `rkh_hook_exit()`; `destroy`: destroy signal and critical section; `returned`. -/
inductive MPc where
  | first | second | test | check | work | wait | hook | destroy | returned
  deriving DecidableEq, Repr

/-- Place in `isr_tmrThread` (linux hook.c:94-109, win hook.c:71-83). `work`: `RKH_TIM_TICK`. -/
inductive TPc where
  | none | test | work | sleep | ended
  deriving DecidableEq, Repr

/-- Place in `isr_kbdThread` (linux hook.c:111-121, win hook.c:85-97). `key`: waiting for a key; `stop`: between the post and
`rkhport_fwk_stop()` in `bsp_keyParser` (bsp_blinky.c:116-126 resp. 115-125). -/
inductive KPc where
  | none | test | key | stop | ended
  deriving DecidableEq, Repr

/-- `running`; number of events waiting; the signal; the threads; signal and critical section destroyed; a destroyed one was used; and
what was observed: ticks, events processed, calls of `rkh_hook_exit`. -/
structure Sys where
  running : Bool
  pend : Nat
  sig : Nat
  main : MPc
  clock : TPc
  kbd : KPc
  destroyed : Bool
  bad : Bool
  ticks : Nat
  handled : Nat
  exits : Nat
  deriving DecidableEq, Repr

/-- At the call of `rkh_fwk_enter`, after activation: some events may be waiting, each of which has set the signal (`running` is a static
variable, hence 0). -/
def init (p : Port) (n : Nat) : Sys :=
  { running := false, pend := n, sig := match p with | .linux => n | .windows => min n 1, main := .first, clock := .none, kbd := .none, destroyed := false, bad := false,
    ticks := 0, handled := 0, exits := 0 }

/-- `n` posts: each makes the object ready and sets the signal (linux_st rkhport.c:128-133, win32_st rkhport.c:124-129). -/
def Sys.posts (p : Port) (n : Nat) (s : Sys) : Sys :=
  { s with pend := s.pend + n, sig := match p with | .linux => s.sig + n | .windows => if n = 0 then s.sig else 1 }

/-- Use of the critical section by a thread. -/
def Sys.use (s : Sys) : Sys := { s with bad := s.bad || s.destroyed }

/-- `rkh_hook_start` creates the threads (linux hook.c:124-146, win hook.c:100-119). -/
def Sys.create (s : Sys) : Sys := { s with clock := .test, kbd := .test }

/-- `rkh_fwk_exit` (linux_st rkhport.c:190-197, win32_st rkhport.c:181-189): on Windows it ends the loop. -/
def Sys.exit (p : Port) (s : Sys) : Sys :=
  match p with
  | .linux => { s with exits := s.exits + 1 }
  | .windows => { s with exits := s.exits + 1, running := false }

/-- What happens next: a step of the main thread (with what the action executed in it does: how many events it posts, and whether it calls
`rkh_fwk_exit`), of the clock (with the number of events posted by expiring timers) or of the keyboard (with what `bsp_keyParser` does:
how many events it posts, and whether it calls `rkhport_fwk_stop` afterwards). -/
inductive Op where
  | main (posts : Nat) (exit : Bool)
  | clock (posts : Nat)
  | kbd (posts : Nat) (stop : Bool)
  deriving DecidableEq, Repr

/-- A step of the main thread. -/
def mainStep (p : Port) (posts : Nat) (exit : Bool) (s : Sys) : Sys :=
  match s.main with
  | .first =>
    match p with
    | .linux => { s with running := true, main := .second }
    | .windows => { s.create with main := .second }
  | .second =>
    match p with
    | .linux => { s.create with main := .test }
    | .windows => { s with running := true, main := .test }
  | .test => if s.running then { s with main := .check } else { s with main := .hook }
  | .check => if s.pend > 0 then { s with main := .work } else { s with main := .wait }
  | .work =>
    let s1 := ({ s with pend := s.pend - 1, handled := s.handled + 1, main := .test } : Sys).posts p posts
    if exit then s1.exit p else s1
  | .wait => if s.sig > 0 then { s with sig := s.sig - 1, main := .test } else s
  | .hook => { s with exits := s.exits + 1, main := .destroy }
  | .destroy => { s with destroyed := true, main := .returned }
  | .returned => s

/-- A step of the clock. On Linux the tick is compiled only if the trace of the timer module is enabled (`tr`; linux hook.c:101-103). -/
def clockStep (p : Port) (tr : Bool) (posts : Nat) (s : Sys) : Sys :=
  match s.clock with
  | .none => s
  | .test => if s.running then { s with clock := .work } else { s with clock := .ended }
  | .work => if p = .windows ∨ tr = true then { (s.use.posts p posts) with clock := .sleep, ticks := s.ticks + 1 } else { s with clock := .sleep }
  | .sleep => { s with clock := .test }
  | .ended => s

/-- A step of the keyboard. -/
def kbdStep (p : Port) (posts : Nat) (stop : Bool) (s : Sys) : Sys :=
  match s.kbd with
  | .none => s
  | .test => if s.running then { s with kbd := .key } else { s with kbd := .ended }
  | .key => { ((if posts = 0 then s else s.use).posts p posts) with kbd := if stop then .stop else .test }
  | .stop => { s with running := false, kbd := .test }
  | .ended => s

/-- One step. -/
def step (p : Port) (tr : Bool) (s : Sys) : Op → Sys
  | .main n e => mainStep p n e s
  | .clock n => clockStep p tr n s
  | .kbd n st => kbdStep p n st s

/-- An execution. -/
def run (p : Port) (tr : Bool) (s : Sys) (os : List Op) : Sys := os.foldl (step p tr) s

end Verif.Life
