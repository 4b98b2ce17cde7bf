import Verif.Basic
/-
Model of the critical sections of the ports in source/portable, and of how the hosted and multithreaded ports wait for
events and run the threads of active objects.
-/
namespace Verif.Port
open Verif

/-- A thread of execution on one processor, with the interrupts that arrive while it runs. The text of the functions called
is a sequence of critical sections, properly nested; `work` is a statement of the body of the innermost open section. An
interrupt handler is again such a sequence; `irq h` says that the handler `h` is requested before the next statement, and
the eight handlers of `sec` are requested before the four steps of entering the section and before the four steps of
leaving it. A request is served only if the mask register lets it through at that moment. Several handlers requested at
the same point are one after the other in one sequence; `done` is no request. -/
inductive Code where
  | done
  | work (k : Code)
  | irq (h k : Code)
  | sec (i0 i1 i2 i3 body j0 j1 j2 j3 k : Code)
  deriving DecidableEq, Repr

/-- Local variables of the function that opens a section: `sr` (`RKH_SR_ALLOC`, source/fwk/inc/rkhitl.h:2297-2307) or a register,
and one more register. -/
structure Loc where
  a : Nat
  b : Nat
  deriving DecidableEq, Repr

/-- A port: the interrupt mask register, and the steps of `RKH_ENTER_CRITICAL` and `RKH_EXIT_CRITICAL`. One step is one access
to memory shared with interrupt handlers or to the mask register. -/
structure Port (σ : Type) where
  mask : σ → Nat
  e0 : σ → Loc → Res (σ × Loc)
  e1 : σ → Loc → Res (σ × Loc)
  e2 : σ → Loc → Res (σ × Loc)
  e3 : σ → Loc → Res (σ × Loc)
  x0 : σ → Loc → Res (σ × Loc)
  x1 : σ → Loc → Res (σ × Loc)
  x2 : σ → Loc → Res (σ × Loc)
  x3 : σ → Loc → Res (σ × Loc)

/-- A step that does nothing, for ports with fewer than four. -/
def nop {σ : Type} (s : σ) (l : Loc) : Res (σ × Loc) := .ok (s, l)

/-- Serve the requested handler if interrupts are enabled (mask register zero); its observations come with the new state. -/
def served {σ : Type} (p : Port σ) (handler : σ → Res (σ × List Nat)) (s : σ) : Res (σ × List Nat) :=
  if p.mask s = 0 then handler s else .ok (s, [])

/-- A step of the port, with the handler requested just before it. -/
def stepI {σ : Type} (p : Port σ) (handler : σ → Res (σ × List Nat)) (f : σ → Loc → Res (σ × Loc))
    (x : σ × Loc × List Nat) : Res (σ × Loc × List Nat) :=
  (served p handler x.1).bind fun h => (f h.1 x.2.1).bind fun r => .ok (r.1, r.2, x.2.2 ++ h.2)

/-- Execution. The second component lists the value of the mask register at every statement of the body of a section: of
the thread itself and of all handlers. -/
def run {σ : Type} (p : Port σ) : Code → σ → Res (σ × List Nat)
  | .done, s => .ok (s, [])
  | .work k, s => (run p k s).bind fun r => .ok (r.1, p.mask s :: r.2)
  | .irq h k, s => (served p (run p h) s).bind fun r => (run p k r.1).bind fun q => .ok (q.1, r.2 ++ q.2)
  | .sec i0 i1 i2 i3 body j0 j1 j2 j3 k, s =>
    (stepI p (run p i0) p.e0 (s, { a := 0, b := 0 }, [])).bind fun x =>
    (stepI p (run p i1) p.e1 x).bind fun x =>
    (stepI p (run p i2) p.e2 x).bind fun x =>
    (stepI p (run p i3) p.e3 x).bind fun x =>
    (run p body x.1).bind fun b =>
    (stepI p (run p j0) p.x0 (b.1, x.2.1, x.2.2 ++ b.2)).bind fun x =>
    (stepI p (run p j1) p.x1 x).bind fun x =>
    (stepI p (run p j2) p.x2 x).bind fun x =>
    (stepI p (run p j3) p.x3 x).bind fun x =>
    (run p k x.1).bind fun q => .ok (q.1, x.2.2 ++ q.2)

/-! ### Ports with a nesting counter -/

/-- Mask register (`basepri`) and nesting counter of 32 bits. -/
structure Cnt where
  bp : Nat
  nesting : Nat
  deriving DecidableEq, Repr

/-- arm_cm0/cw_v10, arm_cm3/codered, arm_cm4f/cw_v10, arm_cm4f/ciaa_nxp: `rkhport_enter_critical` writes the mask register, then
increments the counter; `rkhport_exit_critical` decrements it and writes zero to the mask register when it has become
zero (arm-cortex/rkhs/arm_cm3/codered/rkhport.c:86-115, arm_cm0/cw_v10/rkhport.c, arm_cm4f/cw_v10/rkhport.c and
arm_cm4f/ciaa_nxp/rkhport.c: the same text). `++` and `--` are a load and a store. -/
def armCnt (on : Nat) : Port Cnt where
  mask s := s.bp
  e0 s l := .ok ({ s with bp := on }, l)
  e1 s l := .ok (s, { l with a := s.nesting })
  e2 s l := .ok ({ s with nesting := (l.a + 1) % 2 ^ 32 }, l)
  e3 := nop
  x0 s l := .ok (s, { l with a := s.nesting })
  x1 s l := .ok ({ s with nesting := (l.a + (2 ^ 32 - 1)) % 2 ^ 32 }, l)
  x2 s l := .ok (if s.nesting ≠ 0 then s else { s with bp := 0 }, l)
  x3 := nop

/-- arm_cm4f/stm32: the mask register is read into the caller's variable `sr` and restored from it when the counter has
become zero (arm-cortex/rkhs/arm_cm4f/stm32/rkhport.h:73-99). -/
def stm32 (on : Nat) : Port Cnt where
  mask s := s.bp
  e0 s l := .ok (s, { l with a := s.bp })
  e1 s l := .ok ({ s with bp := on }, l)
  e2 s l := .ok (s, { l with b := s.nesting })
  e3 s l := .ok ({ s with nesting := (l.b + 1) % 2 ^ 32 }, l)
  x0 s l := .ok (s, { l with b := s.nesting })
  x1 s l := .ok ({ s with nesting := (l.b + (2 ^ 32 - 1)) % 2 ^ 32 }, l)
  x2 s l := .ok (if s.nesting = 0 then { s with bp := l.a } else s, l)
  x3 := nop

/-! ### uC/OS-III -/

/-- ucos/v3.03.01: `sr = CPU_SR_Save()`, which reads the mask register and then sets it, and `CPU_SR_Restore(sr)`
(ucos/v3.03.01/rkhport.h:66-80). Interrupt time measurement is left out. -/
def ucos (on : Nat) : Port Nat where
  mask s := s
  e0 s l := .ok (s, { l with a := s })
  e1 _ l := .ok (on, l)
  e2 := nop
  e3 := nop
  x0 _ l := .ok (l.a, l)
  x1 := nop
  x2 := nop
  x3 := nop

/-! ### S08 -/

/-- Mask bit of the condition code register, the array `ccr_sp_mem` and the index of the element `ccr_sp` points to
(s08/rkhs/cw6_3/rkhport.c:65-71). -/
structure S08 where
  ccr : Nat
  mem : List Nat
  sp : Nat
  deriving DecidableEq, Repr

/-- s08/rkhs/cw6_3: `tpa; sei; sta,x; sthx` and `sthx; lda,x; tap` (s08/rkhs/cw6_3/rkhport.c:90-109): a stack of register
values in an array of `MAX_NESTING_CSECT` = 8 bytes, without any check. An access outside the array is undefined. -/
def s08 (on : Nat) : Port S08 where
  mask s := s.ccr
  e0 s l := .ok (s, { l with a := s.ccr })
  e1 s l := .ok ({ s with ccr := on }, l)
  e2 s l := if s.sp < s.mem.length then .ok ({ s with mem := s.mem.set s.sp l.a }, l) else .ub
  e3 s l := .ok ({ s with sp := s.sp + 1 }, l)
  x0 s l := if s.sp = 0 then .ub else .ok ({ s with sp := s.sp - 1 }, l)
  x1 s l := match s.mem[s.sp]? with | some v => .ok (s, { l with a := v }) | none => .ub
  x2 s l := .ok ({ s with ccr := l.a }, l)
  x3 := nop

/-! ### ColdFire V1 -/

/-- Status register (its interrupt mask), `crit_cnt` of 16 bits and `sr_mem` (cfv1/rkhs/cw6_3/rkhport.c:70-71). -/
structure Cf where
  sr : Nat
  cnt : Nat
  mem : Nat
  deriving DecidableEq, Repr

/-- cfv1/rkhs/cw6_3 (cfv1/rkhs/cw6_3/rkhport.c:90-126). Entry: load the counter, store it incremented, and unless the new value
is above one save the status register and set the mask. `move.w sr,d0; move.w d0,sr_mem` is one step. Leaving: the test of
the counter, the load and the decrement are one step, then store and conditional restore. -/
def cfv1 (on : Nat) : Port Cf where
  mask s := s.sr
  e0 s l := .ok (s, { l with a := s.cnt })
  e1 s l := .ok ({ s with cnt := (l.a + 1) % 2 ^ 16 }, { l with a := (l.a + 1) % 2 ^ 16 })
  e2 s l := .ok (if l.a > 1 then s else { s with mem := s.sr }, l)
  e3 s l := .ok (if l.a > 1 then s else { s with sr := on }, l)
  x0 s l := .ok (s, { l with a := s.cnt - 1 })
  x1 s l := .ok ({ s with cnt := l.a }, l)
  x2 s l := .ok (if l.a ≠ 0 then s else { s with sr := s.mem }, l)
  x3 := nop

/-! ### Waiting for events -/

/-- How a thread waits: a counting semaphore or an auto-reset event. -/
inductive Kind where
  | semaphore
  | autoReset
  deriving DecidableEq, Repr

/-- Place in the loop of the thread that processes events. -/
inductive Pc where
  | check
  | run
  | wait
  deriving DecidableEq, Repr

/-- Events queued, value of the semaphore (0 or 1 for an auto-reset event), place in the loop, and events processed. -/
structure Wt where
  pend : Nat
  sig : Nat
  pc : Pc
  handled : Nat
  deriving DecidableEq, Repr

/-- What happens: an event is posted by any thread; the loop makes a step. -/
inductive WOp where
  | post
  | step
  deriving DecidableEq, Repr

/-- One step; a thread that waits on a signal that is not set does not move. Each step is one critical section of the
port or one operation on the signal.

linux_st: `rkh_fwk_enter` tests the ready set in a critical section (80x86/linux_st/gnu/rkhport.c:165-181), `rkh_hook_idle` leaves
it and calls `rkhport_wait_for_events` = `sem_wait` (80x86/linux_st/gnu/rkhport.c:116-120; the call is in the application's hook,
e.g. demo/libbsp/platform/80x86/linux/hook.c), and `rkh_sma_setReady`, called in the critical section of every post, is
`sem_post` (80x86/linux_st/gnu/rkhport.c:128-133).
win32_st: the same with an auto-reset event (80x86/win32_st/vc/rkhport.c:113-130, 157-173).
win32_mt: `rkh_sma_block` waits in a loop `while (qty == 0)` (80x86/win32_mt/vc/rkhport.c:163-178), with an auto-reset event; `run`
stands for taking the event. The number of events stands for all queues served by the thread. -/
def wstep (k : Kind) (s : Wt) : WOp → Wt
  | .post => { s with pend := s.pend + 1, sig := match k with | .semaphore => s.sig + 1 | .autoReset => 1 }
  | .step =>
    match s.pc with
    | .check => if s.pend > 0 then { s with pc := .run } else { s with pc := .wait }
    | .run => { s with pend := s.pend - 1, pc := .check, handled := s.handled + 1 }
    | .wait => if s.sig > 0 then { s with sig := s.sig - 1, pc := .check } else s

/-- All steps of a schedule. -/
def wrun (k : Kind) (s : Wt) (os : List WOp) : Wt := os.foldl (wstep k) s

/-- Before the first event. -/
def wt0 : Wt := { pend := 0, sig := 0, pc := .check, handled := 0 }

/-! ### Threads of active objects -/

/-- Place in `thread_function`: the test of the loop, waiting for an event, processing it. `faulted`: an assertion failed. -/
inductive TPc where
  | notCreated
  | test
  | get
  | busy
  | ended
  | faulted
  deriving DecidableEq, Repr

/-- Thread of an active object: the variable it tests (`thread` or `running`), events queued, place, and whether the object
is registered. -/
structure Thr where
  flag : Bool
  pend : Nat
  pc : TPc
  reg : Bool
  deriving DecidableEq, Repr

/-- Which of the two ports. -/
inductive Os where
  | win32mt
  | ucosiii
  deriving DecidableEq, Repr

/-- Steps around the life of a thread: `create` and `assign` are two statements of `rkh_sma_activate`. -/
inductive TOp where
  | create
  | assign
  | post
  | thread
  | terminate
  deriving DecidableEq, Repr

/-- One step. win32_mt tests `thread` after every event (80x86/win32_mt/vc/rkhport.c:97-118), uC/OS-III tests `running` before every
event (ucos/v3.03.01/rkhport.c:70-87, the same text in arm-cortex/ksdk_os/ucosiii/kds/rkhport.c:88-107). `rkh_sma_activate`
registers the object, creates the thread and then assigns the variable (80x86/win32_mt/vc/rkhport.c:254-259: `sma->thread =
CreateThread(..)`; ucos/v3.03.01/rkhport.c:180-210: `OSTaskCreate(..); sma->running = 1`). `rkh_sma_terminate` clears it
(80x86/win32_mt/vc/rkhport.c:288-292); on uC/OS-III it also deletes the queue, which ends the wait of the thread with an
error that the thread asserts not to happen (ucos/v3.03.01/rkhport.c:156-164, 278-284). A thread that ends unregisters the object. -/
def tstep (os : Os) (s : Thr) : TOp → Thr
  | .create => if s.pc = .notCreated then { s with pc := match os with | .win32mt => .get | .ucosiii => .test, reg := true } else s
  | .assign => { s with flag := true }
  | .post => { s with pend := s.pend + 1 }
  | .terminate =>
    match os with
    | .win32mt => { s with flag := false }
    | .ucosiii => if s.pc = .get then { s with flag := false, pc := .faulted } else { s with flag := false }
  | .thread =>
    match s.pc with
    | .notCreated => s
    | .ended => s
    | .faulted => s
    | .test => if s.flag then { s with pc := .get } else { s with pc := .ended, reg := false }
    | .get => if s.pend > 0 then { s with pend := s.pend - 1, pc := .busy } else s
    | .busy => { s with pc := .test }

/-- All steps of a schedule. -/
def trun (os : Os) (s : Thr) (l : List TOp) : Thr := l.foldl (tstep os) s

/-- Before activation. -/
def thr0 : Thr := { flag := false, pend := 0, pc := .notCreated, reg := false }

end Verif.Port
