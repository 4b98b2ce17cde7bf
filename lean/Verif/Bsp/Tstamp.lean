/-
Time stamps and ticks of the boards:

* demo/libbsp/platform/{cfv1/DEMOQUE128,s08/DEMOQE128}/mcu/mcu.c: `mcu_init` (cfv1 89-98, s08 87-96), the tick interrupt `rti_handler`
  (cfv1 106-115), the overflow interrupt `isrVtpm1ovf` (cfv1 124-131) and `get_ts` (cfv1 133-144); `rkh_trc_getts` and the announced rate in
  trace_io.c:67, 94-98 of both boards.
* demo/libbsp/platform/arm-cortex/{arm_cm4f/twr_k60/cm4f/cpu.c:50-73,arm_cm0/frdm-kl25z/cm0/cpu.c:189-212}: `systick_init`, `isr_systick`.

The hardware is modelled after the reference manuals: the 16-bit counter of timer TPM1 with its prescaler and overflow flag, the real-time
counter (8 bits, 1 kHz), and the 24-bit SysTick counter. Reading a 16-bit register is one step; the other peripherals are left out.
-/
namespace Verif.Bsp.Tstamp

/-! ## Time stamps (ColdFire V1, S08) -/

/-- Value written to TPM1SC (cfv1 mcu.c:98, s08 mcu.c:96). Bit 6 (TOIE) enables the overflow interrupt, bits 4-3 = 01 select the bus clock,
bits 2-0 the prescaler. -/
def tpm1sc : Nat := 0x0f

/-- Value written to TPM1MOD (cfv1 mcu.c:95). The counter counts from 0 to this value and starts again. -/
def tpm1mod : Nat := 0xFFFF

/-- The timer advances once per so many bus clocks. -/
def prescale (sc : Nat) : Nat := 2 ^ (sc % 8)

/-- The overflow interrupt is enabled. -/
def overflowIrq (sc : Nat) : Bool := sc.testBit 6

/-- Place in `get_ts` (cfv1 mcu.c:133-144): not in it; `t` was read, at bus clock `c0`; the flag was tested too, at bus clock `c1`. -/
inductive Pc where
  | out
  | read (t c0 : Nat)
  | tested (t c0 c1 : Nat)
  deriving DecidableEq, Repr

/-- A time stamp: the value returned, and at which bus clock counter and flag were read. -/
structure Stamp where
  value : Nat
  c0 : Nat
  c1 : Nat
  deriving DecidableEq, Repr

/-- `clocks`: bus clocks since the start of the timer; `pre`, `cnt`, `tof`: prescaler, TPM1CNT and the overflow flag; `time_stamp`
(cfv1 mcu.c:122); and the stamps returned so far. -/
structure St where
  clocks : Nat
  pre : Nat
  cnt : Nat
  tof : Bool
  time_stamp : Nat
  pc : Pc
  stamps : List Stamp
  deriving DecidableEq, Repr

/-- After `mcu_init` (cfv1 mcu.c:93-98): writing TPM1SC = 0 and the counter after reset leave 0. -/
def start : St := ⟨0, 0, 0, false, 0, .out, []⟩

/-- A bus clock, an overflow interrupt (served if enabled and requested), the next step of `get_ts`. -/
inductive Op where
  | clock
  | irq
  | call
  deriving DecidableEq, Repr

/-- A bus clock. -/
def clock (sc : Nat) (s : St) : St :=
  if s.pre + 1 < prescale sc then { s with clocks := s.clocks + 1, pre := s.pre + 1 }
  else if s.cnt < tpm1mod then { s with clocks := s.clocks + 1, pre := 0, cnt := s.cnt + 1 }
  else { s with clocks := s.clocks + 1, pre := 0, cnt := 0, tof := true }

/-- `isrVtpm1ovf` (cfv1 mcu.c:124-131). -/
def irq (sc : Nat) (s : St) : St :=
  if overflowIrq sc && s.tof then { s with tof := false, time_stamp := (s.time_stamp + tpm1mod) % 2 ^ 32 } else s

/-- A step of `get_ts` (cfv1 mcu.c:133-144), whose result `rkh_trc_getts` casts to 32 bits (trace_io.c:94-98). -/
def call (s : St) : St :=
  match s.pc with
  | .out => { s with pc := .read s.cnt s.clocks }
  | .read t c0 => { s with pc := .tested (if s.tof then t + tpm1mod else t) c0 s.clocks }
  | .tested t c0 c1 => { s with pc := .out, stamps := s.stamps ++ [⟨(s.time_stamp + t) % 2 ^ 32, c0, c1⟩] }

/-- One step. -/
def step (s : St) : Op → St
  | .clock => clock tpm1sc s
  | .irq => irq tpm1sc s
  | .call => call s

/-- An execution. -/
def run (s : St) (os : List Op) : St := os.foldl step s

/-! ## Ticks by the real-time counter (ColdFire V1, S08) -/

/-- RKH_TICK_RATE_MS (source/fwk/inc/rkhitl.h:1606-1607) with timers of `w` bits. -/
def tickRateMs (w rate : Nat) : Nat := (1000 / rate) % 2 ^ w

/-- RTCMOD (cfv1 mcu.c:33, 90, s08 mcu.c:34, 88): the argument is an unsigned char, and so is what is assigned. -/
def rtcmod (w rate : Nat) : Nat := (tickRateMs w rate % 256 + 255) % 256

/-- Counter and number of interrupts. -/
structure Rtc where
  cnt : Nat
  ticks : Nat
  deriving DecidableEq, Repr

/-- One millisecond: at RTCMOD the counter starts again and `rti_handler` (cfv1 mcu.c:106-115) makes a tick. -/
def rtcMs (md : Nat) (r : Rtc) : Rtc := if r.cnt = md then ⟨0, r.ticks + 1⟩ else ⟨r.cnt + 1, r.ticks⟩

/-- `t` milliseconds. -/
def rtcRun (md : Nat) : Nat → Rtc
  | 0 => ⟨0, 0⟩
  | t + 1 => rtcMs md (rtcRun md t)

/-! ## Ticks by SysTick (K60, KL25Z) -/

/-- SYST_RVR (twr_k60 cpu.c:56, frdm-kl25z cpu.c:195): the register has 24 bits. -/
def rvr (clk hz : Nat) : Nat := (clk / hz) % 2 ^ 24

/-- SYST_CVR and number of interrupts. -/
structure Sys where
  cvr : Nat
  ticks : Nat
  deriving DecidableEq, Repr

/-- One core clock: from 0 the counter is reloaded, from 1 it goes to 0 and `isr_systick` makes a tick. -/
def sysClk (rv : Nat) (s : Sys) : Sys :=
  match s.cvr with
  | 0 => ⟨rv, s.ticks⟩
  | 1 => ⟨0, s.ticks + 1⟩
  | n + 2 => ⟨n + 1, s.ticks⟩

/-- `n` core clocks; `systick_init` cleared the counter (twr_k60 cpu.c:58). -/
def sysRun (rv : Nat) : Nat → Sys
  | 0 => ⟨0, 0⟩
  | n + 1 => sysClk rv (sysRun rv n)

end Verif.Bsp.Tstamp
