/-
Model of the serial output of the trace stream on the LPC17xx board: demo/libbsp/platform/arm-cortex/arm_cm3/lpc17xx/uart.c and bsp_blinky.c, with the UART
and the interrupt masks of the processor.

The UART has a holding register and a shift register. It moves a byte from the first to the second when that is free; some time later (the
hardware delays it) it raises the interrupt "holding register empty", which is withdrawn when the register is written and when the handler reads
IIR. The FIFO that UARTInit enables is taken to be of one byte; a write to a full register would overwrite. Reception (the other branches of the
handler) does not touch what is modelled here.
-/
namespace Verif.Bsp.Uart

/-- Where the sending loop is: in front of the test of UART0TxEmpty (uart.c:331), or between the write to THR and the clearing of UART0TxEmpty
(between uart.c:332 and uart.c:333). -/
inductive Pc where
  | wait
  | clear
  deriving DecidableEq, Repr

/-- Processor, driver and UART. -/
structure St where
  /-- UART0TxEmpty (uart.c:27). -/
  txEmpty : Bool
  pc : Pc
  /-- The bytes UARTPutnc (uart.c:346-351) has still to send. -/
  rest : List Nat
  /-- The holding register. -/
  thr : Option Nat
  /-- The shift register. -/
  shift : Option Nat
  /-- The register became empty and the interrupt has not been raised yet. -/
  due : Bool
  /-- The interrupt is pending. -/
  pend : Bool
  /-- PRIMASK: interrupts disabled by RKH_DIS_INTERRUPT (arm_cm3/codered/rkhport.h:67-68). -/
  primask : Bool
  /-- `critical_nesting`; BASEPRI masks the interrupt unless it is 0 (arm_cm3/codered/rkhport.c:85-113). -/
  nest : Nat
  /-- All bytes that have left the shift register. -/
  wire : List Nat
  /-- All bytes given to UARTPutnc so far. -/
  given : List Nat
  deriving DecidableEq, Repr

/-- After UARTInit (uart.c:27, 190-236). -/
def init : St := ⟨true, .wait, [], none, none, false, false, false, 0, [], []⟩

/-- What may happen next. -/
inductive Ev where
  /-- `rkh_trc_flush` has got a block and calls UARTPutnc (bsp_blinky.c:156-180). Its critical section (enter, get block, exit) leaves the masks as
  they were. -/
  | call (bytes : List Nat)
  /-- One step of the sending loop. -/
  | cpu
  /-- Holding register to shift register. -/
  | load
  /-- The interrupt becomes pending. -/
  | raise
  /-- The shift register is empty. -/
  | shiftOut
  /-- UART0_IRQHandler, if it is pending and not masked. -/
  | irq
  /-- RKH_ENTER_CRITICAL, RKH_EXIT_CRITICAL, RKH_DIS_INTERRUPT, RKH_ENA_INTERRUPT. -/
  | enter
  | leave
  | dis
  | ena
  deriving DecidableEq, Repr

/-- One step of `while (!(UART0TxEmpty & 1)); THR = c; UART0TxEmpty = 0;` in the loop of UARTPutnc (uart.c:326-334, 346-351). -/
def cpu (s : St) : St :=
  match s.pc with
  | .wait =>
    match s.rest with
    | [] => s
    | c :: rest =>
      if s.txEmpty then { s with thr := some c, due := false, pend := false, rest := rest, pc := .clear }
      else s
  | .clear => { s with txEmpty := false, pc := .wait }

/-- The handler (uart.c:42-104, branch IIR_THRE 89-102); reading IIR withdraws the interrupt. -/
def isr (s : St) : St := { s with pend := false, txEmpty := s.thr.isNone }

/-- One event. -/
def step (s : St) : Ev → St
  | .call bytes =>
    match s.pc, s.rest with
    | .wait, [] => { s with rest := bytes, given := s.given ++ bytes }
    | _, _ => s
  | .cpu => cpu s
  | .load =>
    match s.thr, s.shift with
    | some c, none => { s with thr := none, shift := some c, due := true }
    | _, _ => s
  | .raise => if s.due then { s with due := false, pend := true } else s
  | .shiftOut =>
    match s.shift with
    | some c => { s with shift := none, wire := s.wire ++ [c] }
    | none => s
  | .irq => if s.pend ∧ s.primask = false ∧ s.nest = 0 then isr s else s
  | .enter => { s with nest := s.nest + 1 }
  | .leave => { s with nest := s.nest - 1 }
  | .dis => { s with primask := true }
  | .ena => { s with primask := false }

/-- A history. -/
def run (s : St) (evs : List Ev) : St := evs.foldl step s

end Verif.Bsp.Uart
