/-
The debouncing switch handler of the FRDM-K64F board (demo/libbsp/platform/arm-cortex/arm_cm4f/frdm-k64f/switch/switch.c, switch.h, swhdl.c),
called once per time tick (bsp_shared.c:115-119, bsp_shared_bm.c:124-127). A press of the first switch pauses the demo.

Simplifications: a publication (`bsp_publish`) is counted, not executed; the reading of a pin is an arbitrary number.
-/
namespace Verif.Bsp

/-- `SWITCH_ST` without the function pointer (switch.h:22-27); `deb` is `debsw == SW_PRESSED` (switch.h:29-33). -/
structure Sw where
  state : BitVec 8
  deb : Bool
  deriving DecidableEq, Repr

/-- `switchs` (switch.c:16-20). -/
def sws0 : List Sw := [⟨0#8, false⟩, ⟨0#8, false⟩]

/-- What SWITCH_EVT does (switch.c:24-30): the number of publications, and whether it returns from `switch_tick`. -/
def switchEvt (s : Nat) (deb : Bool) : Nat × Bool :=
  if deb = false then (0, true) else if s = 0 then (1, false) else (0, false)

/-- The body of the loop of `switch_tick` for switch `s` (switch.c:42-52); `raw` is what `rawsw` returns. -/
def body (s : Nat) (p : Sw) (raw : Nat) : Sw × Nat × Bool :=
  let st := (p.state <<< 1) ||| (if raw = 0 then 1#8 else 0#8)
  if st = 0xFF#8 ∧ p.deb ≠ true then (⟨st, true⟩, switchEvt s true)
  else if st = 0#8 ∧ p.deb ≠ false then (⟨st, false⟩, switchEvt s false)
  else (⟨st, p.deb⟩, 0, false)

/-- The loop of `switch_tick` (switch.c:40-53); `raw s` is the reading of switch `s` if it is read. -/
def loop (raw : Nat → Nat) : Nat → List Sw → List Sw × Nat
  | _, [] => ([], 0)
  | s, p :: ps =>
    let r := body s p (raw s)
    if r.2.2 then (r.1 :: ps, r.2.1)
    else
      let q := loop raw (s + 1) ps
      (r.1 :: q.1, r.2.1 + q.2)

/-- `switch_tick` (switch.c:34-55): the switches afterwards and the number of publications. -/
def tick (sws : List Sw) (raw : Nat → Nat) : List Sw × Nat := loop raw 0 sws

/-- A history of ticks: the switches at the end and the publications of each tick. -/
def run : List Sw → List (Nat → Nat) → List Sw × List Nat
  | sws, [] => (sws, [])
  | sws, raw :: ticks => ((run (tick sws raw).1 ticks).1, (tick sws raw).2 :: (run (tick sws raw).1 ticks).2)

/-- `get_switch_state` (switch.c:58-62): pressed? -/
def getState (sws : List Sw) (who : Nat) : Option Bool := sws[who]?.map Sw.deb

/-! ### Specification -/

namespace Spec

/-- The last eight samples after `n` of the samples `h` (true: pin low, the switch is closed); before the first tick the switch was open. -/
def window (h : List Bool) (n : Nat) : List Bool := ((List.replicate 8 false ++ h).drop n).take 8

/-- After `n` samples the last eight were all `b`. -/
def Steady (b : Bool) (h : List Bool) (n : Nat) : Prop := window h n = List.replicate 8 b

/-- The switch counts as pressed: at some time it was closed for eight samples, and since then it has not been open for eight samples. -/
def Pressed (h : List Bool) : Prop :=
  ∃ n, n ≤ h.length ∧ Steady true h n ∧ ∀ m, n < m → m ≤ h.length → ¬ Steady false h m

/-- At sample `n` the switch becomes pressed. -/
def Rises (h : List Bool) (n : Nat) : Prop := n < h.length ∧ ¬ Pressed (h.take n) ∧ Pressed (h.take (n + 1))

/-- At sample `n` the switch becomes released. -/
def Falls (h : List Bool) (n : Nat) : Prop := n < h.length ∧ Pressed (h.take n) ∧ ¬ Pressed (h.take (n + 1))

/-- The samples of switch `s`: a pin that reads 0 means closed. -/
def samples (s : Nat) (ticks : List (Nat → Nat)) : List Bool := ticks.map fun raw => decide (raw s = 0)

open Classical in
/-- The samples of the second switch at the ticks at which the first does not become released. -/
noncomputable def taken (ticks : List (Nat → Nat)) : List Bool :=
  ((List.range ticks.length).filter fun n => decide (¬ Falls (samples 0 ticks) n)).map fun n => (samples 1 ticks).getD n false

end Spec

end Verif.Bsp
