import Verif.Port.Model
/-
Terms of the properties of ports.
-/
namespace Verif.Port

/-- The program keeps to the rules: at depth `d`, statements of a body are inside a section, and sections are nested at most
`lim` deep in every thread and in every handler by itself. Handlers start outside of sections. -/
def Fits (lim : Nat) : Nat → Code → Prop
  | _, .done => True
  | d, .work k => 0 < d ∧ Fits lim d k
  | d, .irq h k => Fits lim 0 h ∧ Fits lim d k
  | d, .sec i0 i1 i2 i3 body j0 j1 j2 j3 k =>
    d < lim ∧ (Fits lim 0 i0 ∧ Fits lim 0 i1 ∧ Fits lim 0 i2 ∧ Fits lim 0 i3) ∧ Fits lim (d + 1) body ∧
      (Fits lim 0 j0 ∧ Fits lim 0 j1 ∧ Fits lim 0 j2 ∧ Fits lim 0 j3) ∧ Fits lim d k

/-- All critical sections are protected: the execution is defined, and every statement of a body, of the thread and of all
handlers, was executed with interrupts masked. -/
def Protected {σ : Type} (on : Nat) (r : Res (σ × List Nat)) : Prop :=
  ∃ s log, r = .ok (s, log) ∧ ∀ v ∈ log, v = on

/-- The interrupt status after the execution is the one before it. -/
def Preserved {σ : Type} (p : Port σ) (s : σ) (r : Res (σ × List Nat)) : Prop :=
  ∃ s' log, r = .ok (s', log) ∧ p.mask s' = p.mask s

/-- No interrupt is requested between the second and the fourth step of entering a section. -/
def NoWindow : Code → Prop
  | .done => True
  | .work k => NoWindow k
  | .irq h k => NoWindow h ∧ NoWindow k
  | .sec i0 i1 i2 i3 body j0 j1 j2 j3 k =>
    (NoWindow i0 ∧ NoWindow i1 ∧ i2 = .done ∧ i3 = .done) ∧ NoWindow body ∧
      (NoWindow j0 ∧ NoWindow j1 ∧ NoWindow j2 ∧ NoWindow j3) ∧ NoWindow k

end Verif.Port
