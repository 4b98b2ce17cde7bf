import Verif.Subm.Spec
import Verif.SM.Fuel
/-
The example application demo/80x86/subm/my.c: a chart in which two submachine states, S12 inside S1 and S2, refer to the same submachine
SB. None of its states has an entry or exit action and there are no guards.
-/
namespace Verif.Subm.Demo
open SM (Vid Sig Act Tr Obs Env)

abbrev S1 : Vid := 0
abbrev S11 : Vid := 1
abbrev S12 : Vid := 2
abbrev S13 : Vid := 3
abbrev S2 : Vid := 4
abbrev S3 : Vid := 5
abbrev SB : Vid := 6
abbrev SB1 : Vid := 7
abbrev SB2 : Vid := 8
abbrev EXPNT1 : Vid := 9
abbrev EXPNT2 : Vid := 10
abbrev ENS12 : Vid := 11
abbrev ENS2 : Vid := 12

/-- Signals (demo/80x86/subm/my.h:29-43). -/
abbrev ONE : Sig := 1
@[inherit_doc ONE] abbrev TWO : Sig := 2
@[inherit_doc ONE] abbrev THREE : Sig := 3
@[inherit_doc ONE] abbrev FOUR : Sig := 4
@[inherit_doc ONE] abbrev FIVE : Sig := 5
@[inherit_doc ONE] abbrev TERM : Sig := 7

/-- Actions: `act1` … `act8` are 1 … 8. -/
abbrev my_init : Act := 0
@[inherit_doc my_init] abbrev terminate : Act := 9

/-- `RKH_TRREG` without guard. -/
def trreg (e : Sig) (a : Option Act) (v : Vid) : Tr := ⟨e, none, a, some v⟩
/-- `RKH_TRINT` without guard. -/
def trint (e : Sig) (a : Act) : Tr := ⟨e, none, some a, none⟩

/-- The vertices (my.c:53-129). -/
def vertices : List Vertex := [
  /- S1 -/ .composite none [trint TERM terminate, trreg THREE none ENS2] S11 none,
  /- S11 -/ .basic (some S1) [trreg ONE (some 5) S12, trreg TWO none ENS12, trreg FOUR none S11],
  /- S12 -/ .subm (some S1) [trint TERM terminate, trreg THREE none S1] [(some 1, S13), (some 2, S3)] SB,
  /- S13 -/ .basic (some S1) [trreg ONE none S1],
  /- S2 -/ .subm none [trint TERM terminate] [(some 3, S1), (some 4, S3)] SB,
  /- S3 -/ .basic none [trint TERM terminate, trreg ONE none S1],
  /- SB -/ .ref SB1 none,
  /- SB1 -/ .basic (some SB) [trreg FOUR none SB2, trreg FIVE (some 6) EXPNT1],
  /- SB2 -/ .basic (some SB) [trreg FOUR none SB1, trreg FIVE (some 7) EXPNT2],
  /- EXPNT1 -/ .expnt 0 SB,
  /- EXPNT2 -/ .expnt 1 SB,
  /- ENS12 -/ .enpnt (some 8) SB1 S12,
  /- ENS2 -/ .enpnt (some 8) SB1 S2]

/-- `RKH_SMA_CREATE(MySm, my, 0, HCAL, &S1, my_init, NULL)` (my.c:139), with depth and segments of demo/80x86/subm/rkhcfg.h and assertions
compiled in. -/
def m : Machine := { vert := fun v => vertices[v]?, istate := S1, iaction := some my_init, maxDepth := 4, maxSegs := 4, assertEn := true }

/-- There are no guards. -/
def env : Env := fun _ _ _ => true

def home : Vid → Option Vid := fun v => if 7 ≤ v ∧ v ≤ 10 then some SB else none
def rank : Option Vid → Nat := fun h => if h = none then 0 else 1

end Verif.Subm.Demo
