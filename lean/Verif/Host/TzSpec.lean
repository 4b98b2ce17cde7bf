import Verif.Host.Tz
import Verif.Trc.Spec
/-
What the receiver of the unit-test link is meant to do.
-/
namespace Verif.Tz.Spec
open Verif Trc Trc.Spec

/-- A record that tells the failure of an expectation: line number (of the test program) and message. -/
def failRec (line : Nat) (text : List Byte) : List Byte := UT_FAIL :: (leBytes 4 line ++ text ++ [0#8])

/-- The record of success. -/
def okRec : List Byte := [UT_SUCCESS]

/-- A record with its checksum. -/
def checked (m : List Byte) : List Byte := m ++ [-(sum m)]

/-- A failure is reported in the usual form: the line number fits an `int`, the text has at most 15 characters. Other records have no
form. -/
def WellFormed (m : List Byte) : Prop :=
  m.head? = some UT_FAIL → ∃ line text rest, m = failRec line text ++ rest ∧ line < 2 ^ 31 ∧ text.length < symSize ∧ 0#8 ∉ text

/-- A response of the host. -/
inductive Resp where
  | success
  | failure (line : Nat) (text : List Byte)
  deriving DecidableEq, Repr

/-- Its record. -/
def Resp.bytes : Resp → List Byte
  | .success => checked okRec
  | .failure line text => checked (failRec line text)

/-- The limits of a response. -/
def Resp.Ok : Resp → Prop
  | .success => True
  | .failure line text => line < 2 ^ 31 ∧ text.length < symSize ∧ 0#8 ∉ text

/-- The program has been told the response. -/
def Resp.Told (o : Out) : Resp → Prop
  | .success => o.status = .success
  | .failure line text => o.status = .fail ∧ o.line = line ∧ o.msg = text ++ List.replicate (msgSize - text.length) 0#8

/-- Exactly one byte differs. -/
def OneByteOff (m m' : List Byte) : Prop := ∃ a x y b, m = a ++ x :: b ∧ m' = a ++ y :: b ∧ x ≠ y

/-- What the receiver makes of `m`, all bytes between two flags: it looks at the first `|m| mod 256` only. -/
def verdict (m : List Byte) : Option Ev :=
  if m.length % 256 = 0 then none
  else if sum (m.take (m.length % 256)) = 0#8 then some (.got (m.take (m.length % 256)))
  else some .bad

end Verif.Tz.Spec
