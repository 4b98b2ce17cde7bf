import Verif.Link.Read
import Verif.Trc.PointsProps
/-
A host takes every message for the record the program has written.
-/
namespace Verif.Link
open Verif Verif.Trc Verif.Trc.Spec

variable {k : PCfg} {n : Byte} {ts : BitVec 32} {p : Pt} {D : Dict} {a : Nat}

theorem user_id {e : Nat} {items : List UItem} (h : PtOk (.user e items)) : 192 ≤ e ∧ e < 224 := ⟨h.2.1, h.2.2.1⟩

theorem readTmr_meaning (hp : PtOk p) (hf : Fits k p) : readTmr (meaning k n p ts) = tmrOf p := by
  cases p
  case user e items =>
    have := user_id hp
    simp only [readTmr, meaning, says, tmrOf]
    split <;> first | omega | rfl
  case fwkState ao s r nm => cases r <;> rfl
  all_goals first | rfl | skip
  all_goals
    simp [Fits, says] at hf
    simp [readTmr, meaning, tmrOf, says, argsOf, present, cut, num, List.lookup, Nat.mod_eq_of_lt, hf]

theorem readQue_meaning (hl : k.queLwmEn = true) (hp : PtOk p) (hf : Fits k p) : readQue (meaning k n p ts) = queOf p := by
  cases p
  case user e items =>
    have := user_id hp
    simp only [readQue, meaning, says, queOf]
    split <;> first | omega | rfl
  case fwkState ao s r nm => cases r <;> rfl
  all_goals first | rfl | skip
  all_goals
    simp [Fits, says] at hf
    simp [readQue, meaning, queOf, says, argsOf, present, cut, num, List.lookup, Nat.mod_eq_of_lt, hf, hl]

theorem readMp_meaning (hl : k.mpLwmEn = true) (hp : PtOk p) (hf : Fits k p) : readMp (meaning k n p ts) = mpOf p := by
  cases p
  case user e items =>
    have := user_id hp
    simp only [readMp, meaning, says, mpOf]
    split <;> first | omega | rfl
  case fwkState ao s r nm => cases r <;> rfl
  all_goals first | rfl | skip
  all_goals
    simp [Fits, says] at hf
    simp [readMp, meaning, mpOf, says, argsOf, present, cut, num, List.lookup, Nat.mod_eq_of_lt, hf, hl]

theorem readFwk_meaning (hl : k.queLwmEn = true) (hp : PtOk p) (hf : Fits k p) : readFwk D (meaning k n p ts) = fwkOf k D p := by
  cases p
  case user e items =>
    have := user_id hp
    simp only [readFwk, meaning, says, fwkOf]
    split <;> first | omega | rfl
  case fwkState ao s r nm => cases r <;> rfl
  all_goals first | rfl | skip
  all_goals
    have su : size k .u8 = 1 := rfl
    have sn : size k .nblk = k.nblock.bytes := rfl
    simp [Fits, says, su, sn] at hf
    cases hs : k.sndrEn <;> cases hm : k.mpLwmEn <;>
    simp [readFwk, meaning, fwkOf, says, argsOf, present, cut, num, List.lookup, Nat.mod_eq_of_lt, hf, hl, hs, hm, su, sn,
      Option.map_eq_bind, Function.comp_def]

theorem readSm_meaning (hp : PtOk p) (hf : Fits k p) : readSm D a (meaning k n p ts) = smOf D a p := by
  cases p
  case user e items =>
    have := user_id hp
    simp [readSm, meaning, says, smOf, argsOf, num]
  case fwkState ao s r nm => cases r <;> simp [readSm, meaning, says, smOf, smBody]
  all_goals
    simp [Fits, says] at hf
    simp [readSm, smBody, meaning, smOf, says, argsOf, present, cut, num, List.lookup, Nat.mod_eq_of_lt, hf, Option.map_eq_bind,
      Function.comp_def]

end Verif.Link
