import Verif.Model.Basic
import Mathlib.Data.Nat.Digits.Lemmas

/-! Reference notions about cost codes, independent of the decoders. -/

namespace Skwdro.Spec

/-- fields written one after the other, separated by dashes -/
def joinDash : List PyStr → PyStr
  | [] => []
  | [f] => f
  | f :: g :: r => f ++ '-' :: joinDash (g :: r)

/-- decimal digits, most significant first, of a number -/
def digitChars (ds : List ℕ) : PyStr := ds.reverse.map Nat.digitChar

/-- usual decimal notation of a natural number -/
def decimal (n : ℕ) : PyStr := if n = 0 then ['0'] else digitChars (Nat.digits 10 n)

end Skwdro.Spec
