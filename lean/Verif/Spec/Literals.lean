import Verif.Model.CostDecoder
import Verif.Spec.Strings
import Mathlib.Data.Rat.Defs
import Mathlib.Algebra.Field.Rat

/-! The grammar of the number literals accepted by python's `float(str)`, as relations between a string and a value;
written from the python reference, independently of the scanner of the model (ASCII only, no rounding). -/

namespace Skwdro.Spec

/-- `c` is the decimal digit of value `v` -/
def IsDigit (c : Char) (v : ℕ) : Prop := v < 10 ∧ c.toNat = 48 + v

/-- A non-empty run of digits, a single underscore being allowed between two digits: the number written and how many
digits it has. -/
inductive Digits : PyStr → ℕ → ℕ → Prop
  | one {c v} : IsDigit c v → Digits [c] v 1
  | next {s a n c v} : Digits s a n → IsDigit c v → Digits (s ++ [c]) (10 * a + v) (n + 1)
  | under {s a n c v} : Digits s a n → IsDigit c v → Digits (s ++ ['_', c]) (10 * a + v) (n + 1)

/-- a possibly empty run of digits -/
inductive OptDigits : PyStr → ℕ → ℕ → Prop
  | none : OptDigits [] 0 0
  | some {s a n} : Digits s a n → OptDigits s a n

/-- an optional exponent -/
inductive Exponent : PyStr → ℤ → Prop
  | none : Exponent [] 0
  | plain {c s a n} : c = 'e' ∨ c = 'E' → Digits s a n → Exponent (c :: s) a
  | plus {c s a n} : c = 'e' ∨ c = 'E' → Digits s a n → Exponent (c :: '+' :: s) a
  | minus {c s a n} : c = 'e' ∨ c = 'E' → Digits s a n → Exponent (c :: '-' :: s) (-(a : ℤ))

/-- an unsigned decimal number: `12`, `12e3`, `1.5`, `.5`, `5.`, `1_000.25E-2`, … -/
inductive Unsigned : PyStr → ℚ → Prop
  | whole {i a n x e} : Digits i a n → Exponent x e → Unsigned (i ++ x) ((a : ℚ) * 10 ^ e)
  | point {i a n f b m x e} : OptDigits i a n → OptDigits f b m → n + m ≠ 0 → Exponent x e →
      Unsigned (i ++ '.' :: (f ++ x)) (((a : ℚ) + (b : ℚ) / 10 ^ m) * 10 ^ e)

/-- an unsigned number or one of the words for the infinity and for "not a number", in any case -/
inductive Magnitude : PyStr → XNum ℚ → Prop
  | number {s q} : Unsigned s q → Magnitude s (.fin q)
  | inf {s} : s.map Char.toLower = "inf".toList → Magnitude s .pinf
  | infinity {s} : s.map Char.toLower = "infinity".toList → Magnitude s .pinf
  | nan {s} : s.map Char.toLower = "nan".toList → Magnitude s .nan

/-- the opposite of an extended number -/
inductive Opposite : XNum ℚ → XNum ℚ → Prop
  | nan : Opposite .nan .nan
  | inf : Opposite .pinf .ninf
  | fin (q : ℚ) : Opposite (.fin q) (.fin (-q))

/-- an optionally signed literal -/
inductive Signed : PyStr → XNum ℚ → Prop
  | bare {s x} : Magnitude s x → Signed s x
  | plus {s x} : Magnitude s x → Signed ('+' :: s) x
  | minus {s x y} : Magnitude s x → Opposite x y → Signed ('-' :: s) y

/-- only space, tab, line feed, vertical tab, form feed and carriage return -/
def Blanks (s : PyStr) : Prop := ∀ c ∈ s, c = ' ' ∨ c = '\t' ∨ c = '\n' ∨ c = '\x0b' ∨ c = '\x0c' ∨ c = '\r'

/-- `s` is a literal, possibly surrounded by blanks, for the number `x` -/
def FloatLiteral (s : PyStr) (x : XNum ℚ) : Prop :=
  ∃ l m r, s = l ++ m ++ r ∧ Blanks l ∧ Blanks r ∧ Signed m x

/-- What the fields after the fourth say about the label weight: nothing, or a literal first. -/
def LabelWeight (rest : List PyStr) (K : XNum ℚ) : Prop :=
  (rest = [] ∧ K = .fin (10 ^ 8)) ∨ ∃ k r, rest = k :: r ∧ FloatLiteral k K

/-- What class and identifier mean: `NC` has no label weight, `NLC` has one and it must be non-negative. -/
def Denotes (i : PyStr) (W T K : XNum ℚ) (name : Option PyStr) (c : CostObj) : Prop :=
  (i = "NC".toList ∧ c = ⟨.normCost, T, W, none, name⟩) ∨
  (i = "NLC".toList ∧ (K = .pinf ∨ ∃ q : ℚ, 0 ≤ q ∧ K = .fin q) ∧ c = ⟨.normLabelCost, T, W, some K, name⟩)

/-- The three shapes of a code the two-step decoder knows: `rest` is the field of the label
weight, if any. -/
def Shape (code i w t : PyStr) (rest : List PyStr) : Prop :=
  (code = joinDash [i, w, t] ∧ rest = []) ∨ (code = joinDash ["t".toList, i, w, t] ∧ rest = []) ∨
  ∃ e k, '-' ∉ e ∧ code = joinDash [e, i, w, t, k] ∧ rest = [k]

end Skwdro.Spec
