import Mathlib.Data.Rat.Defs
import Mathlib.Data.Real.Basic

/-!
# Shared vocabulary of the model: python exceptions, extended numbers
-/

namespace Skwdro

/-- Python exception classes raised (explicitly or by the interpreter) in the modelled code. -/
inductive PyErr
  | valueError
  | typeError
  | assertionError
  | notImplemented
  | indexError
  | attributeError
  | runtimeError
  | deprecationWarning
  | zeroDivision
  | notFitted
  deriving DecidableEq, Repr

/-- Python strings are modelled as lists of characters. -/
abbrev PyStr := List Char

/-- A python/torch float, idealised: exact finite values of type `α` (no rounding, no overflow, one zero),
plus the three special values that decide branches in the code. -/
inductive XNum (α : Type) where
  | nan
  | ninf
  | fin (a : α)
  | pinf
  deriving DecidableEq

namespace XNum

variable {α : Type}

/-- `x >= 0` for floats: false on NaN. -/
def ge0 [Zero α] [LE α] [DecidableLE α] : XNum α → Bool
  | nan => false
  | ninf => false
  | fin a => decide (0 ≤ a)
  | pinf => true

/-- `x == c` for a finite literal `c`: false on NaN and infinities. -/
def eqLit [DecidableEq α] (c : α) : XNum α → Bool
  | fin a => decide (a = c)
  | _ => false

/-- `x == float('inf')`. -/
def isPInf : XNum α → Bool
  | pinf => true
  | _ => false

/-- Change of number type (exact). -/
def map {β : Type} (f : α → β) : XNum α → XNum β
  | nan => nan
  | ninf => ninf
  | fin a => fin (f a)
  | pinf => pinf

end XNum

end Skwdro
