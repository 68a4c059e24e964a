import Verif.Spec.Tensors
import Mathlib.Algebra.BigOperators.Fin
import Mathlib.Analysis.SpecialFunctions.Log.Basic
import Mathlib.Analysis.SpecialFunctions.Sqrt

/-! Textbook formulas of the built-in losses. -/

namespace Skwdro.Spec

/-- affine score `<w, x> + b` (no intercept: 0) -/
noncomputable def score {d : ℕ} (w : Fin d → ℝ) (b : Option ℝ) (x : Fin d → ℝ) : ℝ := ∑ k, w k * x k + b.getD 0

/-- logistic loss of a label and a score -/
noncomputable def logloss (y s : ℝ) : ℝ := Real.log (1 + Real.exp (-(y * s)))

/-- newsvendor loss: buying cost minus revenue -/
noncomputable def newsvendor (k u theta x : ℝ) : ℝ := k * theta - u * min theta x

/-- the two affine pieces of the mean-CVaR integrand, as functions of the return `r` and of the threshold `tau` -/
noncomputable def meanCVaR (eta alpha r tau : ℝ) : ℝ := max (-r + eta * tau) ((-1 - eta / alpha) * r + eta * (1 - 1 / alpha) * tau)

/-- Euclidean distance -/
noncomputable def dist2 {d : ℕ} (x y : Fin d → ℝ) : ℝ := Real.sqrt (∑ k, (x k - y k) ^ 2)

/-- weights of a portfolio: non-negative, summing to one -/
def InSimplex {d : ℕ} (w : Fin d → ℝ) : Prop := (∀ k, 0 ≤ w k) ∧ ∑ k, w k = 1

end Skwdro.Spec
