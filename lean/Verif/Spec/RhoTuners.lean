import Verif.Spec.Norms
import Verif.Spec.BuiltinLosses
import Mathlib.Analysis.Calculus.Deriv.Basic

/-! # What the radius heuristics should compute

Blanchet, Murthy and Si (Confidence regions in Wasserstein distributionally robust estimation) choose the radius from the convex conjugate of
`phi(a) = 1/4 E ‖H a‖²`, where `H` is the derivative in the data of the gradient of the loss. -/

namespace Skwdro.Spec

/-- one-dimensional `phi`, averaged over the sample -/
noncomputable def phi1 {n : ℕ} (H : Fin n → ℝ) (a : ℝ) : ℝ := 1 / 4 * ((∑ k, (H k * a) ^ 2) / n)

/-- the same for vectors, with the Euclidean norm -/
noncomputable def phi {n r d : ℕ} (H : Fin n → Matrix (Fin r) (Fin d) ℝ) (a : Fin d → ℝ) : ℝ :=
  1 / 4 * ((∑ k, ∑ i, ((H k).mulVec a i) ^ 2) / n)

/-- Moore-Penrose pseudo-inverse -/
structure IsPinv {d : ℕ} (A B : Matrix (Fin d) (Fin d) ℝ) : Prop where
  aba : A * B * A = A
  bab : B * A * B = B
  ab : (A * B).transpose = A * B
  ba : (B * A).transpose = B * A

end Skwdro.Spec

namespace Skwdro.Spec

/-- `phi` for the mean-CVaR loss of weights `w` and threshold `tau` (away from kinks): the derivative in the returns of its gradient in the
weights is minus the identity, times `1 + eta/alpha` where the loss exceeds the threshold -/
noncomputable def pfPhi {n m : ℕ} (p : XNum ℝ) (eta alpha : ℝ) (w : Fin m → ℝ) (tau : ℝ) (X : Fin n → Fin m → ℝ) (a : Fin m → ℝ) : ℝ :=
  1 / 4 * ((∑ k, pnorm p (fun j => -(1 + if tau < -∑ j, w j * X k j then eta / alpha else 0) * a j) ^ 2) / n)

/-- empirical covariance of two variables observed `m + 1` times (divisor `m`) -/
noncomputable def sampleCov {m : ℕ} (x y : Fin (m + 1) → ℝ) : ℝ :=
  (∑ c, (x c - (∑ c, x c) / (m + 1)) * (y c - (∑ c, y c) / (m + 1))) / m

end Skwdro.Spec
