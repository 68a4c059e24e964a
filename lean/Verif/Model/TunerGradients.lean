import Mathlib.Data.Real.Basic
import Mathlib.Algebra.BigOperators.Group.List.Basic
import Mathlib.LinearAlgebra.Matrix.Defs
import Verif.Model.Basic

/-!
# `BlanchetRhoTunedEstimator.fit`, rho_tuners.py:149-175: gradient table, covariance and noise of the generic statistical tuner

The gradients of the entries of the loss (torch's automatic differentiation) are inputs; `theta` is a leaf parameter, as in the Logistic,
Quadratic and NewsVendor losses, so that torch accumulates its gradient in place.  Simplification: the branches of lines 144-147, 151 and 157 for
`Portfolio` are not modelled.  The warnings and NaN of a covariance of one sample are not modelled (division by zero is total).
-/

namespace Skwdro

/-- the tensor under `h_samples_`: the gradient buffer itself (`self.h_samples_ = grad_theta`, rho_tuners.py:152, no copy), or a table made by `vstack` (rho_tuners.py:158) -/
inductive RowStore (V : Type) where
  | buffer
  | table (rows : List V)

/-- the rows seen when the stored tensor is read while the gradient buffer holds `buf` (rho_tuners.py:152, 158) -/
def RowStore.read {V : Type} (buf : V) : RowStore V → List V
  | .buffer => [buf]
  | .table rows => rows

/-- one pass of the loop of rho_tuners.py:154-158: `output[i].backward` adds the gradient `g` of entry `i` to the buffer `theta.grad` in place (torch, the buffer
is never reset), `vstack` copies the stored rows and the buffer -/
def gradPass {V : Type} [Add V] (s : V × RowStore V) (g : V) : V × RowStore V :=
  let buf := s.1 + g
  (buf, .table (s.2.read buf ++ [buf]))

/-- `h_samples_` after rho_tuners.py:149-158; `g0`, `gs` are the gradients of the loss of the first and of the other samples -/
def hSamples {V : Type} [Add V] (g0 : V) (gs : List V) : List V :=
  let s := gs.foldl gradPass (g0, .buffer)
  s.2.read s.1

/-- `pt.cov(rows.T, correction=c)` (external, called at rho_tuners.py:160-161): entry `a, b` -/
noncomputable def ptCov {d : ℕ} (rows : List (Fin d → ℝ)) (c : ℝ) (a b : Fin d) : ℝ :=
  let mean := fun j => (rows.map fun r => r j).sum / (rows.length : ℝ)
  (rows.map fun r => (r a - mean a) * (r b - mean b)).sum / ((rows.length : ℝ) - c)

/-- rho_tuners.py:160-161 and 173-175, one parameter: `Normal(0, scale=cov)`, which refuses a scale that is not positive -/
noncomputable def tunerNoise1 (rows : List (Fin 1 → ℝ)) : Except PyErr ℝ :=
  let scale := ptCov rows 0 0 0
  if 0 < scale then .ok scale else .error .valueError

/-- rho_tuners.py:160-171, other numbers of parameters: the covariance matrix given to `MultivariateNormal`; `minEig` is the least eigenvalue returned by
`eigvalsh` (external) -/
noncomputable def tunerCov {d : ℕ} (minEig : Matrix (Fin d) (Fin d) ℝ → ℝ) (rows : List (Fin d → ℝ)) : Matrix (Fin d) (Fin d) ℝ :=
  let cov : Matrix (Fin d) (Fin d) ℝ := Matrix.of fun a b => ptCov rows 1 a b
  fun a b => cov a b + (max (-minEig cov) 0 + 1 / 10000) * (if a = b then 1 else 0)

end Skwdro
