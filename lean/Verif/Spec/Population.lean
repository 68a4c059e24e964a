import Verif.Spec.Dual
import Mathlib.MeasureTheory.Integral.Bochner.Basic

/-! The robust objective with exact expectations instead of averages over samples. -/

namespace Skwdro.Spec
open MeasureTheory

/-- `lam * rho^p + (1/m) sum_i eps * log E exp((ell(Z, W) - lam * c(X_i, Z, Y_i, W)) / eps)`, the expectation being over the law `nu i` of one
sample `(Z, W)` of data point `i` -/
noncomputable def population {m d k : ℕ} (lam rho p eps : ℝ) (ell : (Fin d → ℝ) → (Fin k → ℝ) → ℝ)
    (c : Fin m → (Fin d → ℝ) → (Fin k → ℝ) → ℝ) (nu : Fin m → Measure ((Fin d → ℝ) × (Fin k → ℝ))) : ℝ :=
  lam * rho ^ p + avg (fun i => eps * Real.log (∫ u, Real.exp ((ell u.1 u.2 - lam * c i u.1 u.2) / eps) ∂(nu i)))

/-- the same without labels: `lam * rho^p + (1/m) sum_i eps * log E exp((ell(Z) - lam * c(X_i, Z)) / eps)` -/
noncomputable def populationU {m d : ℕ} (lam rho p eps : ℝ) (ell : (Fin d → ℝ) → ℝ) (c : Fin m → (Fin d → ℝ) → ℝ)
    (nu : Fin m → Measure (Fin d → ℝ)) : ℝ :=
  lam * rho ^ p + avg (fun i => eps * Real.log (∫ z, Real.exp ((ell z - lam * c i z) / eps) ∂(nu i)))

end Skwdro.Spec
