import Verif.Model.Estimators
import Mathlib.LinearAlgebra.Matrix.Notation
import Mathlib.Data.List.Sort

/-! # `skwdro/base/rho_tuners.py` and `rho_tuners_computations.py`: choice of the radius -/

namespace Skwdro

/-! ## Grid search -/

/-- Python's `range(start, stop, -1)` -/
def pyRangeDown (start stop : ℤ) : List ℤ := (List.range (start - stop).toNat).map fun k : ℕ => start - (k : ℤ)

/-- the grid of radii, rho_tuners.py:42-43 -/
noncomputable def rhoGrid (min_power max_power : ℤ) : List ℝ := (pyRangeDown max_power min_power).map fun i => (10 : ℝ) ^ (-i)

/-- `RhoTunedEstimator`, `E` is the type of the wrapped estimator -/
structure RhoTuned (E : Type) where
  estimator : E
  min_power : ℤ
  max_power : ℤ

/-- rho_tuners.py:24-34 (and 101-106, 212-217 for the other tuners) -/
def RhoTuned.construct {E : Type} (estimator : Option E) (min_power : ℤ := -4) (max_power : ℤ := 4) : Except PyErr (RhoTuned E) :=
  match estimator with
  | none => .error .valueError
  | some e => .ok ⟨e, min_power, max_power⟩

/-- rho_tuners.py:36-66. `search` is `HalvingGridSearchCV` (external): given the grid, it yields the chosen radius and the estimator refitted
with it, or fails. `hasScore`, `hasReg` say whether the estimator has attributes `score` and `solver_reg` (the latter is printed at the
end). The dask client and printing are not modelled. -/
noncomputable def RhoTuned.fit {E : Type} (t : RhoTuned E) (hasScore hasReg : E → Bool) (search : E → List ℝ → Except PyErr (ℝ × E)) :
    Except PyErr (ℝ × E) := do
  if hasScore t.estimator then
    let best ← search t.estimator (rhoGrid t.min_power t.max_power)
    if hasReg best.2 then .ok best else .error .attributeError
  else .error .assertionError

/-! ## The statistical tuners: generic one -/

/-- attributes assigned by `fit` (beyond the constructor arguments): _logistic_regression.py:136-338, _linear_regression.py:125-223,
_weber.py:92-167, _portfolio.py:138-257, _newsvendor.py:110-199 -/
def fitAttrs : EstKind → Route → List PyStr
  | .logistic, .dedicated => ["classes_", "le_", "X_", "y_", "n_features_in_", "cost_", "coef_", "intercept_", "dual_var_", "result_", "is_fitted_"].map String.toList
  | .logistic, .torch _ => ["classes_", "le_", "X_", "y_", "n_features_in_", "cost_", "wdro_loss_", "coef_", "intercept_", "dual_var_", "robust_loss_", "is_fitted_"].map String.toList
  | .linreg, .dedicated => ["X_", "y_", "n_features_in_", "cost_", "coef_", "intercept_", "dual_var_", "is_fitted_"].map String.toList
  | .linreg, .torch _ => ["X_", "y_", "n_features_in_", "cost_", "coef_", "intercept_", "dual_var_", "robust_loss_", "is_fitted_"].map String.toList
  | .weber, _ => ["_wdro_loss", "coef_", "intercept_", "dual_var_", "robust_loss_", "is_fitted_"].map String.toList
  | .portfolio, .dedicated => ["rho_", "eta_", "alpha_", "solver_reg_", "X_", "n_features_in_", "cost_", "C_", "d_", "coef_", "tau_", "dual_var_", "result_", "is_fitted_"].map String.toList
  | .portfolio, .torch _ => ["rho_", "eta_", "alpha_", "solver_reg_", "X_", "n_features_in_", "cost_", "C_", "d_", "_wdro_loss", "coef_", "intercept_", "dual_var_", "robust_loss_", "is_fitted_"].map String.toList
  | .newsvendor, .dedicated => ["n_features_in_", "cost_", "coef_", "dual_var_", "is_fitted_"].map String.toList
  | .newsvendor, .torch _ => ["n_features_in_", "cost_", "_wdro_loss", "coef_", "intercept_", "dual_var_", "robust_loss_", "is_fitted_"].map String.toList

/-- the radius used for the first fit, rho_tuners.py:118-120 and 229-231 -/
noncomputable def firstRadius (solver : PyStr) : Radius := .num (if solver = "dedicated".toList then 0 else 1 / 10)

/-- `BlanchetRhoTunedEstimator.fit`, rho_tuners.py:108-205: the arguments of the wrapped estimator afterwards, and the outcome. `inner` is
the estimator's own `fit` on the data at hand; `rest` stands for lines 133-205, which need the attribute read on line 130. -/
noncomputable def blanchetFit {F : Type} (e : EstKind) (P : EstParams) (inner : EstParams → Except PyErr F)
    (rest : EstParams → F → EstParams × Except PyErr F) : EstParams × Except PyErr F :=
  let P' := { P with rho := firstRadius P.solver }
  match route e P.solver, inner P' with
  | .error x, _ => (P', .error x)
  | .ok _, .error x => (P', .error x)
  | .ok r, .ok f =>
    if "problem_".toList ∈ fitAttrs e r then rest P' f else (P', .error .attributeError)

/-! ## Conjugates, rho_tuners_computations.py:43-130

The second derivatives `H k` of the loss at sample `k` (from torch's automatic differentiation, lines 68-107) are an input. -/

/-- lines 109-116, data of dimension one: `A = (1 / 2 * n) * sum(H_k**2)`, as Python parses it -/
noncomputable def phiStar1 {n : ℕ} (H : Fin n → ℝ) (z : ℝ) : Except PyErr (XNum ℝ) :=
  if n = 0 then .error .indexError
  else
    let A := 1 / 2 * (n : ℝ) * ∑ k, H k ^ 2
    if A ≠ 0 then
      let alpha_opt := z / A
      .ok (.fin (alpha_opt * z - 1 / 2 * alpha_opt * A * alpha_opt))
    else .ok (if z ≠ 0 then .pinf else .fin 0)

/-- lines 109, 117-130, other dimensions: `pinv` is `torch.linalg.pinv` (external). The test on line 121 compares a tensor with `False` by
identity and never succeeds. -/
noncomputable def phiStar {n r d : ℕ} (pinv : Matrix (Fin d) (Fin d) ℝ → Matrix (Fin d) (Fin d) ℝ) (H : Fin n → Matrix (Fin r) (Fin d) ℝ)
    (z : Fin d → ℝ) : Except PyErr (XNum ℝ) :=
  if n = 0 then .error .indexError
  else
    let A : Matrix (Fin d) (Fin d) ℝ := (1 / 2 * (n : ℝ)) • ∑ k, (H k).transpose * H k
    let alpha_opt := (pinv A).mulVec z
    .ok (.fin (dotProduct alpha_opt z - 1 / 2 * dotProduct (Matrix.vecMul alpha_opt A) alpha_opt))

/-! ## The portfolio tuner -/

/-- `indicator_func` for a portfolio, rho_tuners_computations.py:9-16; `theta` is the fitted `coef_`. Without attribute `tau_` (torch
solvers) the access fails. -/
noncomputable def indicatorFunc {m : ℕ} (f : Fitted m) (theta : Tensor ℝ) (xii : Fin m → ℝ) : Except PyErr ℝ :=
  match f.tau with
  | none => .error .attributeError
  | some tau =>
    let result := SignType.sign (-((∑ j : Fin m, theta.get [j.1] * xii j) + tau.get [0]))
    if result = 0 then .error .assertionError else .ok (if result = 1 then 1 else 0)

/-- `compute_h` for a portfolio, lines 25-37 (`scal_xi` appends a number to the sample) -/
noncomputable def computeH {m : ℕ} (P : EstParams) (f : Fitted m) (theta : Tensor ℝ) (xii : Fin m → ℝ) : Except PyErr (List ℝ) := do
  let ind ← indicatorFunc f theta xii
  .ok (List.zipWith (fun a b => -(a + P.eta / P.alpha * b * ind)) (List.ofFn xii ++ [-P.eta]) (List.ofFn xii ++ [1]))

/-- `np.cov` of a table whose rows are the variables (external) -/
noncomputable def npCov (h : List (List ℝ)) : List (List ℝ) :=
  let centre := fun (r : List ℝ) => r.map (· - r.sum / r.length)
  h.map fun r => h.map fun s => (List.zipWith (· * ·) (centre r) (centre s)).sum / ((r.length : ℝ) - 1)

/-- `compute_phi_star_portfolio`, lines 133-144 -/
noncomputable def phiStarPortfolio {n m : ℕ} (P : EstParams) (f : Fitted m) (q : XNum ℝ) (theta : Tensor ℝ) (X : Fin n → Fin m → ℝ)
    (z : List ℝ) : Except PyErr ℝ := do
  let terms ← (List.finRange n).mapM fun k => do
    let ind ← indicatorFunc f theta (X k)
    .ok (1 + P.eta / P.alpha * ind)
  .ok ((n : ℝ) * vnorm q z ^ 2 / terms.sum)

/-- `np.quantile(xs, q)` (external): linear interpolation between order statistics -/
noncomputable def npQuantile (xs : List ℝ) (q : ℝ) : ℝ :=
  let s := xs.mergeSort (fun a b => decide (a ≤ b))
  let pos := q * ((xs.length : ℝ) - 1)
  let lo := ⌊pos⌋₊
  let a := s.getD lo 0
  let b := s.getD (min (lo + 1) (xs.length - 1)) 0
  a + (pos - lo) * (b - a)

/-- rho_tuners.py:234-263: the radius computed from the first fit `f`. `draw` is `np.random.multivariate_normal` (external), given the
covariance matrix; it requires a matrix, which `np.cov` does not return for a single variable. -/
noncomputable def tuneRadius {n m : ℕ} (P : EstParams) (f : Fitted m) (q : XNum ℝ) (X : Fin n → Fin m → ℝ)
    (draw : List (List ℝ) → List (List ℝ)) : Except PyErr ℝ := do
  match f.coef with
  | none => .error .typeError
  | some theta =>
    let h_samples ← (List.finRange n).mapM fun i => computeH P f theta (X i)
    if n = 1 then .error .valueError
    else
      let normal_samples := draw (npCov h_samples)
      let conjugate_samples ← normal_samples.mapM fun z => phiStarPortfolio P f q theta X z
      .ok (Real.sqrt (1 / (n : ℝ) * npQuantile conjugate_samples (95 / 100)))

/-- `PortfolioBlanchetRhoTunedEstimator.fit`, rho_tuners.py:219-268: the arguments of the wrapped estimator afterwards, and the fitted
estimator. `fit` is `Portfolio.fit` on the data at hand. -/
noncomputable def portfolioTunerFit {n m : ℕ} (fit : EstParams → Except PyErr (Fitted m)) (draw : List (List ℝ) → List (List ℝ)) (P : EstParams)
    (X : Fin n → Fin m → ℝ) : EstParams × Except PyErr (Fitted m) :=
  let P1 := { P with rho := firstRadius P.solver }
  match fit P1 with
  | .error e => (P1, .error e)
  | .ok f =>
    match cost_from_str P.cost with
    | .error e => (P1, .error e)
    | .ok c =>
      match tuneRadius P1 f (c.p.map fun q : ℚ => (q : ℝ)) X draw with
      | .error e => (P1, .error e)
      | .ok r =>
        let P2 := { P with rho := .num r }
        (P2, fit P2)

end Skwdro
