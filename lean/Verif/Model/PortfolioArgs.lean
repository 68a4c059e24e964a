import Verif.Model.Estimators

/-! # The constraint arguments `C` and `d` of `Portfolio`: `/repo/skwdro/operations_research/_portfolio.py:87-88,179-216` -/

namespace Skwdro

/-- a two-dimensional numpy array given by the user -/
structure UserMat where
  rows : ℕ
  cols : ℕ
  val : Fin rows → Fin cols → ℝ

/-- a numpy array of bounds given by the user: of shape `(len,)`, or of shape `(len, 1)` if `column` -/
structure UserVec where
  len : ℕ
  column : Bool
  val : Fin len → ℝ

/-- the program of `WDROPortfolioSpecificSolver`, specific_solvers.py:201-225, when `d` has shape `(J, 1)`: numpy broadcasts
`d - (C @ xii_hat)` (line 222) to the matrix of entries `d[k] - (C @ xii_hat)[l]`, and the constraint becomes one per column `l` -/
noncomputable def portfolioProgramCol {N m J : ℕ} (C : Fin J → Fin m → ℝ) (d : Fin J → ℝ) (q : XNum ℝ) (eta alpha rho : ℝ)
    (samples : Fin N → Fin m → ℝ) : Program (PfVars N m J) where
  objective v := v.lam * rho + 1 / (N : ℝ) * ∑ i, v.s i
  constraints :=
    [fun v => ∑ j, v.theta j = 1, fun v => 0 ≤ v.lam] ++
    ((List.finRange m).map fun j => fun v => 0 ≤ v.theta j) ++
    (List.finRange N).flatMap fun i => (List.finRange 2).flatMap fun k =>
      [fun v => ∀ l, pfB eta alpha k * v.tau + pfA eta alpha k * (∑ j, v.theta j * samples i j)
          + ∑ k', v.gamma (pfIx i k) k' * (d k' - ∑ j, C l j * samples i j) ≤ v.s i,
       fun v => vnorm q (List.ofFn fun j => (∑ l, C l j * v.gamma (pfIx i k) l) - pfA eta alpha k * v.theta j) ≤ v.lam,
       fun v => ∀ l, 0 ≤ v.gamma (pfIx i k) l]

open Classical in
/-- `WDROPortfolioSpecificSolver`, specific_solvers.py:180-235, with `d` of any length and shape.  When the number of bounds is not the
number of rows of `C`, one of the products of lines 222 and 224 has incompatible dimensions (numpy and cvxpy both raise `ValueError`);
same simplifications as `portfolioDedicated`. -/
noncomputable def portfolioDedicatedArgs {N m J : ℕ} (solve : Oracle) (C : Fin J → Fin m → ℝ) (d : UserVec) (p : XNum ℝ)
    (eta alpha rho : ℝ) (samples : Fin N → Fin m → ℝ) : Except PyErr (SolverResult SVal) :=
  if alpha = 0 then .error .zeroDivision
  else if N = 0 then .error .zeroDivision
  else do
    let q ← pfQ p
    if h : d.len = J then
      if d.column then
        if cpOrder q then
          match solve _ (portfolioProgramCol C (fun l => d.val (l.cast h.symm)) q eta alpha rho samples) with
          | some v => wrapResult (.tuple [some (.vec (List.ofFn v.theta)), some (.vec [v.tau]), some (.vec [v.lam]),
              some (.num ((portfolioProgramCol C (fun l => d.val (l.cast h.symm)) q eta alpha rho samples).objective v))])
          | none => .error .valueError
        else .error .valueError
      else portfolioDedicated solve C (fun l => d.val (l.cast h.symm)) p eta alpha rho samples
    else .error .valueError

/-- `Portfolio.fit`, _portfolio.py:138-257, with the arguments `C` and `d` as given by the user: both are replaced by zeros as soon as one
of them is `None` (lines 179-185); the number of columns is checked before the choice of the solver (lines 188-196); the torch solvers
read neither (lines 217-255).  The zeros of `d_` have shape `(1, 1)`, which for one row is the same program (`portfolioProgramCol_one`). -/
noncomputable def portfolioFitArgs {G : Type} {n m : ℕ} (ext : TorchExt G) (grads : Autograd m) (solve : Oracle) (train : Trainer m)
    (p0 : Portfolio) (P : EstParams) (C : Option UserMat) (d : Option UserVec) (X : Fin n → Fin m → ℝ) (g : G) : Except PyErr (Fitted m) := do
  if n = 0 ∨ m = 0 then .error .valueError
  else
    regAsFloat P
    let cost ← cost_from_str P.cost
    match C, d with
    | some C, some d =>
      if h : C.cols = m then
        match ← route .portfolio P.solver with
        | .dedicated => do
          let rho ← P.rho.toNum
          let r ← portfolioDedicatedArgs solve (fun l j => C.val l (j.cast h.symm)) d (cost.power.map fun q : ℚ => (q : ℝ)) P.eta P.alpha rho X
          let t ← unpack4 r
          .ok { coef := t.1.map SVal.toTensor, tau := t.2.1.map SVal.toTensor, dual_var := t.2.2.1.map SVal.toTensor }
        | .torch _ => portfolioFit ext grads solve train p0 P (zeroC m) zeroD X g
      else .error .valueError
    | _, _ => portfolioFit ext grads solve train p0 P (zeroC m) zeroD X g

end Skwdro
