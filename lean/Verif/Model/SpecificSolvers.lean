import Verif.Model.Result
import Verif.Model.Costs
import Mathlib.Data.List.Sort
import Mathlib.Algebra.BigOperators.Fin
import Mathlib.Analysis.SpecialFunctions.Log.Basic
import Mathlib.Analysis.SpecialFunctions.Sqrt

/-!
# Dedicated solvers: `/repo/skwdro/solvers/specific_solvers.py`

The convex programs are modelled constraint by constraint.  The call of the external solver (cvxpy/cvxopt) is a parameter: given the
program, it returns the values of the variables, or `none` when it has none to give.
-/

namespace Skwdro

/-- a program handed to the external solver: minimise the objective under the listed constraints -/
structure Program (V : Type) where
  objective : V → ℝ
  constraints : List (V → Prop)

/-- the external solver (`problem.solve(...)` followed by `variable.value`, or `solvers.lp`) -/
abbrev Oracle := (V : Type) → Program V → Option V

/-- values occurring in the returned tuples -/
inductive SVal
  | num (x : ℝ)
  | vec (v : List ℝ)

/-- `np.sort(samples, axis=0)` of a column -/
noncomputable def npSort (samples : List ℝ) : List ℝ := samples.insertionSort (· ≤ ·)

/-- the program of `SAANewsvendorSpecificSolver2`, lines 97-106: variables `beta[:n]`, `beta[n]` -/
noncomputable def saa2Program (k u : ℝ) (z : List ℝ) : Program ((Fin z.length → ℝ) × ℝ) where
  objective b := k * b.2 - u * 1 / z.length * ∑ i, b.1 i
  constraints := (fun b => 0 ≤ b.2) ::
    (List.finRange z.length).flatMap fun i => [fun b => b.1 i ≤ b.2, fun b => b.1 i ≤ z[i]]

/-- `SAANewsvendorSpecificSolver2`, lines 88-110.  Simplification: samples are one column (the only case in which the caller's
indexing makes sense). -/
noncomputable def saaNewsvendor2 (solve : Oracle) (k u : ℝ) : Option (List ℝ) → Except PyErr (SolverResult SVal)
  | none => .error .assertionError
  | some samples =>
    let z := npSort samples
    if z.length = 0 then .error .zeroDivision
    else match solve _ (saa2Program k u z) with
      | some v => wrapResult (.tuple [some (.num v.2), some (.num 0)])
      | none => .error .typeError

/-- the linear program of `SAANewsvendorSpecificSolver`, lines 57-77: `min c'x` with `G x <= h`, `x = (theta, s)`, `c = (0, 1/n)`,
rows `(k-u, -I)`, `(k, -I)` and right-hand sides `0`, `u z` -/
noncomputable def saaProgram (k u : ℝ) (z : List ℝ) : Program (ℝ × (Fin z.length → ℝ)) where
  objective x := 0 * x.1 + ∑ i, 1 / (z.length : ℝ) * x.2 i
  constraints :=
    ((List.finRange z.length).map fun i => fun x => (k - u) * x.1 + ∑ j, -(if i = j then (1 : ℝ) else 0) * x.2 j ≤ 0) ++
    ((List.finRange z.length).map fun i => fun x => k * x.1 + ∑ j, -(if i = j then (1 : ℝ) else 0) * x.2 j ≤ u * z[i])

/-- `SAANewsvendorSpecificSolver`, lines 41-84: returns `theta` and the optimal value.  An empty sample is refused by cvxopt
(which exception is a guess). -/
noncomputable def saaNewsvendor (solve : Oracle) (k u : ℝ) : Option (List ℝ) → Except PyErr (SolverResult SVal)
  | none => .error .assertionError
  | some samples =>
    let z := npSort samples
    if z.length = 0 then .error .valueError
    else match solve _ (saaProgram k u z) with
      | some x => wrapResult (.tuple [some (.num x.1), some (.num ((saaProgram k u z).objective x))])
      | none => .error .typeError

/-- `sum(z[:i, 0])`, line 13 -/
noncomputable def nvA (z : List ℝ) (i : ℕ) : ℝ := (z.take i).sum

/-- `lower_bound[i]`, lines 14, 17: `n*rho - z[i+1] < a[i]` -/
def nvLower (rho : ℝ) (z : List ℝ) (i : ℕ) : Prop := z.length * rho - z.getD (i + 1) 0 < nvA z i

/-- `upper_bound[i]`, lines 15, 18: `a[i] <= n*rho` -/
def nvUpper (rho : ℝ) (z : List ℝ) (i : ℕ) : Prop := nvA z i ≤ z.length * rho

/-- `u * rho / z[i_star] + k - u * mean(minimum(z / z[i_star], 1))`, lines 31-33 -/
noncomputable def nvT (k u rho : ℝ) (z : List ℝ) (i_star : ℕ) : ℝ :=
  let t := z.getD i_star 0
  u * rho / t + k - u * ((z.map fun x => min (x / t) 1).sum / z.length)

open Classical in
/-- `WDRONewsvendorSpecificSolver`, lines 8-38.  Simplification: samples are one column; a zero divisor is reported as an error
(numpy would warn and carry on with infinities). -/
noncomputable def newsvendorDedicated (solve : Oracle) (k u rho : ℝ) : Option (List ℝ) → Except PyErr (SolverResult SVal)
  | none => .error .assertionError
  | some samples =>
    let z := npSort samples
    let n := z.length
    let range := List.range (n - 1)
    if ¬ ∃ i ∈ range, nvLower rho z i then
      saaNewsvendor2 solve k u (some samples) >>= fun r => wrapResult (.result r)
    else if ¬ ∃ i ∈ range, nvUpper rho z i then
      wrapResult (.tuple [some (.num 0), some (.num 0)])
    else
      match range.find? fun i => decide (nvUpper rho z i ∧ nvLower rho z i) with
      | none => .error .valueError
      | some i =>
        let i_star := i + 1
        if z.getD i_star 0 = 0 then .error .zeroDivision
        else if nvT k u rho z i_star ≥ 0 then wrapResult (.tuple [some (.num 0), some (.num 0)])
        else saaNewsvendor2 solve k u (some samples) >>= fun r => wrapResult (.result r)

/-- `cp.norm(v)`: Euclidean norm -/
noncomputable def norm2 {d : ℕ} (v : Fin d → ℝ) : ℝ := Real.sqrt (∑ j, v j ^ 2)

/-- `cp.logistic` -/
noncomputable def cpLogistic (x : ℝ) : ℝ := Real.log (1 + Real.exp x)

/-- the program of `WDROLogisticSpecificSolver` with an intercept, lines 119-131: one variable of length `d+1+n+1` -/
noncomputable def logisticProgram {n d : ℕ} (rho kappa : ℝ) (X : Fin n → Fin d → ℝ) (y : Fin n → ℝ) :
    Program (Fin (d + 1 + n + 1) → ℝ) where
  objective b := b ⟨d, by omega⟩ * rho + 1 / (n : ℝ) * ∑ i : Fin n, b ⟨d + 1 + i, by omega⟩
  constraints := (fun b => norm2 (fun j : Fin d => b ⟨j, by omega⟩) ≤ b ⟨d, by omega⟩) ::
    (List.finRange n).flatMap fun i =>
      [fun b => cpLogistic (y i * (∑ j : Fin d, X i j * b ⟨j, by omega⟩ + b ⟨d + 1 + n, by omega⟩)) - kappa * b ⟨d, by omega⟩
          ≤ b ⟨d + 1 + i, by omega⟩,
       fun b => cpLogistic (-y i * (∑ j : Fin d, X i j * b ⟨j, by omega⟩ + b ⟨d + 1 + n, by omega⟩)) ≤ b ⟨d + 1 + i, by omega⟩]

/-- the same without intercept, lines 137-147: one variable of length `d+1+n` -/
noncomputable def logisticProgram0 {n d : ℕ} (rho kappa : ℝ) (X : Fin n → Fin d → ℝ) (y : Fin n → ℝ) :
    Program (Fin (d + 1 + n) → ℝ) where
  objective b := b ⟨d, by omega⟩ * rho + 1 / (n : ℝ) * ∑ i : Fin n, b ⟨d + 1 + i, by omega⟩
  constraints := (fun b => norm2 (fun j : Fin d => b ⟨j, by omega⟩) ≤ b ⟨d, by omega⟩) ::
    (List.finRange n).flatMap fun i =>
      [fun b => cpLogistic (∑ j : Fin d, y i * X i j * b ⟨j, by omega⟩) - kappa * b ⟨d, by omega⟩ ≤ b ⟨d + 1 + i, by omega⟩,
       fun b => cpLogistic (∑ j : Fin d, -y i * X i j * b ⟨j, by omega⟩) ≤ b ⟨d + 1 + i, by omega⟩]

/-- `WDROLogisticSpecificSolver`, lines 113-153 (with `X`, `y` given) -/
noncomputable def logisticDedicated {n d : ℕ} (solve : Oracle) (rho kappa : ℝ) (X : Fin n → Fin d → ℝ) (y : Fin n → ℝ)
    (fit_intercept : Bool) : Except PyErr (SolverResult SVal) :=
  if n = 0 then .error .zeroDivision
  else if fit_intercept then
    match solve _ (logisticProgram rho kappa X y) with
    | some b => wrapResult (.tuple [some (.vec (List.ofFn fun j : Fin d => b ⟨j, by omega⟩)), some (.num (b ⟨d + 1 + n, by omega⟩)),
        some (.num (b ⟨d, by omega⟩)), some (.num ((logisticProgram rho kappa X y).objective b))])
    | none => .error .typeError
  else
    match solve _ (logisticProgram0 rho kappa X y) with
    | some b => wrapResult (.tuple [some (.vec (List.ofFn fun j : Fin d => b ⟨j, by omega⟩)), some (.num 0),
        some (.num (b ⟨d, by omega⟩)), some (.num ((logisticProgram0 rho kappa X y).objective b))])
    | none => .error .typeError

/-- the program of `WDROLinRegSpecificSolver`, lines 163-174: variables `coeff`, `intercept` -/
noncomputable def linregProgram {n d : ℕ} (rho : ℝ) (X : Fin n → Fin d → ℝ) (y : Fin n → ℝ) (fit_intercept : Bool) :
    Program ((Fin d → ℝ) × ℝ) where
  objective v := norm2 (fun i => ∑ j, X i j * v.1 j + v.2 - y i) / Real.sqrt n + rho * norm2 v.1
  constraints := if fit_intercept then [] else [fun v => v.2 = 0]

/-- `WDROLinRegSpecificSolver`, lines 156-178 -/
noncomputable def linregDedicated {n d : ℕ} (solve : Oracle) (rho : ℝ) (X : Fin n → Fin d → ℝ) (y : Fin n → ℝ)
    (fit_intercept : Bool) : Except PyErr (SolverResult SVal) :=
  if 0 < rho then
    match solve _ (linregProgram rho X y fit_intercept) with
    | some v => wrapResult (.tuple [some (.vec (List.ofFn v.1)), some (.vec [v.2]), none])
    | none => wrapResult (.tuple [none, none, none])
  else .error .assertionError

/-- the variables of the portfolio program, lines 196-202: `lam`, `s`, `theta`, `tau`, `gamma` (a list of `N*K` vectors) -/
structure PfVars (N m J : ℕ) where
  lam : ℝ
  s : Fin N → ℝ
  theta : Fin m → ℝ
  tau : ℝ
  gamma : Fin (N * 2) → Fin J → ℝ

/-- `a = [-1, -1 - eta/alpha]`, line 190 -/
noncomputable def pfA (eta alpha : ℝ) (k : Fin 2) : ℝ := if k = 0 then -1 else -1 - eta / alpha

/-- `b = [eta, eta*(1 - 1/alpha)]`, line 191 -/
noncomputable def pfB (eta alpha : ℝ) (k : Fin 2) : ℝ := if k = 0 then eta else eta * (1 - 1 / alpha)

/-- the order of the norm in the constraints, lines 215-219 -/
noncomputable def pfQ : XNum ℝ → Except PyErr (XNum ℝ)
  | .fin p => if p = 1 then .ok .pinf else if p = 0 then .error .zeroDivision else .ok (.fin (1 / (1 - 1 / p)))
  | .pinf => .ok (.fin 1)
  | .ninf => .ok (.fin 1)
  | .nan => .ok .nan

/-- index `i*K + k`, line 225 -/
def pfIx {N : ℕ} (i : Fin N) (k : Fin 2) : Fin (N * 2) := ⟨i * 2 + k, by omega⟩

/-- the program of `WDROPortfolioSpecificSolver`, lines 205-229, with norm order `q` -/
noncomputable def portfolioProgram {N m J : ℕ} (C : Fin J → Fin m → ℝ) (d : Fin J → ℝ) (q : XNum ℝ) (eta alpha rho : ℝ)
    (samples : Fin N → Fin m → ℝ) : Program (PfVars N m J) where
  objective v := v.lam * rho + 1 / (N : ℝ) * ∑ i, v.s i
  constraints :=
    [fun v => ∑ j, v.theta j = 1, fun v => 0 ≤ v.lam] ++
    ((List.finRange m).map fun j => fun v => 0 ≤ v.theta j) ++
    (List.finRange N).flatMap fun i => (List.finRange 2).flatMap fun k =>
      [fun v => pfB eta alpha k * v.tau + pfA eta alpha k * (∑ j, v.theta j * samples i j)
          + ∑ l, v.gamma (pfIx i k) l * (d l - ∑ j, C l j * samples i j) ≤ v.s i,
       fun v => vnorm q (List.ofFn fun j => (∑ l, C l j * v.gamma (pfIx i k) l) - pfA eta alpha k * v.theta j) ≤ v.lam,
       fun v => ∀ l, 0 ≤ v.gamma (pfIx i k) l]

/-- orders accepted by `cp.norm` in a convex constraint -/
def cpOrder : XNum ℝ → Prop
  | .fin q => 1 ≤ q
  | .pinf => True
  | _ => False

open Classical in
/-- `WDROPortfolioSpecificSolver`, lines 181-242.  Simplifications: `d` is a vector; orders below 1 are refused by cvxpy (which
exception is a guess); cvxpy's rational approximation of the order is exact. -/
noncomputable def portfolioDedicated {N m J : ℕ} (solve : Oracle) (C : Fin J → Fin m → ℝ) (d : Fin J → ℝ) (p : XNum ℝ)
    (eta alpha rho : ℝ) (samples : Fin N → Fin m → ℝ) : Except PyErr (SolverResult SVal) :=
  if alpha = 0 then .error .zeroDivision
  else if N = 0 then .error .zeroDivision
  else do
    let q ← pfQ p
    if cpOrder q then
      match solve _ (portfolioProgram C d q eta alpha rho samples) with
      | some v => wrapResult (.tuple [some (.vec (List.ofFn v.theta)), some (.vec [v.tau]), some (.vec [v.lam]),
          some (.num ((portfolioProgram C d q eta alpha rho samples).objective v))])
      | none => .error .valueError
    else .error .valueError

end Skwdro
