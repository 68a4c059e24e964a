import Verif.Model.SpecificSolvers
import Verif.Spec.Norms
import Verif.Spec.Losses
import Verif.Spec.BuiltinLosses
import Mathlib.MeasureTheory.Integral.Bochner.Basic
import Mathlib.MeasureTheory.Constructions.BorelSpace.Basic

/-! Wasserstein balls around an empirical distribution, optimal solutions of programs, exact external solvers. -/

namespace Skwdro.Spec
open MeasureTheory

/-- a point satisfying all the constraints of a program -/
def _root_.Skwdro.Program.Feasible {V : Type} (P : Program V) (v : V) : Prop := ∀ c ∈ P.constraints, c v

/-- a best feasible point -/
def _root_.Skwdro.Program.Optimal {V : Type} (P : Program V) (v : V) : Prop :=
  P.Feasible v ∧ ∀ w, P.Feasible w → P.objective v ≤ P.objective w

/-- an external solver that returns an optimal solution whenever there is one, and nothing else -/
def ExactSolver (solve : Oracle) : Prop :=
  ∀ (V : Type) (P : Program V), (∀ v, solve V P = some v → P.Optimal v) ∧ ((∃ v, P.Optimal v) → ∃ v, solve V P = some v)

/-- `Q` is at transport distance at most `rho` of the uniform distribution on the points `z 0, ..., z (n-1)`: some plan `π` (a joint law
of an index and a destination) moves the latter to the former at average cost at most `rho` -/
def InBall {E : Type} [MeasurableSpace E] {n : ℕ} (z : Fin n → E) (cost : E → E → ℝ) (rho : ℝ) (Q : Measure E) : Prop :=
  ∃ π : Measure (Fin n × E), IsProbabilityMeasure π ∧ (∀ i, π.real {p | p.1 = i} = 1 / n) ∧ π.map Prod.snd = Q ∧
    Integrable (fun p => cost (z p.1) p.2) π ∧ ∫ p, cost (z p.1) p.2 ∂π ≤ rho

/-- `theta` has the best worst-case expected loss over a family of distributions -/
def Minimax {Θ E : Type} [MeasurableSpace E] (ball : Set (Measure E)) (loss : Θ → E → ℝ) (ok : Θ → Prop) (theta : Θ) : Prop :=
  ok theta ∧ ∀ theta', ok theta' → ∀ M, (∀ Q ∈ ball, ∫ x, loss theta' x ∂Q ≤ M) → ∀ Q ∈ ball, ∫ x, loss theta x ∂Q ≤ M

/-- demand distributions within `rho` of the sample, demands being non-negative -/
def DemandBall {n : ℕ} (z : Fin n → ℝ) (rho : ℝ) : Set (Measure ℝ) :=
  {Q | InBall z (fun a b => |a - b|) rho Q ∧ ∀ᵐ x ∂Q, 0 ≤ x}

/-- labelled points: cost of moving the input plus `kappa` for changing the label -/
noncomputable def moveOrFlip {d : ℕ} (kappa : ℝ) (a b : (Fin d → ℝ) × ℝ) : ℝ := by
  classical exact dist2 a.1 b.1 + (if a.2 = b.2 then 0 else kappa)

/-- laws of points labelled `1` or `-1` within `rho` of the data, moving inputs and flipping labels -/
def LabelBall {n d : ℕ} (X : Fin n → Fin d → ℝ) (y : Fin n → ℝ) (kappa rho : ℝ) : Set (Measure ((Fin d → ℝ) × ℝ)) :=
  {Q | InBall (fun i => (X i, y i)) (moveOrFlip kappa) rho Q ∧ ∀ᵐ p ∂Q, p.2 = 1 ∨ p.2 = -1}

/-- expected logistic loss -/
noncomputable def logRisk {d : ℕ} (w : Fin d → ℝ) (b : ℝ) (Q : Measure ((Fin d → ℝ) × ℝ)) : ℝ :=
  ∫ p, logloss p.2 (score w (some b) p.1) ∂Q

/-- laws of labelled points obtained from the data by moving the inputs, the labels staying the same, the mean square of the
displacements being at most `rho^2` -/
def InputBall {n d : ℕ} (X : Fin n → Fin d → ℝ) (y : Fin n → ℝ) (rho : ℝ) : Set (Measure ((Fin d → ℝ) × ℝ)) :=
  {Q | ∃ π : Measure (Fin n × ((Fin d → ℝ) × ℝ)), IsProbabilityMeasure π ∧ (∀ i, π.real {p | p.1 = i} = 1 / n) ∧
    π.map Prod.snd = Q ∧ (∀ᵐ p ∂π, p.2.2 = y p.1) ∧ Integrable (fun p => dist2 (X p.1) p.2.1 ^ 2) π ∧
    ∫ p, dist2 (X p.1) p.2.1 ^ 2 ∂π ≤ rho ^ 2}

/-- laws of asset returns staying in the polytope `C x <= d`, within `rho` of the sample for the `p`-norm -/
def AssetBall {N m J : ℕ} (C : Fin J → Fin m → ℝ) (d : Fin J → ℝ) (p : XNum ℝ) (samples : Fin N → Fin m → ℝ) (rho : ℝ) :
    Set (Measure (Fin m → ℝ)) :=
  {Q | InBall samples (fun a b => pnorm p fun j => a j - b j) rho Q ∧ ∀ᵐ x ∂Q, ∀ l, ∑ j, C l j * x j ≤ d l}

/-- expected mean-CVaR loss of weights `theta` with threshold `tau` -/
noncomputable def cvarRisk {m : ℕ} (eta alpha : ℝ) (theta : Fin m → ℝ) (tau : ℝ) (Q : Measure (Fin m → ℝ)) : ℝ :=
  ∫ x, meanCVaR eta alpha (∑ j, theta j * x j) tau ∂Q

/-- average newsvendor cost on a sample -/
noncomputable def avgCost (k u : ℝ) (samples : List ℝ) (theta : ℝ) : ℝ :=
  (samples.map fun x => newsvendor k u theta x).sum / samples.length

/-- root mean squared error -/
noncomputable def rmse {n d : ℕ} (X : Fin n → Fin d → ℝ) (y : Fin n → ℝ) (w : Fin d → ℝ) (b : ℝ) : ℝ :=
  Real.sqrt (avg fun i => (∑ j, X i j * w j + b - y i) ^ 2)

/-- root mean squared error under a distribution -/
noncomputable def rmseUnder {d : ℕ} (Q : Measure ((Fin d → ℝ) × ℝ)) (w : Fin d → ℝ) (b : ℝ) : ℝ :=
  Real.sqrt (∫ p, (∑ j, p.1 j * w j + b - p.2) ^ 2 ∂Q)

end Skwdro.Spec
