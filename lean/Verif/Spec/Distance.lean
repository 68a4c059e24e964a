import Verif.Spec.Wasserstein

/-!
# Laws at a bounded transport distance

The balls of `Verif.Spec.Wasserstein` ask for a plan of average cost at most `rho`.  The transport distance is the infimum of the average costs of
all plans, which need not be attained: a law is at distance at most `rho` when there are plans of average cost at most `rho'` for all `rho' > rho`.
-/

namespace Skwdro.Spec
open MeasureTheory

/-- the average costs of the plans that move the uniform distribution on the points `z` to `Q` -/
def PlanCosts {E : Type} [MeasurableSpace E] {n : ℕ} (z : Fin n → E) (cost : E → E → ℝ) (Q : Measure E) : Set ℝ :=
  {c | ∃ π : Measure (Fin n × E), IsProbabilityMeasure π ∧ (∀ i, π.real {p | p.1 = i} = 1 / n) ∧ π.map Prod.snd = Q ∧
    Integrable (fun p => cost (z p.1) p.2) π ∧ c = ∫ p, cost (z p.1) p.2 ∂π}

/-- the infimum over the plans of the average cost is at most `rho` -/
def WithinDistance {E : Type} [MeasurableSpace E] {n : ℕ} (z : Fin n → E) (cost : E → E → ℝ) (rho : ℝ) (Q : Measure E) : Prop :=
  ∃ δ, IsGLB (PlanCosts z cost Q) δ ∧ δ ≤ rho

/-- the laws of `DemandBall`, `LabelBall` and `AssetBall` with this distance -/
def DemandsWithin {n : ℕ} (z : Fin n → ℝ) (rho : ℝ) : Set (Measure ℝ) :=
  {Q | WithinDistance z (fun a b => |a - b|) rho Q ∧ ∀ᵐ x ∂Q, 0 ≤ x}

def LabelsWithin {n d : ℕ} (X : Fin n → Fin d → ℝ) (y : Fin n → ℝ) (kappa rho : ℝ) : Set (Measure ((Fin d → ℝ) × ℝ)) :=
  {Q | WithinDistance (fun i => (X i, y i)) (moveOrFlip kappa) rho Q ∧ ∀ᵐ p ∂Q, p.2 = 1 ∨ p.2 = -1}

def AssetsWithin {N m J : ℕ} (C : Fin J → Fin m → ℝ) (d : Fin J → ℝ) (p : XNum ℝ) (samples : Fin N → Fin m → ℝ) (rho : ℝ) :
    Set (Measure (Fin m → ℝ)) :=
  {Q | WithinDistance samples (fun a b => pnorm p fun j => a j - b j) rho Q ∧ ∀ᵐ x ∂Q, ∀ l, ∑ j, C l j * x j ≤ d l}

/-- the laws of `InputBall` with this distance: mean squared displacements as little above `rho^2` as one wants -/
def InputsWithin {n d : ℕ} (X : Fin n → Fin d → ℝ) (y : Fin n → ℝ) (rho : ℝ) : Set (Measure ((Fin d → ℝ) × ℝ)) :=
  {Q | ∀ rho' > rho, Q ∈ InputBall X y rho'}

/-- the expected losses of the plans that move `n` points of equal weights at an average cost of at most `r`; losses and costs may depend on the point -/
def PlanLosses {E : Type} [MeasurableSpace E] {n : ℕ} (c l : Fin n → E → ℝ) (r : ℝ) : Set ℝ :=
  {v | ∃ π : Measure (Fin n × E), IsProbabilityMeasure π ∧ (∀ i, π.real {p | p.1 = i} = 1 / n) ∧ Integrable (fun p => c p.1 p.2) π ∧
    Integrable (fun p => l p.1 p.2) π ∧ ∫ p, c p.1 p.2 ∂π ≤ r ∧ v = ∫ p, l p.1 p.2 ∂π}

end Skwdro.Spec
