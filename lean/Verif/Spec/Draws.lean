import Verif.Spec.Wasserstein
import Mathlib.Probability.Independence.Basic

/-! Sequences of draws of a law, and laws obtained by moving the points of a law. -/

namespace Skwdro.Spec
open MeasureTheory ProbabilityTheory

/-- `Z 0, Z 1, ...` are pairwise independent draws of the law `nu` -/
structure DrawsOf {Ω A : Type} [MeasurableSpace Ω] [MeasurableSpace A] (μ : Measure Ω) (nu : Measure A) (Z : ℕ → Ω → A) : Prop where
  meas : ∀ i, Measurable (Z i)
  law : ∀ i, μ.map (Z i) = nu
  indep : Pairwise fun i j => IndepFun (Z i) (Z j) μ

/-- laws of labelled points obtained from points of law `nu` by moving the inputs, the labels staying the same, the mean square of the
displacements being at most `rho^2` -/
def MovedInputs {d : ℕ} (nu : Measure ((Fin d → ℝ) × ℝ)) (rho : ℝ) : Set (Measure ((Fin d → ℝ) × ℝ)) :=
  {Q | ∃ π : Measure (((Fin d → ℝ) × ℝ) × ((Fin d → ℝ) × ℝ)), π.map Prod.fst = nu ∧ π.map Prod.snd = Q ∧ (∀ᵐ p ∂π, p.2.2 = p.1.2) ∧
    Integrable (fun p => dist2 p.1.1 p.2.1 ^ 2) π ∧ ∫ p, dist2 p.1.1 p.2.1 ^ 2 ∂π ≤ rho ^ 2}

/-- laws of points labelled `1` or `-1` obtained from points of law `nu` by moving the inputs and changing labels, the average length of the
moves plus `kappa` times the probability of a change being at most `rho` -/
def MovedOrFlipped {d : ℕ} (nu : Measure ((Fin d → ℝ) × ℝ)) (kappa rho : ℝ) : Set (Measure ((Fin d → ℝ) × ℝ)) :=
  {Q | (∃ π : Measure (((Fin d → ℝ) × ℝ) × ((Fin d → ℝ) × ℝ)), π.map Prod.fst = nu ∧ π.map Prod.snd = Q ∧
    Integrable (fun p => moveOrFlip kappa p.1 p.2) π ∧ ∫ p, moveOrFlip kappa p.1 p.2 ∂π ≤ rho) ∧ ∀ᵐ p ∂Q, p.2 = 1 ∨ p.2 = -1}

/-- laws of asset returns obtained from returns of law `nu` by moving them by at most `rho` on average, for the `p`-norm -/
def MovedReturns {m : ℕ} (nu : Measure (Fin m → ℝ)) (p : XNum ℝ) (rho : ℝ) : Set (Measure (Fin m → ℝ)) :=
  {Q | ∃ π : Measure ((Fin m → ℝ) × (Fin m → ℝ)), π.map Prod.fst = nu ∧ π.map Prod.snd = Q ∧
    Integrable (fun z => pnorm p fun j => z.1 j - z.2 j) π ∧ ∫ z, pnorm p (fun j => z.1 j - z.2 j) ∂π ≤ rho}

end Skwdro.Spec
