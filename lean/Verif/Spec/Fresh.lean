import Verif.Spec.Descent
import Mathlib.MeasureTheory.Integral.Bochner.Basic
import Mathlib.MeasureTheory.Measure.Prod
import Mathlib.Analysis.SpecialFunctions.Log.Basic

/-! Generators of random numbers whose draws are independent. -/

namespace Skwdro.Spec

open MeasureTheory

/-- The state of the generator has the law `mu` before an evaluation, which draws `obs g` and leaves the generator in the state `next g`.  What it draws is independent of the
state it leaves, which has the law `mu` again: whatever the number of evaluations, their draws are independent and have the same law. -/
structure FreshDraws {G A : Type} [MeasurableSpace G] [MeasurableSpace A] (mu : Measure G) (next : G → G) (obs : G → A) : Prop where
  next_measurable : Measurable next
  obs_measurable : Measurable obs
  independent : mu.map (fun g => (obs g, next g)) = (mu.map obs).prod mu

/-- the initial guess of the multiplier, when the parameters are `v`, is `guess v` -/
def GuessIs {d N : ℕ} (args : Module d → DualizeArgs) (D : DualLoss) (M0 : Module d) (guess : (Fin N → ℝ) → ℝ) : Prop :=
  ∀ v l D', initialGuess (lossFor args D M0 false (⟨List.ofFn v, l, none, none, ()⟩ : OptView Unit)) (args M0).xi (args M0).xi_labels = .ok D' → D'.lam = guess v

/-- the optimality condition never stops a training of `n` iterations before the last one -/
def NeverStops (cfg : OCConfig) (n : ℕ) : Prop :=
  ∀ (k : ℕ) m m' lam lg ps, k + 1 < n → ocCall cfg m ⟨0, fun _ => lam, lg, ps, n⟩ (k : ℤ) ≠ (.ok true, m')

/-- What trainings by gradient descent guarantee that start with the generator in a random state of law `mu` and draw new samples at each of the `n` robust iterations.
`F g` is the loss of parameters and multiplier on the samples drawn in state `g`, with slopes at most `L g`, so that its expectation is the loss one wants to minimise;
`start g` is where the robust phase of the training starts.  The expectation of the expected loss at the returned parameters and multiplier exceeds the expected loss at any
(non-negative if `clip`) fixed ones by at most the mean squared distance of the start to them, over `2 lr (n + 1)`, plus `lr / 2` times the mean square of the slopes
times `2 + log n`.  The expectation of the loss `x g` reported has the same bound with `n` in place of `n + 1`. -/
def NearOptimalOnAverage {G : Type} [MeasurableSpace G] {d N : ℕ} (mu : Measure G) (clip : Bool) (lr : ℝ) (F : G → (Fin N → ℝ) → ℝ → ℝ) (L : G → ℝ) (n : ℕ)
    (start : G → (Fin N → ℝ) × ℝ) (M0 : Module d) (M : G → Module d) (r : G → Solved (List ℝ)) : Prop :=
  (∀ v l, Integrable (fun g => F g v l) mu) ∧ ∃ (w : G → Fin N → ℝ) (x : G → ℝ),
    (∀ g, (r g).coef = List.ofFn (w g) ∧ M g = M0.withParams (r g).coef ∧ (r g).robust_loss = .fin (x g)) ∧
    Integrable (fun g => ∫ h, F h (w g) (r g).dual_var ∂mu) mu ∧ Integrable x mu ∧ ∀ q lq, (clip = true → 0 ≤ lq) →
      Integrable (fun g => gap2 (start g).1 (start g).2 q lq) mu ∧
      ∫ g, (∫ h, F h (w g) (r g).dual_var ∂mu) ∂mu ≤ ∫ h, F h q lq ∂mu + (∫ g, gap2 (start g).1 (start g).2 q lq ∂mu) / (2 * lr * (n + 1)) +
        lr / 2 * (∫ g, L g ^ 2 ∂mu) * (2 + Real.log n) ∧
      ∫ g, x g ∂mu ≤ ∫ h, F h q lq ∂mu + (∫ g, gap2 (start g).1 (start g).2 q lq ∂mu) / (2 * lr * n) + lr / 2 * (∫ g, L g ^ 2 ∂mu) * (2 + Real.log n)

end Skwdro.Spec
