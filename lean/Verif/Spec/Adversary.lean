import Verif.Spec.Dual
import Verif.Spec.Descent

/-! Adversaries that re-weight given samples. -/

namespace Skwdro.Spec

/-- `a i` re-weights the samples of the `i`-th data point, at an average transport cost of at most `budget` -/
def Admissible {n m : ℕ} (budget : ℝ) (C : Fin n → Fin m → ℝ) (a : Fin m → Fin n → ℝ) : Prop :=
  (∀ i, IsWeights (a i)) ∧ avg (fun i => ∑ j, a i j * C j i) ≤ budget

/-- expected loss under the re-weighting `a`, less `eps` times its divergence from the uniform one -/
noncomputable def attacked {n m : ℕ} (eps : ℝ) (L : Fin n → Fin m → ℝ) (a : Fin m → Fin n → ℝ) : ℝ := avg (fun i => ∑ j, a i j * L j i - eps * KL (a i))

/-- `x` is the worst case: the largest expected loss an admissible adversary can cause -/
def WorstCase {n m : ℕ} (budget eps : ℝ) (L C : Fin n → Fin m → ℝ) (x : ℝ) : Prop := IsGreatest {v | ∃ a, Admissible budget C a ∧ v = attacked eps L a} x

/-- the penalised logistic losses of the samples `Z` with labels `W` -/
noncomputable def logisticLosses {m n d N : ℕ} (l0 : LinMap d 1) (r2 : ℝ) (Z : Fin n → Fin m → Fin d → ℝ) (W : Fin n → Fin m → ℝ) (v : Fin N → ℝ) (j : Fin n) (i : Fin m) : ℝ :=
  logloss (W j i) ((l0.withParams (List.ofFn v)).out (Z j i) 0) + ridge (some r2) (List.ofFn v)

/-- the costs of moving the data points `X` with labels `y` to the samples -/
noncomputable def sampleCosts {m n d : ℕ} (c : CostR) (X : Fin m → Fin d → ℝ) (y : Fin m → ℝ) (Z : Fin n → Fin m → Fin d → ℝ) (W : Fin n → Fin m → ℝ) (j : Fin n)
    (i : Fin m) : ℝ := costAt c (X i) (Z j i) (fun (_ : Fin 1) => y i) (fun _ => W j i)

/-- What a training with a non-negative multiplier guarantees on the worst case.  It reports a number `x` that is at least the worst case for the parameters
returned, and at most the worst case `z` for any other parameters `q`, plus a constant over the number `k` of robust iterations.  The constant is the squared
distance of the initial parameters `v0` to `q`, plus the square of the initial multiplier and of the range of the losses of `q` (enlarged by `eps * log n`) over
the slack of the budget, all over `2 lr`. -/
def NearlyWorstCase {N n m : ℕ} (cfg : OCConfig) (lr budget eps : ℝ) (L : (Fin N → ℝ) → Fin n → Fin m → ℝ) (C : Fin n → Fin m → ℝ) (least : ℝ) (T : ℕ) (v0 : Fin N → ℝ)
    (l0 : ℝ) (r : Solved (List ℝ)) : Prop :=
  ∃ w k x y, r.coef = List.ofFn w ∧ r.robust_loss = .fin x ∧ WorstCase budget eps (L w) C y ∧ y ≤ x ∧ 1 ≤ k ∧ k ≤ T ∧
    (k < T → ∃ m m' pg lg, ocCall cfg m ⟨0, fun _ => r.dual_var, lg, [(r.coef, pg)], T⟩ ((k - 1 : ℕ) : ℤ) = (.ok true, m')) ∧
    ∀ q a b, (∀ j i, L q j i ∈ Set.Icc a b) → ∃ z, WorstCase budget eps (L q) C z ∧
      x ≤ z + (∑ k, (v0 k - q k) ^ 2 + (|l0| + (b - a + eps * Real.log n) / (budget - least)) ^ 2) / (2 * lr * k)

end Skwdro.Spec
