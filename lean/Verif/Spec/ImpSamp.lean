import Verif.Spec.Dual
import Mathlib.Probability.Distributions.Gaussian.Real

/-! Reference notions for importance sampling: displacements, densities. -/

namespace Skwdro.Spec

/-- Euclidean norm -/
noncomputable def norm2 {d : ℕ} (v : Fin d → ℝ) : ℝ := pnorm (.fin 2) v

/-- the displacement: direction `g`, length `min(10^10, |g|) / (2 lam)` -/
noncomputable def shift {d : ℕ} (lam : ℝ) (g : Fin d → ℝ) (k : Fin d) : ℝ :=
  min (10 ^ 10) (norm2 g) / (2 * lam) * (g k / norm2 g)

/-- no gradient of the batch vanishes and the multiplier is not zero -/
def Regular {m d : ℕ} (lam : ℝ) (g : Fin m → Fin d → ℝ) : Prop := lam ≠ 0 ∧ ∀ i, norm2 (g i) ≠ 0

/-- density at `z` of independent normal coordinates centred at `c`, standard deviation `s` -/
noncomputable def normalDensity {d : ℕ} (s : NNReal) (c z : Fin d → ℝ) : ℝ :=
  ∏ k, ProbabilityTheory.gaussianPDFReal (c k) (s ^ 2) (z k)

/-- density at `z` of independent Laplace coordinates centred at `c`, scale `s` -/
noncomputable def laplaceDensity {d : ℕ} (s : ℝ) (c z : Fin d → ℝ) : ℝ :=
  ∏ k, (1 / (2 * s)) * Real.exp (-|z k - c k| / s)

variable {n m d e : ℕ}

open Classical in
/-- displacement of the points of a batch: the shift, or nothing at all for a degenerate batch -/
noncomputable def moved (ok : Prop) (lam : ℝ) (g : Fin m → Fin d → ℝ) (i : Fin m) (k : Fin d) : ℝ :=
  if ok then shift lam (g i) k else 0

/-- the label weight seen by a displacement: `none` when labels do not move (input-only cost or infinite weight) -/
def labelWeight (c : CostR) : Option ℝ :=
  match c.kind, c.kappa with
  | .normLabelCost, .fin k => some k
  | _, _ => none

/-- displacement of labels -/
noncomputable def movedLabel (c : CostR) (ok : Prop) (lam : ℝ) (gl : Fin m → Fin e → ℝ) (i : Fin m) (k : Fin e) : ℝ :=
  match labelWeight c with
  | some q => moved ok lam gl i k / q
  | none => 0

/-- the noise law of a data distribution has a density with a valid (positive, finite) scale -/
def HasDensity : Dist → Prop
  | .normal _ s => ∃ x : ℝ, 0 < x ∧ s = .fin x
  | .laplace _ s => ∃ x : ℝ, 0 < x ∧ s = .fin x
  | .mvn _ _ => True
  | _ => False

/-- density at `z` of a distribution once its centre is replaced by `c`.  For the multivariate normal law the (external)
torch log-density of the centred noise is used. -/
noncomputable def densityAt {G : Type} (ext : TorchExt G) (l : Dist) (c z : Fin d → ℝ) : ℝ :=
  match l with
  | .normal _ (.fin s) => normalDensity s.toNNReal c z
  | .laplace _ (.fin s) => laplaceDensity s c z
  | .mvn _ cov => Real.exp (ext.mvnLogDensity (ext.tril cov) (List.ofFn (fun k => z k - c k)))
  | _ => 0

/-- An importance-sampled evaluation without labels: squared Euclidean cost, non-empty data `X`, samples `Z`, and `g` the
gradients of the loss at the data. -/
structure Unlabelled (D : DualLoss) (xi zeta : Tensor ℝ) (X : Fin m → Fin d → ℝ) (Z : Fin n → Fin m → Fin d → ℝ)
    (g : Fin m → Fin d → ℝ) : Prop where
  m_pos : 0 < m
  d_pos : 0 < d
  order : D.cost.p = .fin 2
  power : D.cost.power = 2
  data : IsMat xi X
  samples : IsTen zeta Z
  grads : ∃ tg, D.grads xi.unsqueeze0 none = (tg, none) ∧ IsTen tg (fun (_ : Fin 1) => g)

/-- The same with labels `Y`, sampled labels `W`, and `gl` the gradients with respect to the labels. -/
structure WithLabels (D : DualLoss) (xi y zeta zl : Tensor ℝ) (X : Fin m → Fin d → ℝ) (Y : Fin m → Fin e → ℝ)
    (Z : Fin n → Fin m → Fin d → ℝ) (W : Fin n → Fin m → Fin e → ℝ) (g : Fin m → Fin d → ℝ) (gl : Fin m → Fin e → ℝ) :
    Prop where
  m_pos : 0 < m
  d_pos : 0 < d
  e_pos : 0 < e
  order : D.cost.p = .fin 2
  power : D.cost.power = 2
  cost : GoodCost D.cost
  data : IsMat xi X
  samples : IsTen zeta Z
  labels : IsMat y Y
  sampledLabels : IsTen zl W
  grads : ∃ tg tgl, D.grads xi.unsqueeze0 (some y.unsqueeze0) = (tg, some tgl) ∧ IsTen tg (fun (_ : Fin 1) => g) ∧
    IsTen tgl (fun (_ : Fin 1) => gl)

/-- A robust loss in robust mode, without labels, for the squared Euclidean cost: the loss of a sample is `ell`, the gradients of the loss at the
data `X` are `g`, the radius and the regularisation are positive. -/
structure EuclidLoss (D : DualLoss) (X g : Fin m → Fin d → ℝ) (ell : (Fin d → ℝ) → ℝ) (rho : ℝ) : Prop where
  m_pos : 0 < m
  d_pos : 0 < d
  kind : D.cost.kind = .normCost
  order : D.cost.p = .fin 2
  power : D.cost.power = 2
  rho_eq : D.rho = .num rho
  rho_pos : 0 < rho
  eps_pos : 0 < D.epsilon
  erm : D.ermMode = false
  reduction : D.reduction = .mean
  loss : ∀ (n : ℕ) (z : Tensor ℝ) (Z : Fin n → Fin m → Fin d → ℝ), IsTen z Z →
    Returns (D.primal z none) (fun t => IsTen t (fun j i (_ : Fin 1) => ell (Z j i)))
  grads : ∃ tg, D.grads (mat X).unsqueeze0 none = (tg, none) ∧ IsTen tg (fun (_ : Fin 1) => g)

end Skwdro.Spec
