import Verif.Model.Dual
import Verif.Model.WrappedLoss
import Verif.Spec.Losses
import Verif.Spec.Norms
import Mathlib.Analysis.SpecialFunctions.Log.Basic

/-! The advertised robust objective, and notions about adversaries. -/

namespace Skwdro.Spec

/-- `eps * log((1/n) sum_j exp(u_j / eps))` -/
noncomputable def softmax {n : ℕ} (eps : ℝ) (u : Fin n → ℝ) : ℝ :=
  eps * Real.log (avg (fun j => Real.exp (u j / eps)))

/-- `lam * rho^p + (1/m) sum_i eps * log((1/n) sum_j exp((L_ji - lam * C_ji)/eps))` -/
noncomputable def robust {n m : ℕ} (lam rho p eps : ℝ) (L C : Fin n → Fin m → ℝ) : ℝ :=
  lam * rho ^ p + avg (fun i => softmax eps (fun j => L j i - lam * C j i))

/-- a re-weighting of `n` samples: non-negative weights summing to one -/
def IsWeights {n : ℕ} (q : Fin n → ℝ) : Prop := (∀ j, 0 ≤ q j) ∧ ∑ j, q j = 1

/-- Kullback–Leibler divergence of a re-weighting from the uniform one -/
noncomputable def KL {n : ℕ} (q : Fin n → ℝ) : ℝ := ∑ j, q j * Real.log (n * q j)

/-- the exponentially tilted re-weighting -/
noncomputable def tilt {n : ℕ} (eps : ℝ) (u : Fin n → ℝ) (j : Fin n) : ℝ :=
  Real.exp (u j / eps) / ∑ k, Real.exp (u k / eps)

/-- A robust evaluation without importance sampling, in robust mode, with a positive radius and regularisation: the user
loss gives `L` on the samples, the ground cost gives `C`. -/
structure Plain {n m : ℕ} (D : DualLoss) (xi : Tensor ℝ) (xi_labels : Option (Tensor ℝ)) (zeta : Tensor ℝ)
    (zeta_labels : Option (Tensor ℝ)) (rho : ℝ) (L C : Fin n → Fin m → ℝ) : Prop where
  rho_eq : D.rho = .num rho
  rho_pos : 0 < rho
  eps_pos : 0 < D.epsilon
  erm : D.ermMode = false
  imp : D.impSamp = false
  n_pos : 0 < n
  m_pos : 0 < m
  samples : zeta.size0 = n
  loss : Returns (D.primal zeta zeta_labels) (fun t => IsTen t (fun j i (_ : Fin 1) => L j i))
  cost : Returns (D.cost.value xi.unsqueeze0 zeta (maybeUnsqueeze xi_labels) zeta_labels)
    (fun t => IsTen t (fun j i (_ : Fin 1) => C j i))

/-- the number carried by a returned scalar robust loss (`0` if the call failed or gave NaN) -/
def num (r : Except PyErr DualVal) : ℝ :=
  match r with
  | .ok (.val t) => t.get []
  | _ => 0

/-- the call returns a robust loss tensor satisfying `P` (no error, not NaN) -/
def ReturnsVal (r : Except PyErr DualVal) (P : Tensor ℝ → Prop) : Prop := ∃ t, r = .ok (.val t) ∧ P t

/-- a ground cost accepted by its constructor, for a norm order that defines a norm -/
structure GoodCost (c : CostR) : Prop where
  order : NormOrder c.p
  weight : c.kind = .normLabelCost → (∃ k, 0 ≤ k ∧ c.kappa = .fin k) ∨ c.kappa = .pinf

/-- A robust loss built on a wrapped labelled model: the user model treats rows independently (`ell`), the robust loss is
in robust mode without importance sampling, and the radius and the regularisation are positive. -/
structure Labelled {d k s : ℕ} (w : WLoss) (D : DualLoss) (ell : (Fin d → ℝ) → (Fin k → ℝ) → Fin s → ℝ) (rho : ℝ) :
    Prop where
  primal : D.primal = w.value
  hasLabels : w.hasLabels = true
  reduceSpatial : w.reduceSpatial = true
  s_pos : 0 < s
  rows : RowWise w.flat ell
  cost : GoodCost D.cost
  rho_eq : D.rho = .num rho
  rho_pos : 0 < rho
  eps_pos : 0 < D.epsilon
  erm : D.ermMode = false
  imp : D.impSamp = false

/-- The same for a wrapped model without labels, with the ground cost on inputs only. -/
structure NoLabels {d s : ℕ} (w : WLoss) (D : DualLoss) (ell : (Fin d → ℝ) → Fin s → ℝ) (rho : ℝ) : Prop where
  primal : D.primal = w.value
  hasLabels : w.hasLabels = false
  reduceSpatial : w.reduceSpatial = true
  s_pos : 0 < s
  rows : RowWise0 w.flat ell
  kind : D.cost.kind = .normCost
  order : NormOrder D.cost.p
  rho_eq : D.rho = .num rho
  rho_pos : 0 < rho
  eps_pos : 0 < D.epsilon
  erm : D.ermMode = false
  imp : D.impSamp = false

/-- the loss of a wrapped model at one labelled point -/
noncomputable def lossAt {d k s : ℕ} (w : WLoss) (ell : (Fin d → ℝ) → (Fin k → ℝ) → Fin s → ℝ) (x : Fin d → ℝ)
    (y : Fin k → ℝ) : ℝ := avg (ell x y) + ridge w.l2reg w.theta

/-- the loss of a wrapped model at one point without label -/
noncomputable def lossAt0 {d s : ℕ} (w : WLoss) (ell : (Fin d → ℝ) → Fin s → ℝ) (x : Fin d → ℝ) : ℝ :=
  avg (ell x) + ridge w.l2reg w.theta

end Skwdro.Spec
