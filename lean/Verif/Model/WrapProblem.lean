import Verif.Model.Dual
import Verif.Model.WrappedLoss

/-!
# Building robust losses: `/repo/skwdro/wrap_problem.py`
-/

namespace Skwdro

/-- numeric attributes of a decoded cost.  `none` when the power is NaN or infinite (such a cost is refused by its sampler
constructors before anything is computed with it). -/
def CostObj.toReal (c : CostObj) : Option CostR :=
  match c.power with
  | .fin w => some ⟨c.kind, c.p.map (fun q : ℚ => (q : ℝ)), w, (c.kappa.getD (.fin 0)).map (fun q : ℚ => (q : ℝ))⟩
  | _ => none

/-- `SIGMA_FACTOR`, `EPSILON_SIGMA_FACTOR`, wrap_problem.py:15-16 -/
noncomputable def SIGMA_FACTOR : ℝ := 1 / 2
noncomputable def EPSILON_SIGMA_FACTOR : ℝ := 1 / 100

/-- sigma of `expert_hyperparams`, wrap_problem.py:49-56 (a NaN radius is not `> 0`) -/
noncomputable def expertSigma (rho : Radius) (sigma : Option ℝ) (sigma_factor : ℝ) : ℝ :=
  match sigma with
  | some s => s
  | none =>
      match rho with
      | .num r => if 0 < r then r * sigma_factor else sigma_factor
      | .nan => sigma_factor

/-- epsilon of `expert_hyperparams`, wrap_problem.py:58-66.  `none` = NaN (`torch.max` propagates NaN).  Simplification: a
negative radius to a fractional power, NaN in torch, uses the real extension of the power. -/
noncomputable def expertEpsilon (rho : Radius) (p : ℝ) (epsilon : Option ℝ) (epsilon_sigma_factor sigma_factor : ℝ) :
    Option ℝ :=
  match epsilon with
  | some e => some e
  | none =>
      match rho with
      | .num r => some (max (epsilon_sigma_factor * sigma_factor ^ p * r ^ (p - 1)) (1 / 10 ^ 7))
      | .nan => none

/-- `decide_on_impsamp`, wrap_problem.py:78-82 -/
def decideOnImpsamp (user_query : Bool) (cost : ParsedCost) : Bool := user_query && cost.can_imp_samp

/-- `1e-3 / rho_0 if rho_0 > 0. else 0.`, _misc_dual_interfaces.py:112 -/
noncomputable def initialLam (rho : Radius) : ℝ :=
  match rho with
  | .num r => if 0 < r then 1 / 1000 / r else 0
  | .nan => 0

/-- the sampler built by `dualize_primal_loss`, wrap_problem.py:196-206 -/
noncomputable def dualizeSampler {G : Type} (ext : TorchExt G) (cost : CostR) (xi : Tensor ℝ)
    (xi_labels : Option (Tensor ℝ)) (sigma : ℝ) (seed : Option ℤ) (g : G) : Except PyErr (Sampler × G) :=
  match xi_labels with
  | some y => mkLabeledCost ext cost xi y (some sigma) seed g
  | none => mkNoLabelsCost ext cost xi (some sigma) seed g

/-- The arguments of `dualize_primal_loss` (also named `robustify`) that reach the robust loss.  `loss` is the user's loss
(`flat` in `WLoss`), `theta` its parameters, `grads` its input gradients. -/
structure DualizeArgs where
  flat : Tensor ℝ → Option (Tensor ℝ) → Except PyErr (Tensor ℝ)
  theta : List ℝ
  grads : Tensor ℝ → Option (Tensor ℝ) → Tensor ℝ × Option (Tensor ℝ)
  rho : Radius
  xi : Tensor ℝ
  xi_labels : Option (Tensor ℝ)
  post_sample : Bool := true
  cost_spec : Option PyStr := none
  n_samples : ℕ := 10
  seed : Option ℤ := some 42
  reduction : Option Reduction := none
  epsilon : Option ℝ := none
  sigma : Option ℝ := none
  l2reg : Option ℝ := none
  imp_samp : Bool := true
  loss_reduces_spatial_dims : Bool := false

/-- the wrapped loss built by `dualize_primal_loss`, wrap_problem.py:208-211 -/
def DualizeArgs.wloss (a : DualizeArgs) : WLoss where
  hasLabels := a.xi_labels.isSome
  reduceSpatial := !a.loss_reduces_spatial_dims
  flat := a.flat
  l2reg := a.l2reg
  theta := a.theta

/-- `dualize_primal_loss`, wrap_problem.py:85-230, up to the choice of optimizer (see Model/Optimizers) and the schedule (see
`defaultSteps`).  A NaN epsilon (NaN radius, epsilon not given) is stored as `0`: such a robust loss only ever returns NaN or
the ERM value, neither of which reads epsilon. -/
noncomputable def dualize {G : Type} (ext : TorchExt G) (a : DualizeArgs) (g : G) : Except PyErr (DualLoss × G) := do
  let parsed ← parse_code_torch a.cost_spec a.xi_labels.isSome
  let obj ← cost_from_parse_torch parsed
  match obj.toReal with
  | none => .error .notImplemented
  | some cost => do
    let (s, g) ← dualizeSampler ext cost a.xi a.xi_labels (expertSigma a.rho a.sigma SIGMA_FACTOR) a.seed g
    .ok ({ primal := a.wloss.value
           grads := a.grads
           cost := cost
           rho := a.rho
           epsilon := (expertEpsilon a.rho cost.power a.epsilon EPSILON_SIGMA_FACTOR SIGMA_FACTOR).getD 0
           lam := initialLam a.rho
           reduction := reductionAttr a.reduction
           ermMode := false
           impSamp := decideOnImpsamp a.imp_samp parsed
           sampler := some s
           hasLabels := a.xi_labels.isSome
           nSamples := a.n_samples }, g)

/-- the schedule stored by `dualize_primal_loss`, wrap_problem.py:220-222 (`Sum.inl n` an integer, `Sum.inr` a pair) -/
def defaultSteps (post_sample : Bool) (n_iter : Option (ℤ ⊕ (ℤ × ℤ))) : ℤ ⊕ (ℤ × ℤ) :=
  n_iter.getD (.inr (if post_sample then (200, 2800) else (100, 10)))

end Skwdro
