import Verif.Model.Dual
import Verif.Model.DualState
import Verif.Model.Optimizers
import Verif.Model.Solve

/-!
# Life cycle of the sampler and of the optimizer of a robust loss

`/repo/skwdro/base/losses_torch/base_loss.py` (the `sampler` property, the constructor), the `default_sampler` methods of the
losses, `/repo/skwdro/solvers/_dual_interfaces/_misc_dual_interfaces.py` (`init_sampler`, `generate_zetas`, the `sampler` and
`optimizer` properties), `/repo/skwdro/solvers/oracle_torch.py` (lazy initialisation in the forward pass, constructors).
-/

namespace Skwdro

variable {G : Type}

/-! ## Default samplers -/

/-- the loss classes of the package that define `default_sampler` (`base`: a user's subclass that does not override it) -/
inductive LossClass
  | wrapped | newsvendor | quadratic | logistic | base
deriving DecidableEq

/-- `default_sampler(xi, xi_labels, epsilon, seed)`: base_loss.py:133-146, wrapper.py:90-97 (`WrappingError` is a `ValueError`),
newsvendor.py:84-92, quadratic.py:43-52, logistic.py:109-123.  Missing labels fail on `xi_labels.size()`, after the check of
`xi` (classif_sampler.py:48-49). -/
noncomputable def defaultSampler (ext : TorchExt G) (c : LossClass) (xi : Tensor ℝ) (xi_labels : Option (Tensor ℝ)) (epsilon : ℝ)
    (seed : Option ℤ) (g : G) : Except PyErr (Option Sampler × G) :=
  match c with
  | .base => .ok (none, g)
  | .wrapped => .error .valueError
  | .newsvendor => do
      let (s, g) ← mkNormalNoLabels ext xi (some epsilon) none none none seed g
      .ok (some s, g)
  | .quadratic | .logistic =>
      match xi_labels with
      | none => if xi.dim < 2 then .error .assertionError else .error .attributeError
      | some y => do
          let (s, g) ← mkNormalNormal ext xi y (some epsilon) none none none (some epsilon) none none none seed g
          .ok (some s, g)

/-- calling `default_sampler` with the given arguments; `seed = none` when the argument is left out, which python refuses since
the parameter has no default value (base_loss.py:140) -/
noncomputable def callDefaultSampler (ext : TorchExt G) (c : LossClass) (xi : Tensor ℝ) (xi_labels : Option (Tensor ℝ)) (epsilon : ℝ)
    (seed : Option (Option ℤ)) (g : G) : Except PyErr (Option Sampler × G) :=
  match seed with
  | none => .error .typeError
  | some seed => defaultSampler ext c xi xi_labels epsilon seed g

/-- the sampler stored by `Loss.__init__`, base_loss.py:59-68 -/
noncomputable def lossInit (ext : TorchExt G) (c : LossClass) (sampler : Option Sampler) (xi : Option (Tensor ℝ))
    (xi_labels : Option (Tensor ℝ)) (sigma : Option ℝ) (g : G) : Except PyErr (Option Sampler × G) :=
  match sampler, xi with
  | none, some xi => defaultSampler ext c xi xi_labels (sigma.getD (1 / 10)) none g
  | s, _ => .ok (s, g)

/-! ## The sampler of a robust loss -/

/-- The attribute `_sampler` of the primal loss: deleted, `None`, or a sampler.  (The dual loss keeps a second attribute of that
name, which nothing reads.) -/
inductive Slot
  | deleted
  | unset
  | set (s : Sampler)

/-- `loss.sampler` (primal and dual), base_loss.py:118-123, _misc_dual_interfaces.py:401-403 -/
def Slot.read : Slot → Except PyErr Sampler
  | .deleted => .error .attributeError
  | .unset => .error .valueError
  | .set s => .ok s

/-- `loss.sampler = s`, base_loss.py:125-127, _misc_dual_interfaces.py:409-411 -/
def Slot.ofOption : Option Sampler → Slot
  | none => .unset
  | some s => .set s

/-- `init_sampler(xi, xi_labels, sigma, seed)`, _misc_dual_interfaces.py:173-229: the sampler built -/
noncomputable def initSampler (ext : TorchExt G) (cost : CostR) (hasLabels : Bool) (xi : Tensor ℝ)
    (xi_labels : Option (Tensor ℝ)) (sigma : ℝ) (seed : Option ℤ) (g : G) : Except PyErr (Sampler × G) :=
  match hasLabels, xi_labels with
  | true, some y => mkLabeledCost ext cost xi y (some sigma) seed g
  | false, none => mkNoLabelsCost ext cost xi (some sigma) seed g
  | _, _ => .error .assertionError

/-- number of samples of `generate_zetas(n_samples)`, _misc_dual_interfaces.py:353-357 -/
def zetaCount (default : ℕ) : Option ℤ → ℕ
  | none => default
  | some n => if n ≤ 0 then default else n.toNat

/-- `generate_zetas(n_samples)`, _misc_dual_interfaces.py:330-357 -/
noncomputable def generateZetas (ext : TorchExt G) (D : DualLoss) (slot : Slot) (n : Option ℤ) (g : G) :
    Except PyErr (Tensor ℝ × Option (Tensor ℝ) × G) := do
  let s ← slot.read
  .ok (s.sample ext (zetaCount D.nSamples n) g)

/-- what calls on a loss return -/
inductive LifeOut
  | unit
  | sampler (s : Sampler)
  | zetas (z : Tensor ℝ) (zl : Option (Tensor ℝ))
  | value (v : DualVal)

/-- calls on a post-sampled robust loss that involve its sampler.  The loss `D` of a forward pass is whatever it is at that time
(its parameters and multiplier are trained); its field `sampler` is not read, the slot is. -/
inductive LifeOp
  | read
  | assign (s : Option Sampler)
  | delete
  | init (cost : CostR) (hasLabels : Bool) (xi : Tensor ℝ) (xi_labels : Option (Tensor ℝ)) (sigma : ℝ) (seed : Option ℤ)
  | zetas (D : DualLoss) (n : Option ℤ)
  | forward (D : DualLoss) (xi : Tensor ℝ) (xi_labels : Option (Tensor ℝ)) (resetSampler : Bool)

/-- The forward pass, oracle_torch.py:246-311, as a transition of the slot.  The test `self.primal_loss.sampler is None`
(line 285) reads the property first, which raises when there is no sampler, so that the branch calling `init_sampler` is dead.
`reset_mean` works in place: the sampler stays re-centred when the rest of the evaluation raises. -/
noncomputable def lifeForward (ext : TorchExt G) (D : DualLoss) (xi : Tensor ℝ) (xi_labels : Option (Tensor ℝ))
    (resetSampler : Bool) (slot : Slot) (g : G) : Except PyErr LifeOut × Slot × G :=
  match slot.read with
  | .error e => (.error e, slot, g)
  | .ok s =>
    match (if resetSampler then s.resetMean ext xi xi_labels g else .ok (s, g)) with
    | .error e => (.error e, slot, g)
    | .ok (s, g) =>
      match postForward ext { D with sampler := some s } xi xi_labels false g with
      | .error e => (.error e, .set s, g)
      | .ok (v, _, g) => (.ok (.value v), .set s, g)

/-- one call: its outcome, the sampler slot and the generator afterwards.  Simplification: the generator state left by a call that
raises is the one before its samples were drawn. -/
noncomputable def LifeOp.run (ext : TorchExt G) (slot : Slot) (g : G) : LifeOp → Except PyErr LifeOut × Slot × G
  | .read => (slot.read.map .sampler, slot, g)
  | .assign s => (.ok .unit, .ofOption s, g)
  | .delete =>
      match slot with
      | .deleted => (.error .attributeError, .deleted, g)
      | _ => (.ok .unit, .deleted, g)
  | .init cost hl xi y sigma seed =>
      match initSampler ext cost hl xi y sigma seed g with
      | .error e => (.error e, slot, g)
      | .ok (s, g) => (.ok (.sampler s), .set s, g)
  | .zetas D n =>
      match generateZetas ext D slot n g with
      | .error e => (.error e, slot, g)
      | .ok (z, zl, g) => (.ok (.zetas z zl), slot, g)
  | .forward D xi y r => lifeForward ext D xi y r slot g

/-- a history of calls: the outcomes in order, and the final slot and generator -/
noncomputable def lifeRun (ext : TorchExt G) : List LifeOp → Slot → G → List (Except PyErr LifeOut) × Slot × G
  | [], slot, g => ([], slot, g)
  | op :: ops, slot, g =>
    let (o, slot, g) := op.run ext slot g
    let (os, slot, g) := lifeRun ext ops slot g
    (o :: os, slot, g)

/-! ## Optimizers -/

/-- trainable objects of a robust loss: the parameters of the model, the multiplier, the radius, the regularisation -/
inductive Trained
  | model | lam | rho | epsilon
deriving DecidableEq

/-- an optimizer as built by the constructors: its algorithm, initial learning rate, and what it may update -/
structure OptSetup where
  algo : OptChoice
  lr : ℝ
  params : List Trained
  /-- `T_max` of the cosine schedules of the model's parameters and of the multiplier -/
  schedules : Option (ℤ × ℤ) := none

/-- `parameters()` of the dual loss that an optimizer updates: those with `requires_grad`; radius and regularisation have it only
with `gradient_hypertuning` (_misc_dual_interfaces.py:100-104), the multiplier unless the radius is `<= 0`
(lines 111-113; a NaN radius keeps it) -/
noncomputable def trainedParams (rho : Radius) (hypertuning : Bool) : List Trained :=
  let flags := initFlags [] true rho hypertuning
  [.model] ++ (if flags.lam then [.lam] else []) ++ (if flags.rho then [.rho] else []) ++ (if flags.epsilon then [.epsilon] else [])

/-- the optimizer of a post-sampled loss, oracle_torch.py:17-55, 191-204.  `fl`: rounding of
floating-point products. -/
noncomputable def postSetup (fl : ℝ → ℝ) (adapt : Option PyStr) (learning_rate : Option ℝ) (n_iter : Steps) (rho : Radius) (hypertuning : Bool) : Except PyErr OptSetup := do
  let algo ← postOptimizer adapt
  match algo with
  | .composite name => do
      let schedules ← if name = "prodigy".toList then (do
          let (pre, tr) ← interpretSteps fl split03 n_iter
          .ok (some (pre + tr, tr))) else .ok none
      .ok { algo, lr := 1, params := (trainedParams rho hypertuning).filter (fun t => t = .model ∨ t = .lam), schedules }
  | _ => .ok { algo, lr := learning_rate.getD (5 / 100), params := trainedParams rho hypertuning }

/-- the optimizer of a pre-sampled loss, oracle_torch.py:417-438 -/
noncomputable def preSetup (adapt : Option PyStr) (learning_rate : Option ℝ) (rho : Radius) (hypertuning : Bool) :
    Except PyErr OptSetup := do
  let algo ← preOptimizer adapt
  .ok { algo, lr := learning_rate.getD 1, params := trainedParams rho hypertuning }

/-- the optimizer of a loss built by `robustify`, wrap_problem.py:213-230 (no hypertuning) -/
noncomputable def robustifySetup (fl : ℝ → ℝ) (post_sample : Bool) (adapt : Option PyStr) (learning_rate : Option ℝ)
    (n_iter : Steps) (rho : Radius) : Except PyErr OptSetup :=
  if post_sample then postSetup fl adapt learning_rate n_iter rho false
  else preSetup adapt learning_rate rho false

/-- `loss.optimizer`, _misc_dual_interfaces.py:300-315 -/
def readOptimizer {O : Type} (opti : Option O) : Except PyErr O :=
  match opti with
  | none => .error .attributeError
  | some o => .ok o

end Skwdro
