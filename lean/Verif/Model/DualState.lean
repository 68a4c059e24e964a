import Verif.Model.InitialDual

/-!
# Mutable state of a dual loss outside its numbers

`/repo/skwdro/solvers/_dual_interfaces/_misc_dual_interfaces.py` (modes, freezing),
`/repo/skwdro/solvers/_dual_interfaces/_impsamp_interface.py` (side effects of the gradient computations),
`/repo/skwdro/solvers/oracle_torch.py` (stored samples).
-/

namespace Skwdro

/-! ## Modes -/

/-- the two mode flags of a dual loss: `erm_mode`, and torch's `training` -/
structure Modes where
  erm : Bool
  training : Bool
deriving DecidableEq

/-- calls changing the mode; `train none` is `loss.train()` -/
inductive ModeCall
  | eval
  | train (mode : Option Bool)

/-- `train(mode=False)`, _misc_dual_interfaces.py:295-297; `nn.Module.train(mode)` stores `training = mode` (external) -/
def trainMode (mode : Bool) (_ : Modes) : Modes := ⟨mode, mode⟩

/-- `eval()`, _misc_dual_interfaces.py:291-293: `erm_mode = True`, then `nn.Module.eval()`, which is `self.train(False)`
(external) and therefore dispatches to the overridden `train` above. -/
def evalMode (s : Modes) : Modes := trainMode false { s with erm := true }

/-- one mode call -/
def ModeCall.run (c : ModeCall) (s : Modes) : Modes :=
  match c with
  | .eval => evalMode s
  | .train m => trainMode (m.getD false) s

/-- flags after construction: `erm_mode = False` (_misc_dual_interfaces.py:126), `training = True` (torch) -/
def initModes : Modes := ⟨false, true⟩

/-! ## Gradient flags and train mode of the user's model -/

/-- `requires_grad` of the parameters of the primal loss, of the multiplier, of `rho` and of `epsilon`; `training` flag of
the primal loss module (simplification: a single flag for the module and all its children) -/
structure Flags where
  primal : List Bool
  lam : Bool
  rho : Bool
  epsilon : Bool
  training : Bool
deriving DecidableEq

/-- flags set by the constructor, _misc_dual_interfaces.py:92-113, given those of the user's model -/
noncomputable def initFlags (primal : List Bool) (training : Bool) (rho : Radius) (hypertuning : Bool) : Flags where
  primal := primal
  lam := match rho with
    | .num r => !decide (r ≤ 0)
    | .nan => true
  rho := hypertuning
  epsilon := hypertuning
  training := training

/-- `freeze(rg, include_hyper)`, _misc_dual_interfaces.py:273-289 -/
def freeze (rg include_hyper : Bool) (s : Flags) : Flags :=
  let s := { s with primal := s.primal.map (fun _ => rg), lam := rg }
  if include_hyper then { s with rho := rg, epsilon := rg } else s

/-- effect on the flags of `get_displacement_direction`, _impsamp_interface.py:167-205: `freeze()`, then
`compute_functional_grads` (`model.eval()` ... `model.train()`, lines 110-158), then `freeze(rg=True)`.  `ok = false` when
differentiating the user's loss raises. -/
def displacementDirectionFlags (ok : Bool) (s : Flags) : Flags :=
  let s := freeze false false s
  let s := { s with training := false }
  if ok then
    let s := { s with training := true }
    freeze true false s
  else s

/-- whether `compute_dual` reaches `displace_samples`: the branches of dual_loss.py:43-64 -/
noncomputable def reachesDisplacement (D : DualLoss) : Bool :=
  match D.rho with
  | .nan => false
  | .num rho => !(decide (rho = 0) || D.ermMode) && decide (0 < rho) && D.impSamp

/-- whether `get_initial_guess_at_dual` computes gradients, dual_loss.py:148-158 -/
noncomputable def initNeedsGrads (D : DualLoss) : Bool :=
  match D.rho with
  | .nan => false
  | .num rho => decide (0 < rho)

/-- calls that may differentiate the user's loss with respect to its inputs; `ok` as above -/
inductive GradCall
  /-- evaluation of the robust loss up to and including `compute_dual` -/
  | evaluate (D : DualLoss) (ok : Bool)
  /-- `get_initial_guess_at_dual` -/
  | initDual (D : DualLoss) (ok : Bool)

/-- effect of such a call on the flags -/
noncomputable def GradCall.run (c : GradCall) (s : Flags) : Flags :=
  match c with
  | .evaluate D ok => if reachesDisplacement D then displacementDirectionFlags ok s else s
  | .initDual D ok => if initNeedsGrads D then displacementDirectionFlags ok s else s

/-! ## Histories of evaluations of a pre-sampled loss -/

/-- one call of a pre-sampled loss.  The loss object may change between calls (its parameters and multiplier are trained). -/
structure PreCall where
  loss : DualLoss
  xi : Tensor ℝ
  xi_labels : Option (Tensor ℝ)
  zeta : Option (Tensor ℝ)
  zeta_labels : Option (Tensor ℝ)

/-- stored samples after a history of calls (`zeta = zeta_labels = None` at construction, oracle_torch.py:440-441) -/
noncomputable def cacheAfter {G : Type} (ext : TorchExt G) (h : List PreCall) : Cache :=
  h.foldl (fun c k => (preForward ext k.loss c k.xi k.xi_labels k.zeta k.zeta_labels).1) none

end Skwdro
