import Verif.Model.Dual

/-!
# Initial value of the dual multiplier: `/repo/skwdro/solvers/_dual_interfaces/dual_loss.py`
-/

namespace Skwdro

/-- `torch.zeros_like` -/
def zerosLike (t : Tensor ℝ) : Tensor ℝ := t.map (fun _ => 0)

/-- `lam0`, dual_loss.py:151-171, from the gradient norms.  For `p = 1` the exponent is infinite: whatever the sum of
`x.pow(inf)` is, `.pow(1/inf) = .pow(0)` is one.  Simplification: for `p = 0`, where torch gives NaN, this is `0`. -/
noncomputable def lam0 (p rhoN : ℝ) (norms : Tensor ℝ) : ℝ :=
  if p = 1 then 1 / (p * rhoN)
  else
    let q := p / (p - 1)
    ((norms.map (fun x => (x * rhoN) ^ (q - 1))).sum.get []) ^ (1 / q) / (p * rhoN)

/-- `get_initial_guess_at_dual`, dual_loss.py:143-178, returning the updated loss.  Both cost classes of the library derive
from `NormCost`, so the bare `raise` is unreachable.  A NaN radius is not `> 0`. -/
noncomputable def initialGuess (D : DualLoss) (xi : Tensor ℝ) (xi_labels : Option (Tensor ℝ)) : Except PyErr DualLoss :=
  match D.rho with
  | .nan => .ok { D with lam := 0 }
  | .num rho =>
      if 0 < rho then do
        let (g, gl) := D.grads xi.unsqueeze0 (maybeUnsqueeze xi_labels)
        let norms ← D.cost.value g (zerosLike g) gl (gl.map zerosLike)
        .ok { D with lam := lam0 D.cost.power (xi.size0 * rho ^ D.cost.power) norms }
      else .ok { D with lam := 0 }

end Skwdro
