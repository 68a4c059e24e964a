import Verif.Model.Costs
import Verif.Spec.Tensors
import Mathlib.Analysis.MeanInequalities
import Mathlib.Analysis.MeanInequalitiesPow

/-! The p-norms of finite real vectors, and reference ground costs. -/

namespace Skwdro.Spec

/-- `‖v‖_p`: `(∑ |v i|^p)^(1/p)` for finite `p`, the largest `|v i|` for `p = ∞`. -/
noncomputable def pnorm {d : ℕ} (p : XNum ℝ) (v : Fin d → ℝ) : ℝ :=
  match p with
  | .fin q => (∑ i, |v i| ^ q) ^ (1 / q)
  | .pinf => ⨆ i, |v i|
  | _ => 0

/-- norm orders for which `‖·‖_p` is a norm -/
def NormOrder (p : XNum ℝ) : Prop := (∃ q : ℝ, 1 ≤ q ∧ p = .fin q) ∨ p = .pinf

/-- the number returned by `cost(x, z, y, y')` on single points (`0` if the call failed; see `C04_formula`,
`C05_formula` for the fact that it does not) -/
noncomputable def costAt {d k : ℕ} (c : CostR) (x z : Fin d → ℝ) (y y' : Fin k → ℝ) : ℝ :=
  match c.value (vec x) (vec z) (some (vec y)) (some (vec y')) with
  | .ok t => t.get [0]
  | .error _ => 0

end Skwdro.Spec
