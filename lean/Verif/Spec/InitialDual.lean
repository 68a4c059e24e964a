import Verif.Model.InitialDual
import Verif.Spec.ImpSamp

/-! The linearised robust problem whose minimiser the initial multiplier is meant to be. -/

namespace Skwdro.Spec

/-- `v` is the largest linearised gain `<g, δ> - lam * |δ|^p` over all displacements `δ` -/
def WorstGain {d : ℕ} (lam p : ℝ) (g : Fin d → ℝ) (v : ℝ) : Prop :=
  IsLUB {x | ∃ δ : Fin d → ℝ, x = ∑ k, g k * δ k - lam * norm2 δ ^ p} v

/-- An initialisation with Euclidean input cost: `m` data points, `g` the gradients of the loss at the data. -/
structure InitSetting {m d : ℕ} (D : DualLoss) (xi : Tensor ℝ) (xl : Option (Tensor ℝ)) (rho : ℝ) (g : Fin m → Fin d → ℝ) :
    Prop where
  m_pos : 0 < m
  rho_eq : D.rho = .num rho
  rho_pos : 0 < rho
  kind : D.cost.kind = .normCost
  order : D.cost.p = .fin 2
  data : xi.size0 = m
  grads : ∃ tg tgl, D.grads xi.unsqueeze0 (maybeUnsqueeze xl) = (tg, tgl) ∧ IsTen tg (fun (_ : Fin 1) => g)

end Skwdro.Spec
