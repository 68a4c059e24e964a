import Verif.Spec.Descent

/-! What the backward pass gives for losses with kinks. -/

namespace Skwdro.Spec

/-- The robust loss of ordering `v 0` as a function of the order and of the multiplier, on samples `Z` of the demands `X`: radius `rho`, regularisation `eps`, cost per
unit `k`, price `u` -/
noncomputable def newsvendorObjective {m n : ℕ} (k u : ℝ) (c : CostR) (rho eps : ℝ) (X : Fin m → ℝ) (Z : Fin n → Fin m → ℝ) (v : Fin 1 → ℝ) (lam : ℝ) : ℝ :=
  robust lam rho c.power eps (fun j i => newsvendor k u (v 0) (Z j i)) (fun j i => |X i - Z j i| ^ c.power)

/-- `s` is a derivative of `min(theta, x)` in `theta`: one before the kink, zero after it, anything between at the kink (where PyTorch takes one half) -/
def MinSlope (theta x s : ℝ) : Prop := 0 ≤ s ∧ s ≤ 1 ∧ (theta < x → s = 1) ∧ (x < theta → s = 0)

/-- the derivative of the robust loss of the order by the chain rule, for some choice of the derivatives at the kinks -/
def NewsvendorSlope {m n : ℕ} (k u : ℝ) (c : CostR) (rho eps : ℝ) (X : Fin m → ℝ) (Z : Fin n → Fin m → ℝ) (v : Fin 1 → ℝ) (lam : ℝ) (g : Fin 1 → ℝ) (gl : ℝ) : Prop :=
  ∃ s : Fin n → Fin m → ℝ, (∀ j i, MinSlope (v 0) (Z j i) (s j i)) ∧
    g 0 = avg (fun i => ∑ j, tilt eps (fun j => newsvendor k u (v 0) (Z j i) - lam * |X i - Z j i| ^ c.power) j * (k - u * s j i)) ∧
    gl = rho ^ c.power - avg (fun i => ∑ j, tilt eps (fun j => newsvendor k u (v 0) (Z j i) - lam * |X i - Z j i| ^ c.power) j * |X i - Z j i| ^ c.power)

/-- The robust loss of placing a facility at `v` as a function of the place and of the multiplier, on samples `Z` with weights `W` of the locations `X` with
weights `y` -/
noncomputable def weberObjective {m n d : ℕ} (c : CostR) (rho eps : ℝ) (X : Fin m → Fin d → ℝ) (y : Fin m → ℝ) (Z : Fin n → Fin m → Fin d → ℝ)
    (W : Fin n → Fin m → ℝ) (v : Fin d → ℝ) (lam : ℝ) : ℝ :=
  robust lam rho c.power eps (fun j i => W j i * dist2 (Z j i) v) (fun j i => costAt c (X i) (Z j i) (fun (_ : Fin 1) => y i) (fun _ => W j i))

/-- the derivative of the robust loss of the facility by the chain rule, where that of the distance is taken to be zero at distance zero -/
def WeberSlope {m n d : ℕ} (c : CostR) (rho eps : ℝ) (X : Fin m → Fin d → ℝ) (y : Fin m → ℝ) (Z : Fin n → Fin m → Fin d → ℝ)
    (W : Fin n → Fin m → ℝ) (v : Fin d → ℝ) (lam : ℝ) (g : Fin d → ℝ) (gl : ℝ) : Prop :=
  (∀ k, g k = avg (fun i => ∑ j, tilt eps (fun j => W j i * dist2 (Z j i) v - lam * costAt c (X i) (Z j i) (fun (_ : Fin 1) => y i) (fun _ => W j i)) j *
    (W j i * (if dist2 (Z j i) v = 0 then 0 else (v k - Z j i k) / dist2 (Z j i) v)))) ∧
  gl = rho ^ c.power - avg (fun i => ∑ j, tilt eps (fun j => W j i * dist2 (Z j i) v - lam * costAt c (X i) (Z j i) (fun (_ : Fin 1) => y i) (fun _ => W j i)) j *
    costAt c (X i) (Z j i) (fun (_ : Fin 1) => y i) (fun _ => W j i))

/-- the same without labels (`DrawsAre`) -/
def DrawsAre0 {G : Type} {m n d : ℕ} (ext : TorchExt G) (s : Sampler) (next : G → G) (Z : G → Fin n → Fin m → Fin d → ℝ) : Prop :=
  ∀ gen, ∃ Zt, s.sample ext n (seedGlobal ext s.seed gen) = (Zt, none, next gen) ∧ IsTen Zt (Z gen)

end Skwdro.Spec
