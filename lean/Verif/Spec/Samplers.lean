import Verif.Model.Samplers

/-! Reference notions about samplers: the noise law, the centre, and histories of resets. -/

namespace Skwdro.Spec

/-- A centred noise law (`scale`: standard deviation or Laplace scale, `tril`: factor `L` of a covariance `L Lᵀ`). -/
inductive Noise
  | laplace (scale : XNum ℝ)
  | normal (scale : XNum ℝ)
  | gaussian (tril : Tensor ℝ)
  | flip (keep : ℝ)
  | none

/-- the noise law of a distribution -/
def noiseOf {G : Type} (ext : TorchExt G) : Dist → Noise
  | .laplace _ s => .laplace s
  | .normal _ s => .normal s
  | .mvn _ c => .gaussian (ext.tril c)
  | .flip p _ => .flip p
  | .dirac _ _ => .none

/-- the points at which a distribution is centred (for label flips: the labels being flipped) -/
def centreOf : Dist → Tensor ℝ
  | .laplace l _ => l
  | .normal l _ => l
  | .mvn l _ => l
  | .dirac l _ => l
  | .flip _ y => y

/-- `s` is returned by one of the six sampler constructors -/
def Built {G : Type} (ext : TorchExt G) (s : Sampler) : Prop :=
  ∃ (g g' : G) (xi y : Tensor ℝ) (seed : Option ℤ) (cost : CostR) (p : ℝ) (sigma sigma' : Option ℝ)
    (tril prec cov tril' prec' cov' : Option (Tensor ℝ)),
    mkNoLabelsCost ext cost xi sigma seed g = .ok (s, g') ∨
    mkLabeledCost ext cost xi y sigma seed g = .ok (s, g') ∨
    mkNormalNoLabels ext xi sigma tril prec cov seed g = .ok (s, g') ∨
    mkNormalNormal ext xi y sigma tril prec cov sigma' tril' prec' cov' seed g = .ok (s, g') ∨
    mkNormalId ext xi y sigma tril prec cov seed g = .ok (s, g') ∨
    mkNormalBernoulli ext p xi y sigma tril prec cov seed g = .ok (s, g')

/-- `s` is obtained from `s₀` by any number of successful `reset_mean` calls, from any generator states -/
inductive Resets {G : Type} (ext : TorchExt G) (s₀ : Sampler) : Sampler → Prop
  | start : Resets ext s₀ s₀
  | reset {s s' : Sampler} {xi : Tensor ℝ} {y : Option (Tensor ℝ)} {g g' : G} (h : Resets ext s₀ s)
      (r : s.resetMean ext xi y g = .ok (s', g')) : Resets ext s₀ s'

/-- which covariance is used among the given options: the first given one in the order sigma, tril, cov, prec -/
def firstGiven {G : Type} (ext : TorchExt G) (d : ℕ) (sigma : Option ℝ) (tril cov prec : Option (Tensor ℝ)) :
    Option (Tensor ℝ) :=
  (sigma.map (fun s => eyeTimes d s)).or (tril.or ((cov.map ext.cholesky).or (prec.map ext.precisionToTril)))

/-- the covariance used is a valid one: a positive deviation, a lower triangular factor with positive diagonal, a matrix torch
recognises as positive definite -/
def FirstValid {G : Type} (ext : TorchExt G) (d : ℕ) (sigma : Option ℝ) (tril cov prec : Option (Tensor ℝ)) : Prop :=
  match sigma, tril, cov, prec with
  | some s, _, _, _ => d = 0 ∨ 0 < s
  | none, some l, _, _ => LowerCholesky l
  | none, none, some c, _ => c.dim = 2 ∧ ext.posDef c = true
  | none, none, none, some q => q.dim = 2 ∧ ext.posDef q = true
  | none, none, none, none => False

/-- torch's contract for the factorisations: the factor of a positive definite matrix is lower triangular with positive diagonal -/
def FactorContract {G : Type} (ext : TorchExt G) : Prop :=
  ∀ m : Tensor ℝ, m.dim = 2 → ext.posDef m = true → LowerCholesky (ext.cholesky m) ∧ LowerCholesky (ext.precisionToTril m)

end Skwdro.Spec
