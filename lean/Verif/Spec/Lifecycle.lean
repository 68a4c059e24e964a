import Verif.Model.Lifecycle
import Verif.Spec.Samplers

/-! Reference notions about the life cycle of the sampler of a robust loss. -/

namespace Skwdro.Spec

/-- calls that need a sampler and do not provide one -/
def Uses : LifeOp → Prop
  | .read => True
  | .zetas _ _ => True
  | .forward _ _ _ _ => True
  | _ => False

/-- same noise (inputs and labels) and seed: at most the centres differ -/
def SameNoise {G : Type} (ext : TorchExt G) (s s' : Sampler) : Prop :=
  noiseOf ext s'.data_s = noiseOf ext s.data_s ∧ s'.labels_s.map (noiseOf ext) = s.labels_s.map (noiseOf ext) ∧ s'.seed = s.seed

/-- the sampler is centred on the batch -/
def CentredAt (s : Sampler) (xi : Tensor ℝ) (y : Option (Tensor ℝ)) : Prop :=
  centreOf s.data_s = xi ∧ ∀ l, s.labels_s = some l → y = some (centreOf l)

/-- `t` holds `n` copies of the matrix `X`, each entry displaced by `σ` times the given noise -/
def Displaced {m d : ℕ} (t : Tensor ℝ) (n : ℕ) (X : Fin m → Fin d → ℝ) (σ : ℝ) (noise : Tensor ℝ) : Prop :=
  t.shape = [n, m, d] ∧ ∀ (j : Fin n) (i : Fin m) (k : Fin d), t.get [j, i, k] = X i k + σ * noise.get [j, i, k]

end Skwdro.Spec
