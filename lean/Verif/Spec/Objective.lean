import Verif.Spec.ImpSamp
import Verif.Spec.BuiltinLosses
import Verif.Spec.Dual

/-! The objective minimised by the estimators: pointwise losses, displaced samples. -/

namespace Skwdro.Spec

/-- A loss with labels evaluated point by point: on samples `(n,m,d)` with labels `(n,m,k)` it gives one number per sample, a function
`ell` of that sample and of its label. -/
def PointLoss {d k : ℕ} (primal : Tensor ℝ → Option (Tensor ℝ) → Except PyErr (Tensor ℝ)) (ell : (Fin d → ℝ) → (Fin k → ℝ) → ℝ) : Prop :=
  ∀ ⦃n m : ℕ⦄ ⦃z w : Tensor ℝ⦄ ⦃Z : Fin n → Fin m → Fin d → ℝ⦄ ⦃W : Fin n → Fin m → Fin k → ℝ⦄, IsTen z Z → IsTen w W →
    Returns (primal z (some w)) (fun t => IsTen t (fun j i (_ : Fin 1) => ell (Z j i) (W j i)))

/-- the same without labels -/
def PointLoss0 {d : ℕ} (primal : Tensor ℝ → Option (Tensor ℝ) → Except PyErr (Tensor ℝ)) (ell : (Fin d → ℝ) → ℝ) : Prop :=
  ∀ ⦃n m : ℕ⦄ ⦃z : Tensor ℝ⦄ ⦃Z : Fin n → Fin m → Fin d → ℝ⦄, IsTen z Z →
    Returns (primal z none) (fun t => IsTen t (fun j i (_ : Fin 1) => ell (Z j i)))

/-- cross entropy of a vector of scores against class probabilities: minus the average log-probability of the soft-max of the scores -/
noncomputable def crossEnt {K : ℕ} (y s : Fin K → ℝ) : ℝ := -∑ c, y c * Real.log (Real.exp (s c) / ∑ c', Real.exp (s c'))

/-- samples moved by a displacement `v` of the data they belong to, when importance sampling is on -/
def displaced {n m d : ℕ} (imp : Bool) (v : Fin m → Fin d → ℝ) (Z : Fin n → Fin m → Fin d → ℝ) (j : Fin n) (i : Fin m) (k : Fin d) : ℝ :=
  Z j i k + if imp then v i k else 0

/-- `robust` with a weight `q` on each sample -/
noncomputable def robustW {n m : ℕ} (lam rho p eps : ℝ) (q L C : Fin n → Fin m → ℝ) : ℝ :=
  lam * rho ^ p + avg (fun i => eps * Real.log (avg (fun j => q j i * Real.exp ((L j i - lam * C j i) / eps))))

/-- Value of the robust loss `D` of a labelled problem, at the multiplier `lam`, in the generator state `g`.  `Z`, `W` are the noisy samples and
labels drawn by the sampler of `D`, `gx`, `gy` the gradients of the loss at the data.  Both ways of evaluating the loss, on these samples or
by drawing them (in a generator state `g'` that the seed of the sampler, if it has one, changes to `g`), return the robust loss of `ell` on the samples, displaced along the gradients if importance sampling is on. -/
def LabelledObjective {G : Type} {m d k : ℕ} (ext : TorchExt G) (D : DualLoss) (lam rho : ℝ) (x y : Tensor ℝ) (X : Fin m → Fin d → ℝ)
    (Y : Fin m → Fin k → ℝ) (g : G) (ell : (Fin d → ℝ) → (Fin k → ℝ) → ℝ) : Prop :=
  ∃ (s : Sampler) (Z : Fin D.nSamples → Fin m → Fin d → ℝ) (W : Fin D.nSamples → Fin m → Fin k → ℝ) (w tg tgl : Tensor ℝ)
    (gx : Fin m → Fin d → ℝ) (gy : Fin m → Fin k → ℝ) (v : Tensor ℝ),
    D.sampler = some s ∧ IsTen (s.sample ext D.nSamples g).1 Z ∧ (s.sample ext D.nSamples g).2.1 = some w ∧ IsTen w W ∧
    D.grads x.unsqueeze0 (some y.unsqueeze0) = (tg, some tgl) ∧ IsTen tg (fun (_ : Fin 1) => gx) ∧ IsTen tgl (fun (_ : Fin 1) => gy) ∧
    computeDual ext { D with lam := lam } x (some y) (s.sample ext D.nSamples g).1 (some w) = .ok (.val v) ∧
    (∀ g', seedGlobal ext s.seed g' = g → postForward ext { D with lam := lam } x (some y) true g' = .ok (.val v, { D with lam := lam }, (s.sample ext D.nSamples g).2.2)) ∧
    IsScalar v (
      let Z' := displaced D.impSamp (moved (Regular lam gx ∧ Regular lam gy) lam gx) Z
      let W' := displaced D.impSamp (movedLabel D.cost (Regular lam gx ∧ Regular lam gy) lam gy) W
      robust lam rho D.cost.power D.epsilon (fun j i => ell (Z' j i) (W' j i)) (fun j i => costAt D.cost (X i) (Z' j i) (Y i) (W' j i)))

/-- The same without labels: importance sampling also weights each displaced sample by the ratio of its density under the noise law of the
data to its density under the displaced law. -/
def UnlabelledObjective {G : Type} {m d : ℕ} (ext : TorchExt G) (D : DualLoss) (lam rho : ℝ) (x : Tensor ℝ) (X : Fin m → Fin d → ℝ)
    (g : G) (ell : (Fin d → ℝ) → ℝ) : Prop :=
  ∃ (s : Sampler) (Z : Fin D.nSamples → Fin m → Fin d → ℝ) (tg : Tensor ℝ) (gx : Fin m → Fin d → ℝ) (v : Tensor ℝ),
    D.sampler = some s ∧ IsTen (s.sample ext D.nSamples g).1 Z ∧ (s.sample ext D.nSamples g).2.1 = none ∧
    D.grads x.unsqueeze0 none = (tg, none) ∧ IsTen tg (fun (_ : Fin 1) => gx) ∧
    computeDual ext { D with lam := lam } x none (s.sample ext D.nSamples g).1 none = .ok (.val v) ∧
    (∀ g', seedGlobal ext s.seed g' = g → postForward ext { D with lam := lam } x none true g' = .ok (.val v, { D with lam := lam }, (s.sample ext D.nSamples g).2.2)) ∧
    IsScalar v (
      let V := moved (Regular lam gx) lam gx
      let Z' := displaced D.impSamp V Z
      robustW lam rho D.cost.power D.epsilon
        (fun j i => if D.impSamp then densityAt ext s.data_s (X i) (Z' j i) / densityAt ext s.data_s (fun q => X i q + V i q) (Z' j i) else 1)
        (fun j i => ell (Z' j i)) (fun j i => pnorm D.cost.p (fun q => X i q - Z' j i q) ^ D.cost.power))

end Skwdro.Spec
