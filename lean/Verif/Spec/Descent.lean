import Verif.Spec.Fit
import Verif.Spec.Dual
import Verif.Spec.BuiltinLosses
import Mathlib.Analysis.Calculus.Deriv.Basic

/-! Gradients, smooth convex functions and distances, for functions of `N` parameters and of the multiplier. -/

namespace Skwdro.Spec

/-- the multiplier `x` after a step: set to zero if it is negative and `clip` asks for it -/
noncomputable def clipped (clip : Bool) (x : ℝ) : ℝ := if clip then max 0 x else x

/-- squared Euclidean distance between two settings of the parameters and of the multiplier -/
def gap2 {N : ℕ} (v : Fin N → ℝ) (l : ℝ) (v' : Fin N → ℝ) (l' : ℝ) : ℝ := ∑ k, (v k - v' k) ^ 2 + (l - l') ^ 2

/-- `(g, gl)` is the gradient of `f` at `(v, l)`: it gives the derivative of `f` along every line through this point -/
def IsGradAt {N : ℕ} (f : (Fin N → ℝ) → ℝ → ℝ) (v : Fin N → ℝ) (l : ℝ) (g : Fin N → ℝ) (gl : ℝ) : Prop :=
  ∀ (h : Fin N → ℝ) (hl : ℝ), HasDerivAt (fun t : ℝ => f (fun k => v k + t * h k) (l + t * hl)) (∑ k, g k * h k + gl * hl) 0

/-- `f` is convex with curvature at most `beta`: everywhere it lies above a plane touching it, and above this plane by at most `beta / 2` times the
squared distance -/
def SmoothConvex {N : ℕ} (f : (Fin N → ℝ) → ℝ → ℝ) (beta : ℝ) : Prop :=
  ∀ v l, ∃ (g : Fin N → ℝ) (gl : ℝ), ∀ v' l', f v l + (∑ k, g k * (v' k - v k) + gl * (l' - l)) ≤ f v' l' ∧
    f v' l' ≤ f v l + (∑ k, g k * (v' k - v k) + gl * (l' - l)) + beta / 2 * gap2 v' l' v l

/-- the same for a function of the parameters only, whose planes have a slope at most `ell` -/
def SmoothLoss {N : ℕ} (A : (Fin N → ℝ) → ℝ) (beta ell : ℝ) : Prop :=
  ∀ v, ∃ a : Fin N → ℝ, ∑ k, a k ^ 2 ≤ ell ^ 2 ∧ ∀ v', A v + ∑ k, a k * (v' k - v k) ≤ A v' ∧
    A v' ≤ A v + ∑ k, a k * (v' k - v k) + beta / 2 * ∑ k, (v' k - v k) ^ 2

/-- the loss of a setting of the parameters and of the multiplier is `f` -/
def LossIs {G : Type} {d N : ℕ} (ext : TorchExt G) (args : Module d → DualizeArgs) (D : DualLoss) (M0 : Module d) (Z : Tensor ℝ × Option (Tensor ℝ))
    (f : (Fin N → ℝ) → ℝ → ℝ) : Prop :=
  ∀ v l, ReturnsVal (computeDual ext (lossFor args D M0 false (⟨List.ofFn v, l, none, none, ()⟩ : OptView Unit)) (args M0).xi (args M0).xi_labels Z.1 Z.2)
    (fun t => IsScalar t (f v l))

/-- the backward pass gives the gradient of `f` -/
def BackIs {G : Type} {d N : ℕ} (args : Module d → DualizeArgs) (D : DualLoss) (M0 : Module d) (gen : G) (Z : Tensor ℝ × Option (Tensor ℝ))
    (back : Tape G → List ℝ × ℝ) (f : (Fin N → ℝ) → ℝ → ℝ) : Prop :=
  ∀ v l, ∃ g gl, back ⟨lossFor args D M0 false (⟨List.ofFn v, l, none, none, ()⟩ : OptView Unit), gen, some Z⟩ = (List.ofFn g, gl) ∧ IsGradAt f v l g gl

/-- What a training by gradient descent (keeping the multiplier non-negative if `clip`) that started its robust phase at the parameters `v0` and the multiplier
`l0` guarantees.  It reports the loss `x` at the returned parameters `w` and multiplier, and `x` is at most the loss at the start.  Whatever the parameters `q`
and the (non-negative if `clip`) multiplier `lq`, `x` exceeds `f q lq` by at most the squared distance of the start to `(q, lq)`, less that of the end, over
`2 lr k`.  `k` is the number of robust iterations: all of the `n` planned, unless the optimality condition stopped the training. -/
def ReachesOptimum {d N : ℕ} (cfg : OCConfig) (clip : Bool) (lr : ℝ) (f : (Fin N → ℝ) → ℝ → ℝ) (n : ℕ) (v0 : Fin N → ℝ) (l0 : ℝ) (M0 M : Module d)
    (r : Solved (List ℝ)) : Prop :=
  ∃ w k x, r.coef = List.ofFn w ∧ M = M0.withParams r.coef ∧ r.robust_loss = .fin x ∧ x = f w r.dual_var ∧ (clip = true → 0 ≤ r.dual_var) ∧ 1 ≤ k ∧ k ≤ n ∧
    (k < n → ∃ m m' pg lg, ocCall cfg m ⟨0, fun _ => r.dual_var, lg, [(r.coef, pg)], n⟩ ((k - 1 : ℕ) : ℤ) = (.ok true, m')) ∧
    ((clip = true → 0 ≤ l0) → x ≤ f v0 l0) ∧
    ∀ q lq, (clip = true → 0 ≤ lq) → x + gap2 w r.dual_var q lq / (2 * lr * k) ≤ f q lq + gap2 v0 l0 q lq / (2 * lr * k)

/-- What a training by gradient descent that reports the loss before its last step guarantees: as `ReachesOptimum` for the loss `f w r.dual_var` at the returned
parameters and multiplier.  The loss `x` reported is at most the one at the start and at least the one at the end, and exceeds `f q lq` by at most the squared
distance of the start to `(q, lq)` over `2 lr (k - 1)`. -/
def NearsOptimum {d N : ℕ} (cfg : OCConfig) (clip : Bool) (lr : ℝ) (f : (Fin N → ℝ) → ℝ → ℝ) (n : ℕ) (v0 : Fin N → ℝ) (l0 : ℝ) (M0 M : Module d)
    (r : Solved (List ℝ)) : Prop :=
  ∃ w k x, r.coef = List.ofFn w ∧ M = M0.withParams r.coef ∧ r.robust_loss = .fin x ∧ (clip = true → 0 ≤ r.dual_var) ∧ 1 ≤ k ∧ k ≤ n ∧
    (k < n → ∃ m m' pg lg, ocCall cfg m ⟨0, fun _ => r.dual_var, lg, [(r.coef, pg)], n⟩ ((k - 1 : ℕ) : ℤ) = (.ok true, m')) ∧
    ((clip = true → 0 ≤ l0) → f w r.dual_var ≤ x ∧ x ≤ f v0 l0) ∧
    (∀ q lq, (clip = true → 0 ≤ lq) → f w r.dual_var + gap2 w r.dual_var q lq / (2 * lr * k) ≤ f q lq + gap2 v0 l0 q lq / (2 * lr * k)) ∧
    (1 < k → ∀ q lq, (clip = true → 0 ≤ lq) → x ≤ f q lq + gap2 v0 l0 q lq / (2 * lr * (k - 1)))

/-- everywhere, `f` lies above a plane touching it -/
def PlanesBelow {N : ℕ} (f : (Fin N → ℝ) → ℝ → ℝ) : Prop :=
  ∀ v l, ∃ (g : Fin N → ℝ) (gl : ℝ), ∀ v' l', f v l + (∑ k, g k * (v' k - v k) + gl * (l' - l)) ≤ f v' l'

/-- `(g, gl)` is a subgradient of `f` at `(v, l)`: the plane with this slope that touches `f` there lies below `f` -/
def IsSubgradAt {N : ℕ} (f : (Fin N → ℝ) → ℝ → ℝ) (v : Fin N → ℝ) (l : ℝ) (g : Fin N → ℝ) (gl : ℝ) : Prop :=
  ∀ v' l', f v l + (∑ k, g k * (v' k - v k) + gl * (l' - l)) ≤ f v' l'

/-- the slopes `S` (gradients, subgradients, …) have a length at most `L` -/
def SlopeAtMost {N : ℕ} (S : (Fin N → ℝ) → ℝ → (Fin N → ℝ) → ℝ → Prop) (L : ℝ) : Prop := ∀ v l g gl, S v l g gl → ∑ k, g k ^ 2 + gl ^ 2 ≤ L ^ 2

/-- with the generator in state `gen`, the post-sampled loss of a setting of the parameters and of the multiplier is `F gen`, and leaves the generator in
state `next gen` -/
def PostLossIs {G : Type} {d N : ℕ} (ext : TorchExt G) (args : Module d → DualizeArgs) (D : DualLoss) (M0 : Module d) (next : G → G)
    (F : G → (Fin N → ℝ) → ℝ → ℝ) : Prop :=
  ∀ gen v l, ∃ t D', postForward ext (lossFor args D M0 false (⟨List.ofFn v, l, none, none, ()⟩ : OptView Unit)) (args M0).xi (args M0).xi_labels true gen =
    .ok (.val t, D', next gen) ∧ IsScalar t (F gen v l)

/-- the backward pass gives one of the slopes `S gen` (say, the gradient) after an evaluation started with the generator in state `gen`, which a sampler
with a seed re-seeds first -/
def PostBackIs {G : Type} {d N : ℕ} (ext : TorchExt G) (args : Module d → DualizeArgs) (D : DualLoss) (M0 : Module d) (back : Tape G → List ℝ × ℝ)
    (S : G → (Fin N → ℝ) → ℝ → (Fin N → ℝ) → ℝ → Prop) : Prop :=
  ∀ gen v l, ∃ g gl, back ⟨lossFor args D M0 false (⟨List.ofFn v, l, none, none, ()⟩ : OptView Unit), D.seeded ext gen, none⟩ = (List.ofFn g, gl) ∧ S gen v l g gl

/-- `K` steps of gradient descent with step size `lr` (keeping the multiplier non-negative if `clip`), the `k`-th one along one of the slopes `S (gens k)` at the
parameters `v k` and the multiplier `l k` -/
structure OnlineDescent {G : Type} {N : ℕ} (clip : Bool) (lr : ℝ) (S : G → (Fin N → ℝ) → ℝ → (Fin N → ℝ) → ℝ → Prop) (next : G → G) (K : ℕ) (v : ℕ → Fin N → ℝ) (l : ℕ → ℝ)
    (gens : ℕ → G) : Prop where
  draws : ∀ k < K, gens (k + 1) = next (gens k)
  moves : ∀ k < K, ∃ g gl, S (gens k) (v k) (l k) g gl ∧ v (k + 1) = (fun j => v k j - lr * g j) ∧ l (k + 1) = clipped clip (l k - lr * gl)

/-- What a post-sampled training by gradient descent guarantees that started its robust phase at the parameters `v0`, the multiplier `l0` and the state
`g0` of the generator.  It makes `K` steps along slopes `S` of the losses `F`, all of the `n` planned unless the optimality condition stopped the training, and returns the last parameters and
multiplier; it reports the loss met at the last step.  Whatever the parameters `q` and the (non-negative if `clip`) multiplier `lq`, the average of the losses met is at most the average of
the losses of `(q, lq)` on the same draws, plus the squared distance of the start to `(q, lq)` over `2 lr K`, plus `lr / 2` times the average of the squares of the
slopes of the losses. -/
def SmallRegret {G : Type} {d N : ℕ} (cfg : OCConfig) (clip : Bool) (lr : ℝ) (S : G → (Fin N → ℝ) → ℝ → (Fin N → ℝ) → ℝ → Prop)
    (F : G → (Fin N → ℝ) → ℝ → ℝ) (L : G → ℝ) (next : G → G) (n : ℕ) (v0 : Fin N → ℝ) (l0 : ℝ) (g0 : G)
    (M0 M : Module d) (r : Solved (List ℝ)) : Prop :=
  ∃ K v l gens, 1 ≤ K ∧ K ≤ n ∧ v 0 = v0 ∧ l 0 = l0 ∧ gens 0 = g0 ∧ OnlineDescent clip lr S next K v l gens ∧
    r.coef = List.ofFn (v K) ∧ r.dual_var = l K ∧ M = M0.withParams r.coef ∧ r.robust_loss = .fin (F (gens (K - 1)) (v (K - 1)) (l (K - 1))) ∧
    (K < n → ∃ m m' pg lg, ocCall cfg m ⟨0, fun _ => r.dual_var, lg, [(r.coef, pg)], n⟩ ((K - 1 : ℕ) : ℤ) = (.ok true, m')) ∧
    (clip = true → 0 ≤ r.dual_var) ∧ ∀ q lq, (clip = true → 0 ≤ lq) → (∑ k ∈ Finset.range K, F (gens k) (v k) (l k)) / K ≤
      (∑ k ∈ Finset.range K, F (gens k) q lq) / K + gap2 v0 l0 q lq / (2 * lr * K) + lr / 2 * ((∑ k ∈ Finset.range K, L (gens k) ^ 2) / K)

/-- The robust logistic loss as a function of the parameters and of the multiplier, on samples `Z` with labels `W` of data `X` with labels `y`: radius
`rho`, regularisation `eps`, penalty `r2`, for a linear layer with the bias of `l0` -/
noncomputable def logisticObjective {m n d N : ℕ} (l0 : LinMap d 1) (c : CostR) (rho eps r2 : ℝ) (X : Fin m → Fin d → ℝ) (y : Fin m → ℝ)
    (Z : Fin n → Fin m → Fin d → ℝ) (W : Fin n → Fin m → ℝ) (v : Fin N → ℝ) (lam : ℝ) : ℝ :=
  lam * rho ^ c.power + (∑ i, eps * Real.log ((∑ j, Real.exp ((logloss (W j i) ((l0.withParams (List.ofFn v)).out (Z j i) 0) +
    ridge (some r2) (List.ofFn v) - lam * costAt c (X i) (Z j i) (fun (_ : Fin 1) => y i) (fun _ => W j i)) / eps)) / n)) / m

/-- an evaluation of a post-sampled loss with labelled sampler `s`, which starts in the state `gen` of the generator and leaves it in the state `next gen`, draws
the samples `Z gen` with labels `W gen`; if the sampler has a seed, the generator is re-seeded first -/
def DrawsAre {G : Type} {m n d : ℕ} (ext : TorchExt G) (s : Sampler) (next : G → G) (Z : G → Fin n → Fin m → Fin d → ℝ) (W : G → Fin n → Fin m → ℝ) : Prop :=
  ∀ gen, ∃ Zt Wt, s.sample ext n (seedGlobal ext s.seed gen) = (Zt, some Wt, next gen) ∧ IsTen Zt (Z gen) ∧ IsTen Wt fun j i (_ : Fin 1) => W gen j i

end Skwdro.Spec
