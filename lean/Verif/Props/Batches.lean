import Verif.Props.Dual
import Verif.Props.ImpSamp
import Mathlib.Algebra.BigOperators.Fin

/-!
# C108: evaluating the robust loss in minibatches

`e` deals `m` data points to `b` batches of sizes `s t`, in any order: `e ⟨t, i⟩` is the point at place `i` of batch `t`.
-/

namespace Skwdro
open Spec Tensor

variable {G : Type} (ext : TorchExt G)
variable {b n m d k r : ℕ} {s : Fin b → ℕ} (e : (t : Fin b) × Fin (s t) ≃ Fin m)

/-- the average over all the points is the average of the averages over the batches, weighted by their sizes -/
theorem avg_batches (hs : ∀ t, 0 < s t) (f : Fin m → ℝ) :
    avg f = (∑ t, s t * avg (fun i => f (e ⟨t, i⟩))) / m := by
  have h : ∀ t, (s t : ℝ) * avg (fun i => f (e ⟨t, i⟩)) = ∑ i, f (e ⟨t, i⟩) := fun t => by
    have : (s t : ℝ) ≠ 0 := by have := hs t; positivity
    simp only [avg]; field_simp
  simp only [h]
  rw [avg, ← e.sum_comp, Fintype.sum_sigma]

include e in
theorem batch_sizes : (∑ t, (s t : ℝ)) = m := by
  have := Fintype.card_congr e
  simp only [Fintype.card_sigma, Fintype.card_fin] at this
  exact_mod_cast this

/-- the robust loss of the whole data and of the batches -/
theorem robust_batches (hm : 0 < m) (hs : ∀ t, 0 < s t) (lam rho p eps : ℝ) (L C : Fin n → Fin m → ℝ) :
    robust lam rho p eps L C =
      (∑ t, s t * robust lam rho p eps (fun j i => L j (e ⟨t, i⟩)) (fun j i => C j (e ⟨t, i⟩))) / m := by
  have hm' : (m : ℝ) ≠ 0 := by positivity
  simp only [robust, mul_add, Finset.sum_add_distrib, add_div, ← Finset.sum_mul, batch_sizes e]
  rw [avg_batches e hs]
  field_simp

/-- **C108** The robust loss of the whole data is the average of the robust losses of its batches, weighted by their sizes,
for the same multiplier and the same samples: however the points are shuffled and dealt to batches of whatever sizes.  Here for
any loss and cost values. -/
theorem C108_values {D : DualLoss} {xi zeta : Tensor ℝ} {xl zl : Option (Tensor ℝ)} {xiB zetaB : Fin b → Tensor ℝ}
    {xlB zlB : Fin b → Option (Tensor ℝ)} {rho : ℝ} {L C : Fin n → Fin m → ℝ} (h : Plain D xi xl zeta zl rho L C)
    (hB : ∀ t, Plain D (xiB t) (xlB t) (zetaB t) (zlB t) rho (fun j i => L j (e ⟨t, i⟩)) (fun j i => C j (e ⟨t, i⟩)))
    (hr : D.reduction = .mean) :
    num (computeDual ext D xi xl zeta zl) = (∑ t, s t * num (computeDual ext D (xiB t) (xlB t) (zetaB t) (zlB t))) / m := by
  simp only [num_plain ext h hr, num_plain ext (hB _) hr]
  exact robust_batches e h.m_pos (fun t => (hB t).m_pos) ..

/-- **C108** End to end, for a wrapped labelled model and a decoded cost: every call returns, and the values satisfy the weighted
average.  Partial: without importance sampling (see `C108_importance_false`). -/
theorem C108_labelled_partial {w : WLoss} {D : DualLoss} {ell : (Fin d → ℝ) → (Fin k → ℝ) → Fin r → ℝ} {rho : ℝ}
    (h : Labelled w D ell rho) (hr : D.reduction = .mean) (hn : 0 < n) (hm : 0 < m) (hs : ∀ t, 0 < s t)
    (X : Fin m → Fin d → ℝ) (Y : Fin m → Fin k → ℝ) (Z : Fin n → Fin m → Fin d → ℝ) (W : Fin n → Fin m → Fin k → ℝ) :
    ∃ (v : ℝ) (vB : Fin b → ℝ),
      ReturnsVal (computeDual ext D (mat X) (some (mat Y)) (ten Z) (some (ten W))) (fun u => IsScalar u v) ∧
      (∀ t, ReturnsVal (computeDual ext D (mat fun i => X (e ⟨t, i⟩)) (some (mat fun i => Y (e ⟨t, i⟩)))
        (ten fun j i => Z j (e ⟨t, i⟩)) (some (ten fun j i => W j (e ⟨t, i⟩)))) (fun u => IsScalar u (vB t))) ∧
      v = (∑ t, s t * vB t) / m := by
  have hp := plain_of_labelled h hn hm (isMat_mat X) (isTen_ten Z) (isMat_mat Y) (isTen_ten W)
  have hB := fun t => plain_of_labelled h hn (hs t) (isMat_mat fun i => X (e ⟨t, i⟩)) (isTen_ten fun j i => Z j (e ⟨t, i⟩))
    (isMat_mat fun i => Y (e ⟨t, i⟩)) (isTen_ten fun j i => W j (e ⟨t, i⟩))
  exact ⟨_, _, C29_formula ext hp hr, fun t => C29_formula ext (hB t) hr, robust_batches e hm hs ..⟩

/-- **C108** For batches of equal sizes the weights are equal: the robust loss of the whole data is the mean over the batches. -/
theorem C108_equal_batches {w : WLoss} {D : DualLoss} {ell : (Fin d → ℝ) → (Fin k → ℝ) → Fin r → ℝ} {rho : ℝ} {size : ℕ}
    (e : Fin b × Fin size ≃ Fin m) (h : Labelled w D ell rho) (hr : D.reduction = .mean) (hn : 0 < n) (hb : 0 < b) (hs : 0 < size)
    (X : Fin m → Fin d → ℝ) (Y : Fin m → Fin k → ℝ) (Z : Fin n → Fin m → Fin d → ℝ) (W : Fin n → Fin m → Fin k → ℝ) :
    num (computeDual ext D (mat X) (some (mat Y)) (ten Z) (some (ten W))) =
      avg fun t => num (computeDual ext D (mat fun i => X (e (t, i))) (some (mat fun i => Y (e (t, i))))
        (ten fun j i => Z j (e (t, i))) (some (ten fun j i => W j (e (t, i))))) := by
  have hc := Fintype.card_congr e
  simp only [Fintype.card_prod, Fintype.card_fin] at hc
  have hm : 0 < m := hc ▸ Nat.mul_pos hb hs
  obtain ⟨v, vB, h1, h2, h3⟩ := C108_labelled_partial ext ((Equiv.sigmaEquivProd _ _).trans e) h hr hn hm (fun _ => hs) X Y Z W
  rw [num_of_scalar h1, h3]
  simp only [Equiv.trans_apply, Equiv.sigmaEquivProd_apply] at h2
  simp only [num_of_scalar (h2 _), avg, ← Finset.mul_sum, ← hc]
  have h4 : (b : ℝ) ≠ 0 := by positivity
  have h5 : (size : ℝ) ≠ 0 := by positivity
  push_cast
  field_simp

/-- **C108** The same for the ordinary loss, evaluated when the radius is zero. -/
theorem C108_zero_radius {w : WLoss} {D : DualLoss} {ell : (Fin d → ℝ) → (Fin k → ℝ) → Fin r → ℝ} (hp : D.primal = w.value)
    (hl : w.hasLabels = true) (hsp : w.reduceSpatial = true) (hrows : RowWise w.flat ell) (h0 : D.rho = .num 0) (hr : D.reduction = .mean)
    (hk : 0 < r) (hs : ∀ t, 0 < s t) (X : Fin m → Fin d → ℝ) (Y : Fin m → Fin k → ℝ) (zeta : Tensor ℝ) (zl : Option (Tensor ℝ)) :
    ∃ (v : ℝ) (vB : Fin b → ℝ), ReturnsVal (computeDual ext D (mat X) (some (mat Y)) zeta zl) (fun u => IsScalar u v) ∧
      (∀ t, ReturnsVal (computeDual ext D (mat fun i => X (e ⟨t, i⟩)) (some (mat fun i => Y (e ⟨t, i⟩))) zeta zl)
        (fun u => IsScalar u (vB t))) ∧ v = (∑ t, s t * vB t) / m := by
  have key : ∀ {q : ℕ} (X : Fin q → Fin d → ℝ) (Y : Fin q → Fin k → ℝ),
      ReturnsVal (computeDual ext D (mat X) (some (mat Y)) zeta zl) (fun u => IsScalar u (avg fun i => lossAt w ell (X i) (Y i))) := by
    intro q X Y
    refine C30_zero_radius ext h0 hr ?_
    rw [hp]
    exact wrapped_batch hl hsp hk hrows (isTen_unsqueeze (isMat_mat X)) (isTen_unsqueeze (isMat_mat Y))
  exact ⟨_, _, key X Y, fun t => key _ _, avg_batches e hs _⟩

/-! Examples: three points in a batch of one and a batch of two; six points in three batches of two -/

example (X Y : Fin (∑ t, (![1, 2] : Fin 2 → ℕ) t) → Fin 1 → ℝ) (Z W : Fin 3 → Fin (∑ t, (![1, 2] : Fin 2 → ℕ) t) → Fin 1 → ℝ) :=
  C108_labelled_partial ext finSigmaFinEquiv exD_labelled rfl (by norm_num) (by simp) (fun t => by fin_cases t <;> simp) X Y Z W

example (X Y : Fin (∑ t, (![1, 2] : Fin 2 → ℕ) t) → Fin 1 → ℝ) (Z W : Fin 3 → Fin (∑ t, (![1, 2] : Fin 2 → ℕ) t) → Fin 1 → ℝ) :=
  C108_values ext finSigmaFinEquiv (plain_of_labelled exD_labelled (by norm_num) (by simp) (isMat_mat X) (isTen_ten Z) (isMat_mat Y) (isTen_ten W))
    (fun t => plain_of_labelled exD_labelled (by norm_num) (by fin_cases t <;> simp) (isMat_mat _) (isTen_ten _) (isMat_mat _) (isTen_ten _)) rfl

example (X Y : Fin (3 * 2) → Fin 1 → ℝ) (Z W : Fin 3 → Fin (3 * 2) → Fin 1 → ℝ) :=
  C108_equal_batches ext finProdFinEquiv exD_labelled rfl (by norm_num) (by norm_num) (by norm_num) X Y Z W

example (X Y : Fin (∑ t, (![1, 2] : Fin 2 → ℕ) t) → Fin 1 → ℝ) (zeta : Tensor ℝ) :=
  C108_zero_radius ext finSigmaFinEquiv (D := { exD with rho := .num 0 }) exD_labelled.primal exD_labelled.hasLabels exD_labelled.reduceSpatial
    exD_labelled.rows rfl rfl (by norm_num) (fun t => by fin_cases t <;> simp) X Y zeta none

/-! ## With importance sampling -/

/-- the sampler of the squared Euclidean cost, centred at a batch as the forward pass does -/
noncomputable def exAt {q : ℕ} (X : Fin q → Fin 1 → ℝ) : Sampler :=
  ⟨.noLabelsCost, none, .normal (mat X) (.fin 1), none, some ⟨.normCost, .fin 2, 2, .fin 0⟩, some 1, none⟩

/-- the importance-sampled loss `x^2 / 2` of a batch, with one sample per point, drawn at the point itself -/
noncomputable def exBatch {q : ℕ} (X : Fin q → Fin 1 → ℝ) : ℝ :=
  num (computeDual ext (exImp .normCost (.fin 0) 1 (some (exAt X))) (mat X) none (ten fun _ : Fin 1 => X) none)

theorem exBatch_eq {q : ℕ} (hq : 0 < q) (X : Fin q → Fin 1 → ℝ) : ∃ X' : Fin q → Fin 1 → ℝ,
    (∀ i k, X' i k = X i k + moved (Regular 1 X) 1 X i k) ∧
    exBatch ext X = 1 + avg fun i => X' i 0 ^ 2 / 2 - 3 / 2 * (X i 0 - X' i 0) ^ 2 := by
  have h := exImp_unlabelled (n := 1) hq one_pos (.fin 0) 1 (some (exAt X)) X fun _ => X
  obtain ⟨x', z', X', Z', h1, h2, h3, h4⟩ := C19_value ext h rfl (rho := 1) rfl one_pos rfl rfl one_pos rfl rfl rfl ⟨1, one_pos, rfl⟩ (isMat_mat X)
    (ell := fun x => x 0 ^ 2 / 2) (fun z Z hz => ⟨_, rfl, hz.1, fun j i c => by
      have := hz.2 j i c
      rw [Subsingleton.elim c 0] at this ⊢
      show (z.get _) ^ 2 / 2 = _
      rw [this]⟩)
  obtain ⟨x'', z'', k1, k2, k3⟩ := unlab h
  rw [h1] at k1
  cases k1
  have ex : ∀ i k, X' i k = X i k + moved (Regular 1 X) 1 X i k := fun i k => (h2.2 0 i k).symm.trans (k2.2 0 i k)
  have ez : Z' = fun _ => X' := by
    funext j i k
    exact ((h3.2 j i k).symm.trans (k3.2 j i k)).trans (ex i k).symm
  refine ⟨X', ex, ?_⟩
  have ed : ∀ i, densityAt ext (exAt X).data_s (X i) (X' i) / densityAt ext (exAt X).data_s (X' i) (X' i) =
      Real.exp (-(X' i 0 - X i 0) ^ 2 / 2) := fun i => by
    simp only [densityAt, exAt, normalDensity, ProbabilityTheory.gaussianPDFReal, Fin.prod_univ_one, Fin.isValue]
    rw [mul_div_mul_left _ _ (by simp; positivity), ← Real.exp_sub]
    simp
  have en : ∀ i, norm2 (fun k => X i k - X' i k) ^ 2 = (X i 0 - X' i 0) ^ 2 := fun i => by rw [norm2_sq]; simp
  rw [exBatch, num_of_scalar h4, ez]
  simp only [Fin.sum_univ_one, ed, en, ← Real.exp_add, Nat.cast_one, div_one, Real.log_exp, avg, exImp, one_mul, Real.one_rpow]
  congr 3
  funext i
  ring

/-- **C108** (violated with importance sampling) A batch is displaced only if none of its points has a zero gradient, so that the value
depends on which points share a batch: here the two points 0 and 1 together, and each on its own. -/
theorem C108_importance_false : exBatch ext (![![0], ![1]] : Fin 2 → Fin 1 → ℝ) ≠
    avg ![exBatch ext (![![0]] : Fin 1 → Fin 1 → ℝ), exBatch ext (![![1]] : Fin 1 → Fin 1 → ℝ)] := by
  obtain ⟨A, a1, a2⟩ := exBatch_eq ext (by norm_num) (![![0], ![1]] : Fin 2 → Fin 1 → ℝ)
  obtain ⟨B, b1, b2⟩ := exBatch_eq ext (by norm_num) (![![0]] : Fin 1 → Fin 1 → ℝ)
  obtain ⟨C, c1, c2⟩ := exBatch_eq ext (by norm_num) (![![1]] : Fin 1 → Fin 1 → ℝ)
  have n0 : norm2 (![0] : Fin 1 → ℝ) = 0 := by rw [norm2_eq_zero]; intro k; fin_cases k; rfl
  have n1 : norm2 (![1] : Fin 1 → ℝ) = 1 := by simp [norm2, pnorm]
  have rA : ¬ Regular 1 (![![0], ![1]] : Fin 2 → Fin 1 → ℝ) := fun h => h.2 0 n0
  have rB : ¬ Regular 1 (![![0]] : Fin 1 → Fin 1 → ℝ) := fun h => h.2 0 n0
  have rC : Regular 1 (![![1]] : Fin 1 → Fin 1 → ℝ) := ⟨one_ne_zero, fun i => by fin_cases i; simp [n1]⟩
  simp only [moved, rA, rB, rC, if_true, if_false, add_zero] at a1 b1 c1
  have e3 : C 0 0 = 3 / 2 := by rw [c1]; simp [shift, n1]; norm_num
  rw [a2, b2, c2]
  simp [avg, Fin.sum_univ_two, a1, b1, e3]
  norm_num

end Skwdro
