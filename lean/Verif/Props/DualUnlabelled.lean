import Verif.Props.Dual

/-! # C25, C29, C36 for wrapped losses without labels (`/repo/skwdro/base/losses_torch/wrapper.py`, `/repo/skwdro/solvers/_dual_interfaces.py`)

The counterparts of the labelled end-to-end statements of `Verif.Props.Dual`, for losses such as those of the news vendor and of the portfolio. -/

namespace Skwdro
open Spec Tensor

variable {G : Type} (ext : TorchExt G)

/-- batch evaluation of a wrapped loss without labels is pointwise evaluation -/
theorem wrapped_batch0 {w : WLoss} (hl : w.hasLabels = false) (hr : w.reduceSpatial = true) {n m d s : ℕ} (hs : 0 < s)
    {ell : (Fin d → ℝ) → Fin s → ℝ} (hf : RowWise0 w.flat ell) {z : Tensor ℝ} {Z : Fin n → Fin m → Fin d → ℝ} (hz : IsTen z Z) :
    Returns (w.value z none) (fun t => IsTen t (fun j i (_ : Fin 1) => lossAt0 w ell (Z j i))) := by
  obtain ⟨t, ht, hT⟩ := C22_pointwise_nolabels w hl hr hs hf (b := [n, m]) (by simp) (hasRows_of_isTen hz)
  refine ⟨t, ht, ?_⟩
  have := isTen_of_hasRows hT
  simpa only [ix2_apply, lossAt0] using this

theorem plain_of_noLabels {n m d s : ℕ} {w : WLoss} {D : DualLoss} {ell : (Fin d → ℝ) → Fin s → ℝ} {rho : ℝ}
    (h : NoLabels w D ell rho) (hn : 0 < n) (hm : 0 < m) {x z : Tensor ℝ} {X : Fin m → Fin d → ℝ} {Z : Fin n → Fin m → Fin d → ℝ}
    (hx : IsMat x X) (hz : IsTen z Z) :
    Plain D x none z none rho (fun j i => lossAt0 w ell (Z j i))
      (fun j i => pnorm D.cost.p (fun q => X i q - Z j i q) ^ D.cost.power) where
  rho_eq := h.rho_eq
  rho_pos := h.rho_pos
  eps_pos := h.eps_pos
  erm := h.erm
  imp := h.imp
  n_pos := hn
  m_pos := hm
  samples := by simp [size0, hz.1]
  loss := by rw [h.primal]; exact wrapped_batch0 h.hasLabels h.reduceSpatial h.s_pos h.rows hz
  cost := C04_formula D.cost h.kind h.order (isTen_unsqueeze hx) hz _ _

/-- **C29** End to end without labels: robust loss of a wrapped model on data `X` and samples `Z`, in terms of the model's loss at single
points and of the distance between single points. -/
theorem C29_formula_unlabelled {n m d s : ℕ} {w : WLoss} {D : DualLoss} {ell : (Fin d → ℝ) → Fin s → ℝ} {rho : ℝ}
    (h : NoLabels w D ell rho) (hr : D.reduction = .mean) (hn : 0 < n) (hm : 0 < m) {x z : Tensor ℝ} {X : Fin m → Fin d → ℝ}
    {Z : Fin n → Fin m → Fin d → ℝ} (hx : IsMat x X) (hz : IsTen z Z) :
    ReturnsVal (computeDual ext D x none z none) (fun v => IsScalar v (D.lam * rho ^ D.cost.power +
      (∑ i, D.epsilon * Real.log ((∑ j, Real.exp ((lossAt0 w ell (Z j i) -
        D.lam * pnorm D.cost.p (fun q => X i q - Z j i q) ^ D.cost.power) / D.epsilon)) / n)) / m)) :=
  C29_formula ext (plain_of_noLabels h hn hm hx hz) hr

/-- **C25** Robust part without labels: with mean reduction, adding an L2 weight to the wrapped model moves the robust loss by exactly the
same amount as each per-sample loss. -/
theorem C25_ridge_robust_nolabels {n m d s : ℕ} {w : WLoss} {D : DualLoss} {ell : (Fin d → ℝ) → Fin s → ℝ} {rho : ℝ}
    (h : NoLabels w D ell rho) (hr : D.reduction = .mean) (hn : 0 < n) (hm : 0 < m) {x z : Tensor ℝ} {X : Fin m → Fin d → ℝ}
    {Z : Fin n → Fin m → Fin d → ℝ} (hx : IsMat x X) (hz : IsTen z Z) :
    num (computeDual ext D x none z none) =
      num (computeDual ext { D with primal := { w with l2reg := none }.value } x none z none) +
        (match w.l2reg with
          | some r => if 0 < r then r / 2 * (w.theta.map (fun x => x ^ 2)).sum else 0
          | none => 0) := by
  have h0 : NoLabels { w with l2reg := none } { D with primal := { w with l2reg := none }.value } ell rho :=
    ⟨rfl, h.hasLabels, h.reduceSpatial, h.s_pos, h.rows, h.kind, h.order, h.rho_eq, h.rho_pos, h.eps_pos, h.erm, h.imp⟩
  have p0 := plain_of_noLabels h0 hn hm hx hz
  have p1 := plain_of_noLabels h hn hm hx hz
  have e : (fun (j : Fin n) (i : Fin m) => lossAt0 w ell (Z j i)) =
      (fun j i => lossAt0 { w with l2reg := none } ell (Z j i) + ridge w.l2reg w.theta) := by
    funext j i; simp [lossAt0, ridge]
  rw [e] at p1
  rw [C33_shift ext p0 p1 hr hr rfl rfl rfl]
  congr 1
  cases w.l2reg with
  | none => rfl
  | some r => simp only [ridge]; by_cases hr : r ≤ 0 <;> simp [hr, not_lt.2, lt_of_not_ge]

/-- **C36** Without labels: permuting the samples of each data point (independently), or permuting the data points together with their
samples, leaves the robust loss unchanged. -/
theorem C36_order_irrelevant_unlabelled {n m d s : ℕ} {w : WLoss} {D : DualLoss} {ell : (Fin d → ℝ) → Fin s → ℝ} {rho : ℝ}
    (h : NoLabels w D ell rho) (hr : D.reduction = .mean) (hn : 0 < n) (hm : 0 < m) (X : Fin m → Fin d → ℝ)
    (Z : Fin n → Fin m → Fin d → ℝ) (σ : Fin m → Equiv.Perm (Fin n)) (τ : Equiv.Perm (Fin m)) :
    num (computeDual ext D (mat fun i => X (τ i)) none (ten fun j i => Z (σ i j) (τ i)) none) =
    num (computeDual ext D (mat X) none (ten Z) none) := by
  rw [num_plain ext (plain_of_noLabels h hn hm (isMat_mat X) (isTen_ten Z)) hr,
    num_plain ext (plain_of_noLabels h hn hm (isMat_mat fun i => X (τ i)) (isTen_ten fun j i => Z (σ i j) (τ i))) hr, robust, robust]
  congr 1
  rw [← avg_perm (fun i => softmax D.epsilon fun j => lossAt0 w ell (Z j i) -
    D.lam * pnorm D.cost.p (fun q => X i q - Z j i q) ^ D.cost.power) τ]
  congr 1; funext i
  exact softmax_perm (fun j => lossAt0 w ell (Z j (τ i)) -
    D.lam * pnorm D.cost.p (fun q => X (τ i) q - Z j (τ i) q) ^ D.cost.power) (σ i)

/-! ### Non-vacuity: the squared norm, with a ridge penalty -/

noncomputable def exW0 : WLoss := ⟨false, true, sqNorm, some 2, [3]⟩

theorem exD_noLabels : NoLabels (d := 1) (s := 1) exW0 { exD with primal := exW0.value, cost := ⟨.normCost, .fin 2, 2, .nan⟩, hasLabels := false }
    (fun x c => x c ^ 2) 1 :=
  ⟨rfl, rfl, rfl, by norm_num, sqNorm_rowWise0, rfl, Or.inl ⟨2, by norm_num, rfl⟩, rfl, by norm_num, by norm_num [exD], rfl, rfl⟩

example := C29_formula_unlabelled ext exD_noLabels rfl (n := 3) (m := 2) (by norm_num) (by norm_num) (isMat_mat exX) (isTen_ten exZ)
example := C25_ridge_robust_nolabels ext exD_noLabels rfl (n := 3) (m := 2) (by norm_num) (by norm_num) (isMat_mat exX) (isTen_ten exZ)
example := C36_order_irrelevant_unlabelled ext exD_noLabels rfl (n := 3) (m := 2) (by norm_num) (by norm_num) exX exZ
  (fun _ => Equiv.swap 0 1) (Equiv.swap 0 1)

end Skwdro
