import Verif.Props.WrappedLoss
import Verif.Lemmas.DualSetting
import Verif.Props.Dual

/-!
# The option for losses that reduce their spatial dimensions must match the loss (C142)
-/

namespace Skwdro
open Spec Tensor

theorem regularize_shape (w : WLoss) (t : Tensor ℝ) : (w.regularize t).shape = t.shape := by
  unfold WLoss.regularize
  split <;> rfl

theorem view_refused {t : Tensor ℝ} {s : List ℕ} (h : s.prod ≠ t.shape.prod) : t.view s = .error .runtimeError := if_neg h

theorem rows_prod (b : List ℕ) : (b ++ [1]).prod = b.prod := by simp

/-- a vector of losses, averaged by mistake -/
theorem reduceFlat_vector (w : WLoss) (hr : w.reduceSpatial = true) {N : ℕ} {t : Tensor ℝ} (h : t.shape = [N]) :
    (w.reduceFlat (w.regularize t)).shape = [1] := by
  simp [WLoss.reduceFlat, hr, meanLast, reduceLast, regularize_shape, h]

/-- a table of losses, not averaged by mistake -/
theorem reduceFlat_table (w : WLoss) (hr : w.reduceSpatial = false) {N s : ℕ} {t : Tensor ℝ} (h : t.shape = [N, s]) :
    (w.reduceFlat (w.regularize t)).shape = [N, s, 1] := by
  simp [WLoss.reduceFlat, hr, unsqueezeLast, regularize_shape, h]

section
variable (w : WLoss) {d k s : ℕ} {b : List ℕ} {xi y : Tensor ℝ} {X : List ℕ → Fin d → ℝ} {Y : List ℕ → Fin k → ℝ}

/-- **C142** A loss that gives one number per sample, wrapped with the default option, is refused on every batch of samples that does not consist of a
single sample. -/
theorem C142_default_refused (hl : w.hasLabels = true) (hr : w.reduceSpatial = true) {ell : (Fin d → ℝ) → (Fin k → ℝ) → ℝ} (hf : RowWiseFlat w.flat ell)
    (hb : 2 ≤ b.length) (hN : b.prod ≠ 1) (hx : HasRows xi b X) (hy : HasRows y b Y) : w.value xi (some y) = .error .runtimeError := by
  obtain ⟨t, ht, hI⟩ := hf _ _ _ _ _ hx.flatten hy.flatten
  have hd : 2 < xi.dim := by simp [Tensor.dim, hx.1]; omega
  have hd' : 2 < y.dim := by simp [Tensor.dim, hy.1]; omega
  have hv : (w.reduceFlat (w.regularize t)).view (b ++ [1]) = .error .runtimeError :=
    view_refused (by rw [rows_prod, reduceFlat_vector w hr hI.1]; simpa using hN)
  simpa [WLoss.value, hl, hd, hd', WLoss.flatValue, ht, hx.1] using hv

/-- **C142** Without labels. -/
theorem C142_default_refused_unlabelled (hl : w.hasLabels = false) (hr : w.reduceSpatial = true) {ell : (Fin d → ℝ) → ℝ} (hf : RowWiseFlat0 w.flat ell)
    (hb : 2 ≤ b.length) (hN : b.prod ≠ 1) (hx : HasRows xi b X) : w.value xi none = .error .runtimeError := by
  obtain ⟨t, ht, hI⟩ := hf _ _ _ hx.flatten
  have hd : 2 < xi.dim := by simp [Tensor.dim, hx.1]; omega
  have hv : (w.reduceFlat (w.regularize t)).view (b ++ [1]) = .error .runtimeError :=
    view_refused (by rw [rows_prod, reduceFlat_vector w hr hI.1]; simpa using hN)
  simpa [WLoss.value, hl, hd, WLoss.flatValue, ht, hx.1] using hv

/-- **C142** A loss that gives several numbers per sample (or none), wrapped with the option for losses that give one, is refused on every non-empty batch
of samples. -/
theorem C142_option_refused (hl : w.hasLabels = true) (hr : w.reduceSpatial = false) (hs : s ≠ 1) {ell : (Fin d → ℝ) → (Fin k → ℝ) → Fin s → ℝ}
    (hf : RowWise w.flat ell) (hb : 2 ≤ b.length) (hN : b.prod ≠ 0) (hx : HasRows xi b X) (hy : HasRows y b Y) :
    w.value xi (some y) = .error .runtimeError := by
  obtain ⟨t, ht, hI⟩ := hf _ _ _ _ _ hx.flatten hy.flatten
  have hd : 2 < xi.dim := by simp [Tensor.dim, hx.1]; omega
  have hd' : 2 < y.dim := by simp [Tensor.dim, hy.1]; omega
  have hv : (w.reduceFlat (w.regularize t)).view (b ++ [1]) = .error .runtimeError := by
    refine view_refused ?_
    rw [rows_prod, reduceFlat_table w hr hI.1]
    simp only [List.prod_cons, List.prod_nil, mul_one]
    intro h
    exact hs (Nat.eq_of_mul_eq_mul_left (Nat.pos_of_ne_zero hN) (by omega))
  simpa [WLoss.value, hl, hd, hd', WLoss.flatValue, ht, hx.1] using hv

/-- **C142** Without labels. -/
theorem C142_option_refused_unlabelled (hl : w.hasLabels = false) (hr : w.reduceSpatial = false) (hs : s ≠ 1) {ell : (Fin d → ℝ) → Fin s → ℝ}
    (hf : RowWise0 w.flat ell) (hb : 2 ≤ b.length) (hN : b.prod ≠ 0) (hx : HasRows xi b X) : w.value xi none = .error .runtimeError := by
  obtain ⟨t, ht, hI⟩ := hf _ _ _ hx.flatten
  have hd : 2 < xi.dim := by simp [Tensor.dim, hx.1]; omega
  have hv : (w.reduceFlat (w.regularize t)).view (b ++ [1]) = .error .runtimeError := by
    refine view_refused ?_
    rw [rows_prod, reduceFlat_table w hr hI.1]
    simp only [List.prod_cons, List.prod_nil, mul_one]
    intro h
    exact hs (Nat.eq_of_mul_eq_mul_left (Nat.pos_of_ne_zero hN) (by omega))
  simpa [WLoss.value, hl, hd, WLoss.flatValue, ht, hx.1] using hv

end

section
variable (w : WLoss) {m d k : ℕ} {xi y : Tensor ℝ} {X : Fin m → Fin d → ℝ} {Y : Fin m → Fin k → ℝ}

/-- **C142** On a plain table of data the first mistake goes unnoticed: the result has one entry, the average loss of the table. -/
theorem C142_default_averages (hl : w.hasLabels = true) (hr : w.reduceSpatial = true) {ell : (Fin d → ℝ) → (Fin k → ℝ) → ℝ} (hf : RowWiseFlat w.flat ell)
    (hm : 1 < m) (hx : IsMat xi X) (hy : IsMat y Y) :
    Returns (w.value xi (some y)) fun t => IsVec t fun _ : Fin 1 => (avg fun i => ell (X i) (Y i)) + ridge w.l2reg w.theta := by
  obtain ⟨t, ht, hI⟩ := hf _ _ _ _ _ hx hy
  have hd : xi.dim = 2 := by simp [Tensor.dim, hx.1]
  have hd' : y.dim = 2 := by simp [Tensor.dim, hy.1]
  have hR := regularize_is w hI.is
  have hsh : (w.regularize t).shape = [m] := hR.1
  have hm1 : m ≠ 1 := by omega
  refine ⟨w.reduceFlat (w.regularize t).squeeze, by simp [WLoss.value, hl, hd, hd', WLoss.flatValue, ht], ?_, fun c => ?_⟩
  · simp [WLoss.reduceFlat, hr, meanLast, reduceLast, squeeze, hsh, hm1]
  · have hc : c = 0 := Subsingleton.elim _ _
    subst hc
    have hmR : (m : ℝ) ≠ 0 := by positivity
    have hg : ∀ i : Fin m, (w.regularize t).get [(i : ℕ)] = ell (X i) (Y i) + ridge w.l2reg w.theta := by
      intro i
      rw [hR.2 [(i : ℕ)] (.cons i.2 .nil)]
      exact congrArg (· + ridge w.l2reg w.theta) (ix1_apply (fun i => ell (X i) (Y i)) i)
    have e : (w.reduceFlat (w.regularize t).squeeze).get [((0 : Fin 1) : ℕ)] =
        listMean ((List.range m).map fun j => (w.regularize t).get [j]) := by
      simp [WLoss.reduceFlat, hr, meanLast, reduceLast, squeeze, hsh, hm1, lastRow, reinsert]
    rw [e]
    simp only [listMean, List.length_map, List.length_range]
    rw [sum_range_fin]
    simp only [hg, avg, Finset.sum_add_distrib, Finset.sum_const, Finset.card_univ, Fintype.card_fin, nsmul_eq_mul]
    field_simp

end

section
variable {G : Type} (ext : TorchExt G) {w : WLoss} {D : DualLoss} {n m d k s : ℕ} {rho : ℝ} {xi y zeta zl : Tensor ℝ} {X : Fin m → Fin d → ℝ}
  {Y : Fin m → Fin k → ℝ} {Z : Fin n → Fin m → Fin d → ℝ} {W : Fin n → Fin m → Fin k → ℝ}

theorem dual_refused (hD : D.primal = w.value) (hR : D.rho = .num rho) (hr : 0 ≤ rho) (hi : D.impSamp = false) {y zl : Option (Tensor ℝ)}
    (h1 : w.value xi.unsqueeze0 (maybeUnsqueeze y) = .error .runtimeError) (h2 : w.value zeta zl = .error .runtimeError) :
    computeDual ext D xi y zeta zl = .error .runtimeError := by
  unfold computeDual
  rw [hR]
  dsimp only
  split
  · simp [ermBranch, hD, h1]
  · rename_i hne
    push Not at hne
    rw [if_pos (lt_of_le_of_ne hr (Ne.symm hne.1))]
    simp [hi, integrand, hD, h2]

/-- **C142** So the robust loss of a loss that gives one number per sample, wrapped with the default option, is refused for all data sets with at least two
points, whatever the radius, the mode and the number of samples. -/
theorem C142_robust_default (hD : D.primal = w.value) (hR : D.rho = .num rho) (hr : 0 ≤ rho) (hi : D.impSamp = false) (hl : w.hasLabels = true)
    (hw : w.reduceSpatial = true) {ell : (Fin d → ℝ) → (Fin k → ℝ) → ℝ} (hf : RowWiseFlat w.flat ell) (hm : 1 < m) (hx : IsMat xi X) (hy : IsMat y Y)
    (hz : IsTen zeta Z) (hzl : IsTen zl W) : computeDual ext D xi (some y) zeta (some zl) = .error .runtimeError := by
  refine dual_refused ext hD hR hr hi ?_ ?_
  · refine C142_default_refused w hl hw hf (b := [1, m]) (by simp) (by simp; omega) (hasRows_of_isTen (isTen_unsqueeze hx)) (hasRows_of_isTen (isTen_unsqueeze hy))
  · refine C142_default_refused w hl hw hf (b := [n, m]) (by simp) (fun h => ?_) (hasRows_of_isTen hz) (hasRows_of_isTen hzl)
    simp only [List.prod_cons, List.prod_nil, mul_one] at h
    have := Nat.eq_one_of_mul_eq_one_left h
    omega

/-- **C142** And that of a loss that gives several, wrapped with the option, for all non-empty data sets and numbers of samples. -/
theorem C142_robust_option (hD : D.primal = w.value) (hR : D.rho = .num rho) (hr : 0 ≤ rho) (hi : D.impSamp = false) (hl : w.hasLabels = true)
    (hw : w.reduceSpatial = false) (hs : s ≠ 1) {ell : (Fin d → ℝ) → (Fin k → ℝ) → Fin s → ℝ} (hf : RowWise w.flat ell) (hn : 0 < n) (hm : 0 < m)
    (hx : IsMat xi X) (hy : IsMat y Y) (hz : IsTen zeta Z) (hzl : IsTen zl W) : computeDual ext D xi (some y) zeta (some zl) = .error .runtimeError := by
  refine dual_refused ext hD hR hr hi ?_ ?_
  · refine C142_option_refused w hl hw hs hf (b := [1, m]) (by simp) (by simp; omega) (hasRows_of_isTen (isTen_unsqueeze hx)) (hasRows_of_isTen (isTen_unsqueeze hy))
  · refine C142_option_refused w hl hw hs hf (b := [n, m]) (by simp) (by simp; omega) (hasRows_of_isTen hz) (hasRows_of_isTen hzl)

end

/-! The hypotheses are met by the losses of the examples of C22. -/

/-- one number per sample, default option -/
noncomputable def exOne (labels : Bool) : WLoss := ⟨labels, true, sqFlat, none, []⟩
/-- two numbers per sample, with the option -/
noncomputable def exTable (labels : Bool) : WLoss := ⟨labels, false, if labels then sqErr else sqNorm, none, []⟩

example (X : Fin 2 → Fin 3 → Fin 1 → ℝ) : (exOne true).value (ten X) (some (ten X)) = .error .runtimeError :=
  C142_default_refused (exOne true) rfl rfl sqFlat_rowWise (b := [2, 3]) (by simp) (by simp) (hasRows_of_isTen (isTen_ten X)) (hasRows_of_isTen (isTen_ten X))

example (X : Fin 2 → Fin 3 → Fin 1 → ℝ) : (exOne false).value (ten X) none = .error .runtimeError :=
  C142_default_refused_unlabelled (exOne false) rfl rfl sqFlat_rowWise0 (b := [2, 3]) (by simp) (by simp) (hasRows_of_isTen (isTen_ten X))

example (X : Fin 2 → Fin 3 → Fin 2 → ℝ) : (exTable true).value (ten X) (some (ten X)) = .error .runtimeError :=
  C142_option_refused (exTable true) rfl rfl (by norm_num) sqErr_rowWise (b := [2, 3]) (by simp) (by simp) (hasRows_of_isTen (isTen_ten X))
    (hasRows_of_isTen (isTen_ten X))

example (X : Fin 2 → Fin 3 → Fin 2 → ℝ) : (exTable false).value (ten X) none = .error .runtimeError :=
  C142_option_refused_unlabelled (exTable false) rfl rfl (by norm_num) sqNorm_rowWise0 (b := [2, 3]) (by simp) (by simp) (hasRows_of_isTen (isTen_ten X))

example (X : Fin 3 → Fin 1 → ℝ) : Returns ((exOne true).value (mat X) (some (mat X))) fun t => IsVec t fun _ : Fin 1 => (avg fun i => X i 0 ^ 2) + 0 :=
  C142_default_averages (exOne true) rfl rfl sqFlat_rowWise (by norm_num) (isMat_mat X) (isMat_mat X)

example {G : Type} (ext : TorchExt G) (X : Fin 3 → Fin 1 → ℝ) (Z : Fin 4 → Fin 3 → Fin 1 → ℝ) :
    computeDual ext { exD with primal := (exOne true).value } (mat X) (some (mat X)) (ten Z) (some (ten Z)) = .error .runtimeError :=
  C142_robust_default ext (w := exOne true) rfl (rho := 1) rfl (by norm_num) rfl rfl rfl sqFlat_rowWise (by norm_num) (isMat_mat X) (isMat_mat X)
    (isTen_ten Z) (isTen_ten Z)

example {G : Type} (ext : TorchExt G) (X : Fin 3 → Fin 2 → ℝ) (Z : Fin 4 → Fin 3 → Fin 2 → ℝ) :
    computeDual ext { exD with primal := (exTable true).value } (mat X) (some (mat X)) (ten Z) (some (ten Z)) = .error .runtimeError :=
  C142_robust_option ext (w := exTable true) rfl (rho := 1) rfl (by norm_num) rfl rfl rfl (s := 2) (by norm_num) sqErr_rowWise (by norm_num) (by norm_num)
    (isMat_mat X) (isMat_mat X) (isTen_ten Z) (isTen_ten Z)

end Skwdro
