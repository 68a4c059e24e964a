import Verif.Lemmas.Tensor
import Verif.Lemmas.Costs
import Verif.Lemmas.Gibbs

/-! Helper lemmas on the dual loss: reductions and evaluation of `finishDual`. -/

namespace Skwdro
open Spec Tensor

theorem toList_col {t : Tensor ℝ} {m : ℕ} {f : List ℕ → ℝ} (h : Is t [m, 1] f) :
    t.toList = (List.range m).map (fun i => f [i, 0]) := by
  have e : indices [m, 1] = (List.range m).map (fun i => [i, 0]) := by
    simp only [indices, List.range_one, List.flatMap_cons, List.flatMap_nil, List.map_cons, List.map_nil,
      List.append_nil]
    rw [← List.map_eq_flatMap]
  rw [toList, h.1, e, List.map_map]
  refine List.map_congr_left fun i hi => ?_
  exact h.2 _ (List.Forall₂.cons (List.mem_range.1 hi) (List.Forall₂.cons (by omega) List.Forall₂.nil))

theorem reduce_mean {t : Tensor ℝ} {m : ℕ} {f : List ℕ → ℝ} (h : Is t [m, 1] f) :
    ∃ u, reduceLossBatch .mean t = .ok u ∧ IsScalar u (avg (fun i : Fin m => f [i, 0])) := by
  refine ⟨_, by simp [reduceLossBatch, dim, h.1]; rfl, rfl, ?_⟩
  simp [mean, toList_col h, sum_range_fin, avg]

theorem reduce_sum {t : Tensor ℝ} {m : ℕ} {f : List ℕ → ℝ} (h : Is t [m, 1] f) :
    ∃ u, reduceLossBatch .sum t = .ok u ∧ IsScalar u (∑ i : Fin m, f [i, 0]) := by
  refine ⟨_, by simp [reduceLossBatch, dim, h.1]; rfl, rfl, ?_⟩
  simp [Tensor.sum, toList_col h, sum_range_fin]

theorem reduce_none {t : Tensor ℝ} {m : ℕ} {f : List ℕ → ℝ} (h : Is t [m, 1] f) :
    ∃ u, reduceLossBatch .none t = .ok u ∧ IsVec u (fun i : Fin m => f [i, 0]) := by
  refine ⟨_, by simp [reduceLossBatch, dim, h.1]; rfl, ?_⟩
  exact isVec_iff.1 (h.squeezeLast (s := [m]))

theorem lse_is {t : Tensor ℝ} {n m : ℕ} {U : Fin n → Fin m → ℝ} (h : IsTen t (fun j i (_ : Fin 1) => U j i)) :
    Is t.logsumexp0 [m, 1] (ix2 (fun i (_ : Fin 1) => Real.log (∑ j, Real.exp (U j i)))) := by
  refine ⟨by simp [logsumexp0, h.1], fun i hi => ?_⟩
  rcases hi with _ | ⟨hi1, hi⟩
  rcases hi with _ | ⟨hi2, hi⟩
  cases hi
  rename_i i c
  have hc : c = 0 := by omega
  subst hc
  have e2 := ix2_apply (fun i (_ : Fin 1) => Real.log (∑ j, Real.exp (U j i))) ⟨i, hi1⟩ 0
  simp only [Fin.val_zero] at e2
  rw [e2]
  simp only [logsumexp0, listLSE, firstCol, h.1, List.headD_cons, List.map_map]
  have := sum_range_fin (d := n) (Real.exp ∘ fun j => t.get [j, i, 0])
  rw [this]
  congr 1
  refine Finset.sum_congr rfl fun j _ => ?_
  have := h.2 j ⟨i, hi1⟩ 0
  simp only [Fin.val_zero] at this
  simp [this]

theorem log_avg {n : ℕ} (hn : 0 < n) (u : Fin n → ℝ) :
    Real.log (∑ j, Real.exp (u j)) - Real.log n = Real.log (avg (fun j => Real.exp (u j))) := by
  have hn' : (0 : ℝ) < n := by exact_mod_cast hn
  rw [avg, Real.log_div (sum_exp_pos hn u).ne' hn'.ne']

/-- value of the last lines of `compute_dual`, for each reduction -/
theorem finishDual_mean {D : DualLoss} {rho : ℝ} {n m : ℕ} (hn : 0 < n) (hm : 0 < m) (hr : D.reduction = .mean)
    {t : Tensor ℝ} {U : Fin n → Fin m → ℝ} (h : IsTen t (fun j i (_ : Fin 1) => U j i)) :
    ReturnsVal (finishDual D rho n t) (fun v => IsScalar v (D.lam * rho ^ D.cost.power +
      avg (fun i => D.epsilon * Real.log (avg (fun j => Real.exp (U j i)))))) := by
  obtain ⟨u, hu, hs, hv⟩ := reduce_mean (lse_is h)
  refine ⟨_, by simp [finishDual, hr, hu]; rfl, by simp [addScalar, Tensor.map, hs], ?_⟩
  simp only [addScalar, Tensor.map, hv]
  have : ∀ i : Fin m, ix2 (fun i (_ : Fin 1) => Real.log (∑ j, Real.exp (U j i))) [i.1, 0] =
      Real.log (∑ j, Real.exp (U j i)) := fun i => ix2_apply _ i (0 : Fin 1)
  simp only [this, ← log_avg hn]
  have hm' : (m : ℝ) ≠ 0 := by positivity
  simp only [avg, ← Finset.mul_sum, Finset.sum_sub_distrib, Finset.sum_const, Finset.card_univ, Fintype.card_fin,
    nsmul_eq_mul]
  field_simp

theorem finishDual_sum {D : DualLoss} {rho : ℝ} {n m : ℕ} (hr : D.reduction = .sum)
    {t : Tensor ℝ} {U : Fin n → Fin m → ℝ} (h : IsTen t (fun j i (_ : Fin 1) => U j i)) :
    ReturnsVal (finishDual D rho n t) (fun v => IsScalar v (D.lam * rho ^ D.cost.power +
      D.epsilon * ((∑ i, Real.log (∑ j, Real.exp (U j i))) - Real.log n))) := by
  obtain ⟨u, hu, hs, hv⟩ := reduce_sum (lse_is h)
  refine ⟨_, by simp [finishDual, hr, hu]; rfl, by simp [addScalar, Tensor.map, hs], ?_⟩
  simp only [addScalar, Tensor.map, hv]
  have : ∀ i : Fin m, ix2 (fun i (_ : Fin 1) => Real.log (∑ j, Real.exp (U j i))) [i.1, 0] =
      Real.log (∑ j, Real.exp (U j i)) := fun i => ix2_apply _ i (0 : Fin 1)
  simp only [this]

theorem finishDual_none {D : DualLoss} {rho : ℝ} {n m : ℕ} (hn : 0 < n) (hr : D.reduction = .none)
    {t : Tensor ℝ} {U : Fin n → Fin m → ℝ} (h : IsTen t (fun j i (_ : Fin 1) => U j i)) :
    ReturnsVal (finishDual D rho n t) (fun v => IsVec v (fun i => D.lam * rho ^ D.cost.power +
      D.epsilon * Real.log (avg (fun j => Real.exp (U j i))))) := by
  obtain ⟨u, hu, hs, hv⟩ := reduce_none (lse_is h)
  refine ⟨_, by simp [finishDual, hr, hu]; rfl, by simp [addScalar, Tensor.map, hs], fun i => ?_⟩
  simp only [addScalar, Tensor.map, hv]
  have : ix2 (fun i (_ : Fin 1) => Real.log (∑ j, Real.exp (U j i))) [i.1, 0] =
      Real.log (∑ j, Real.exp (U j i)) := ix2_apply _ i (0 : Fin 1)
  rw [this, ← log_avg hn]

section plain
variable {n m : ℕ} {D : DualLoss} {xi zeta : Tensor ℝ} {xl zl : Option (Tensor ℝ)} {rho : ℝ}
  {L C : Fin n → Fin m → ℝ}

theorem plain_integrand (h : Plain D xi xl zeta zl rho L C) :
    ∃ t, integrand D xi xl zeta zl = .ok t ∧
      IsTen t (fun j i (_ : Fin 1) => (L j i - D.lam * C j i) / D.epsilon) := by
  obtain ⟨l, hl, hL⟩ := h.loss
  obtain ⟨c, hc, hC⟩ := h.cost
  obtain ⟨t, ht, hT⟩ := Is.zipWith_same (f := fun l c => (l - D.lam * c) / D.epsilon) hL.is hC.is
  refine ⟨t, by simp [integrand, hl, hc, ht], ?_⟩
  have := isTen_iff.1 hT
  simpa only [ix3_apply] using this

theorem plain_compute {G : Type} (ext : TorchExt G) (h : Plain D xi xl zeta zl rho L C) :
    ∃ t, computeDual ext D xi xl zeta zl = finishDual D rho n t ∧
      IsTen t (fun j i (_ : Fin 1) => (L j i - D.lam * C j i) / D.epsilon) := by
  obtain ⟨t, ht, hT⟩ := plain_integrand h
  refine ⟨t, ?_, hT⟩
  simp [computeDual, h.rho_eq, h.rho_pos.ne', h.erm, h.rho_pos, h.imp, ht, h.samples]

end plain

theorem num_of_scalar {r : Except PyErr DualVal} {x : ℝ} (h : ReturnsVal r (fun v => IsScalar v x)) : num r = x := by
  obtain ⟨t, ht, _, hv⟩ := h
  simp [num, ht, hv]

end Skwdro
