import Verif.Props.Dual
import Verif.Lemmas.Logistic

/-!
# Losses with several values per sample (C140)
-/

namespace Skwdro
open Spec Tensor

section
variable {n m k : ℕ} {D : DualLoss} {xi zeta : Tensor ℝ} {xl zl : Option (Tensor ℝ)} {rho : ℝ}

/-- an operation between a wide tensor and a column stretches the column -/
theorem zipWith_wide {f : ℝ → ℝ → ℝ} {a b : Tensor ℝ} {A : Fin n → Fin m → Fin k → ℝ} {B : Fin n → Fin m → ℝ} (ha : IsTen a A)
    (hb : IsTen b fun j i (_ : Fin 1) => B j i) : ∃ c, zipWith f a b = .ok c ∧ IsTen c fun j i l => f (A j i l) (B j i) := by
  have hsh : bcastShape [n, m, k] [n, m, 1] = some [n, m, k] := by
    have h1 : bcastRev [m, n] [m, n] = some [m, n] := bcastRev_self _
    simp [bcastShape, bcastRev, h1]
  refine ⟨⟨[n, m, k], fun i => f (a.get (proj [n, m, k] i)) (b.get (proj [n, m, 1] i))⟩, by simp [zipWith, ha.1, hb.1, hsh], rfl, ?_⟩
  intro j i l
  have hj := j.2
  have hi := i.2
  have e1 : proj [n, m, k] [j.1, i.1, l.1] = [j.1, i.1, l.1] :=
    proj_self (.cons hj (.cons hi (.cons l.2 .nil)))
  have e2 : proj [n, m, 1] [j.1, i.1, l.1] = [j.1, i.1, 0] := by
    simp only [proj, List.reverse_cons, List.reverse_nil, List.nil_append, List.cons_append, projRev, if_true]
    by_cases hm : m = 1 <;> by_cases hn : n = 1 <;> simp [hm, hn] <;> omega
  have h3 := hb.2 j i 0
  simp only [Fin.val_zero] at h3
  dsimp only
  rw [e1, e2, ha.2, h3]

theorem lse_wide {t : Tensor ℝ} {U : Fin n → Fin m → Fin k → ℝ} (h : IsTen t U) :
    IsMat t.logsumexp0 fun i l => Real.log (∑ j, Real.exp (U j i l)) := by
  refine ⟨by simp [logsumexp0, h.1], fun i l => ?_⟩
  simp only [logsumexp0, listLSE, firstCol, h.1, List.headD_cons, List.map_map]
  rw [sum_range_fin (d := n) (Real.exp ∘ fun j => t.get [j, i.1, l.1])]
  congr 1
  refine Finset.sum_congr rfl fun j _ => ?_
  simp [h.2 j i l]

theorem toList_wide {t : Tensor ℝ} {A : Fin m → Fin k → ℝ} (h : IsMat t A) : t.toList.sum = ∑ i, ∑ l, A i l ∧ t.toList.length = m * k := by
  have e : indices [m, k] = (List.range m).flatMap fun i => (List.range k).map fun l => [i, l] := by
    simp [indices, List.map_eq_flatMap, List.flatMap_assoc]
  have h1 : t.toList = (List.range m).flatMap fun i => (List.range k).map fun l => t.get [i, l] := by
    rw [toList, h.1, e, List.map_flatMap]
    simp [List.map_map, Function.comp_def]
  rw [h1]
  constructor
  · rw [List.flatMap_def, List.sum_flatten, List.map_map]
    refine (sum_range_fin (d := m) fun i => ((List.range k).map fun l => t.get [i, l]).sum).trans ?_
    refine Finset.sum_congr rfl fun i _ => ?_
    rw [sum_range_fin (d := k) fun l => t.get [i.1, l]]
    exact Finset.sum_congr rfl fun l _ => h.2 i l
  · simp [List.length_flatMap]

theorem reduce_wide_mean {t : Tensor ℝ} {A : Fin m → Fin k → ℝ} (h : IsMat t A) :
    ∃ u, reduceLossBatch .mean t = .ok u ∧ IsScalar u (avg fun l => avg fun i => A i l) := by
  refine ⟨_, by simp [reduceLossBatch, dim, h.1]; rfl, rfl, ?_⟩
  obtain ⟨h1, h2⟩ := toList_wide h
  simp only [mean, h1, h2, avg]
  rw [Finset.sum_comm, ← Finset.sum_div, div_div]
  push_cast
  rfl

theorem reduce_wide_none {t : Tensor ℝ} {A : Fin m → Fin k → ℝ} (h : IsMat t A) (hk : k ≠ 1) : reduceLossBatch .none t = .ok t := by
  have : t.squeezeLast = t := by
    unfold squeezeLast
    rw [h.1]
    simp only [List.reverse_cons, List.reverse_nil, List.nil_append, List.cons_append]
    split
    · next heq => simp only [List.cons.injEq] at heq; exact absurd heq.1 hk
    · rfl
  simp [reduceLossBatch, dim, h.1, this]

variable {G : Type} (ext : TorchExt G)

theorem wide_compute (hR : D.rho = .num rho) (hr : 0 < rho) (he : D.ermMode = false) (hi : D.impSamp = false) (hz : zeta.size0 = n)
    {L : Fin n → Fin m → Fin k → ℝ} {C : Fin n → Fin m → ℝ} {t c : Tensor ℝ} (ht : D.primal zeta zl = .ok t) (hL : IsTen t L)
    (hc : D.cost.value xi.unsqueeze0 zeta (maybeUnsqueeze xl) zl = .ok c) (hC : IsTen c fun j i (_ : Fin 1) => C j i) :
    ∃ a, computeDual ext D xi xl zeta zl = finishDual D rho n a ∧ IsTen a fun j i l => (L j i l - D.lam * C j i) / D.epsilon := by
  obtain ⟨a, ha, hA⟩ := zipWith_wide (f := fun l c => (l - D.lam * c) / D.epsilon) hL hC
  exact ⟨a, by simp [computeDual, hR, hr.ne', he, hr, hi, integrand, ht, hc, ha, hz], hA⟩

/-- **C140** A loss that gives `k` values per sample, without importance sampling: the robust loss is the mean over the `k` columns of the robust losses
of the columns. -/
theorem C140_mean (hR : D.rho = .num rho) (hr : 0 < rho) (he : D.ermMode = false) (hi : D.impSamp = false) (hz : zeta.size0 = n)
    {L : Fin n → Fin m → Fin k → ℝ} {C : Fin n → Fin m → ℝ} {t c : Tensor ℝ} (ht : D.primal zeta zl = .ok t) (hL : IsTen t L)
    (hc : D.cost.value xi.unsqueeze0 zeta (maybeUnsqueeze xl) zl = .ok c) (hC : IsTen c fun j i (_ : Fin 1) => C j i) (hn : 0 < n) (hm : 0 < m)
    (hk : 0 < k) (hred : D.reduction = .mean) :
    ReturnsVal (computeDual ext D xi xl zeta zl) fun v =>
      IsScalar v (avg fun l => robust D.lam rho D.cost.power D.epsilon (fun j i => L j i l) C) := by
  obtain ⟨a, ha, hA⟩ := wide_compute ext hR hr he hi hz ht hL hc hC
  obtain ⟨u, hu, hs, hv⟩ := reduce_wide_mean (lse_wide hA)
  refine ⟨_, by rw [ha]; simp [finishDual, hred, hu]; rfl, by simp [addScalar, Tensor.map, hs], ?_⟩
  simp only [addScalar, Tensor.map, hv]
  have e1 : ∀ l, robust D.lam rho D.cost.power D.epsilon (fun j i => L j i l) C = D.epsilon *
      ((avg fun i => Real.log (∑ j, Real.exp ((L j i l - D.lam * C j i) / D.epsilon))) - Real.log n) + D.lam * rho ^ D.cost.power := by
    intro l
    simp only [robust, softmax, ← log_avg hn]
    rw [avg_const_mul]
    have := avg_add_const hm (fun i => Real.log (∑ j, Real.exp ((L j i l - D.lam * C j i) / D.epsilon))) (-Real.log n)
    simp only [← sub_eq_add_neg] at this
    rw [this]
    ring
  simp only [e1]
  rw [avg_add_const hk, avg_const_mul]
  have := avg_add_const hk (fun l => avg fun i => Real.log (∑ j, Real.exp ((L j i l - D.lam * C j i) / D.epsilon))) (-Real.log n)
  simp only [← sub_eq_add_neg] at this
  rw [this]
  ring

/-- **C140** Without reduction, and with more (or less) than one value per sample, it is the whole table: one robust loss for each data point and column. -/
theorem C140_none (hR : D.rho = .num rho) (hr : 0 < rho) (he : D.ermMode = false) (hi : D.impSamp = false) (hz : zeta.size0 = n)
    {L : Fin n → Fin m → Fin k → ℝ} {C : Fin n → Fin m → ℝ} {t c : Tensor ℝ} (ht : D.primal zeta zl = .ok t) (hL : IsTen t L)
    (hc : D.cost.value xi.unsqueeze0 zeta (maybeUnsqueeze xl) zl = .ok c) (hC : IsTen c fun j i (_ : Fin 1) => C j i) (hn : 0 < n)
    (hk : k ≠ 1) (hred : D.reduction = .none) :
    ReturnsVal (computeDual ext D xi xl zeta zl) fun v =>
      IsMat v fun i l => D.lam * rho ^ D.cost.power + softmax D.epsilon fun j => L j i l - D.lam * C j i := by
  obtain ⟨a, ha, hA⟩ := wide_compute ext hR hr he hi hz ht hL hc hC
  have hl := lse_wide hA
  refine ⟨_, by rw [ha]; simp [finishDual, hred, reduce_wide_none hl hk]; rfl, by simp [addScalar, Tensor.map, hl.1], fun i l => ?_⟩
  simp only [addScalar, Tensor.map, hl.2, softmax, log_avg hn]

/-- **C140** With a radius of zero, or in ERM mode, it is the mean of all values, or all of them without reduction. -/
theorem C140_erm (hR : D.rho = .num rho) (h0 : rho = 0 ∨ D.ermMode = true) {ell : Fin m → Fin k → ℝ} {t : Tensor ℝ}
    (ht : D.primal xi.unsqueeze0 (maybeUnsqueeze xl) = .ok t) (hL : IsTen t fun (_ : Fin 1) i l => ell i l) :
    (D.reduction = .mean → ReturnsVal (computeDual ext D xi xl zeta zl) fun v => IsScalar v (rho * D.lam + avg fun l => avg fun i => ell i l)) ∧
    (D.reduction = .none → k ≠ 1 → ReturnsVal (computeDual ext D xi xl zeta zl) fun v => IsMat v fun i l => rho * D.lam + ell i l) := by
  have hq : IsMat t.squeeze0 ell := by
    unfold squeeze0
    rw [hL.1]
    exact ⟨rfl, fun i l => hL.2 0 i l⟩
  constructor
  · intro hred
    obtain ⟨u, hu, hs, hv⟩ := reduce_wide_mean hq
    refine ⟨_, by simp only [computeDual, hR, h0, if_true, ermBranch, ht, ok_bind, hred, hu]; rfl, by simp [addScalar, Tensor.map, hs], ?_⟩
    simp only [addScalar, Tensor.map, hv]
  · intro hred hk
    refine ⟨_, by simp only [computeDual, hR, h0, if_true, ermBranch, ht, ok_bind, hred, reduce_wide_none hq hk]; rfl, by simp [addScalar, Tensor.map, hq.1],
      fun i l => ?_⟩
    simp only [addScalar, Tensor.map, hq.2]

/-- the robust loss is convex in the loss: averaging columns first gives less -/
theorem robust_avg_le (hn : 0 < n) (hk : 0 < k) {lam p eps : ℝ} (he : 0 < eps) (L : Fin n → Fin m → Fin k → ℝ) (C : Fin n → Fin m → ℝ) :
    robust lam rho p eps (fun j i => avg fun l => L j i l) C ≤ avg fun l => robust lam rho p eps (fun j i => L j i l) C := by
  have hkR : (k : ℝ) ≠ 0 := by positivity
  have key : ∀ i, softmax eps (fun j => (avg fun l => L j i l) - lam * C j i) ≤ avg fun l => softmax eps fun j => L j i l - lam * C j i := by
    intro i
    set q := tilt eps fun j => (avg fun l => L j i l) - lam * C j i with hq
    rw [← gibbs_eq hn he, ← hq]
    have h1 : ∀ l, ∑ j, q j * (L j i l - lam * C j i) - eps * KL q ≤ softmax eps fun j => L j i l - lam * C j i :=
      fun l => gibbs_le hn he _ (tilt_weights hn eps _)
    refine le_trans (le_of_eq ?_) (avg_mono h1)
    have h2 : avg (fun l => ∑ j, q j * (L j i l - lam * C j i) - eps * KL q) = (avg fun l => ∑ j, q j * (L j i l - lam * C j i)) - eps * KL q := by
      have := avg_add_const hk (fun l => ∑ j, q j * (L j i l - lam * C j i)) (-(eps * KL q))
      simpa only [← sub_eq_add_neg] using this
    rw [h2]
    congr 1
    simp only [avg]
    rw [Finset.sum_comm, Finset.sum_div]
    refine Finset.sum_congr rfl fun j _ => ?_
    rw [← Finset.mul_sum, Finset.sum_sub_distrib]
    simp
    field_simp
  unfold robust
  have h3 : avg (fun l => lam * rho ^ p + avg fun i => softmax eps fun j => L j i l - lam * C j i) =
      lam * rho ^ p + avg fun l => avg fun i => softmax eps fun j => L j i l - lam * C j i := by
    have := avg_add_const hk (fun l => avg fun i => softmax eps fun j => L j i l - lam * C j i) (lam * rho ^ p)
    simpa only [add_comm] using this
  rw [h3]
  have h4 : (avg fun l => avg fun i => softmax eps fun j => L j i l - lam * C j i) = avg fun i => avg fun l => softmax eps fun j => L j i l - lam * C j i := by
    simp only [avg]
    rw [← Finset.sum_div, ← Finset.sum_div, Finset.sum_comm]
    ring
  rw [h4]
  have := avg_mono key
  linarith

/-- **C140** So it bounds the robust loss of the mean of the columns from above. -/
theorem C140_bound (hR : D.rho = .num rho) (hr : 0 < rho) (he : D.ermMode = false) (hi : D.impSamp = false) (hz : zeta.size0 = n)
    {L : Fin n → Fin m → Fin k → ℝ} {C : Fin n → Fin m → ℝ} {t c : Tensor ℝ} (ht : D.primal zeta zl = .ok t) (hL : IsTen t L)
    (hc : D.cost.value xi.unsqueeze0 zeta (maybeUnsqueeze xl) zl = .ok c) (hC : IsTen c fun j i (_ : Fin 1) => C j i) (hn : 0 < n) (hm : 0 < m)
    (hk : 0 < k) (heps : 0 < D.epsilon) (hred : D.reduction = .mean) :
    robust D.lam rho D.cost.power D.epsilon (fun j i => avg fun l => L j i l) C ≤ num (computeDual ext D xi xl zeta zl) := by
  rw [num_of_scalar (C140_mean ext hR hr he hi hz ht hL hc hC hn hm hk hred)]
  exact robust_avg_le hn hk heps L C

end

/-! The hypotheses are met by a loss with the two values `x` and `x + 1`. -/

/-- two values for each sample -/
noncomputable def twoLosses (z : Tensor ℝ) : Tensor ℝ := ⟨z.shape.dropLast ++ [2], fun i => z.get (i.dropLast ++ [0]) + i.getLastD 0⟩

noncomputable def exTwo (r : Reduction) : DualLoss := { exD with primal := fun z _ => .ok (twoLosses z), reduction := r }

theorem exTwo_loss : IsTen (twoLosses (ten exZ)) fun j i (l : Fin 2) => exZ j i 0 + l := by
  refine ⟨rfl, fun j i l => ?_⟩
  have h := (isTen_ten exZ).2 j i 0
  simp only [Fin.val_zero] at h
  simp [twoLosses, h]

theorem exTwo_cost (r : Reduction) : ∃ c, (exTwo r).cost.value (mat exX).unsqueeze0 (ten exZ) (maybeUnsqueeze (some (mat exX))) (some (ten exZ)) = .ok c ∧
    IsTen c fun j i (_ : Fin 1) => costAt exD.cost (exX i) (exZ j i) (exX i) (exZ j i) := exD_plain.cost

example {G : Type} (ext : TorchExt G) := C140_mean ext (n := 3) (m := 2) (D := exTwo .mean) rfl one_pos rfl rfl rfl rfl exTwo_loss (exTwo_cost .mean).choose_spec.1
  (exTwo_cost .mean).choose_spec.2 (by norm_num) (by norm_num) (by norm_num) rfl
example {G : Type} (ext : TorchExt G) := C140_none ext (n := 3) (m := 2) (D := exTwo .none) rfl one_pos rfl rfl rfl rfl exTwo_loss (exTwo_cost .none).choose_spec.1
  (exTwo_cost .none).choose_spec.2 (by norm_num) (by norm_num) rfl
example {G : Type} (ext : TorchExt G) := C140_bound ext (n := 3) (m := 2) (D := exTwo .mean) rfl one_pos rfl rfl rfl rfl exTwo_loss (exTwo_cost .mean).choose_spec.1
  (exTwo_cost .mean).choose_spec.2 (by norm_num) (by norm_num) (by norm_num) (by norm_num [exTwo, exD]) rfl

theorem exTwo_data : IsTen (twoLosses (mat exX).unsqueeze0) fun (_ : Fin 1) i (l : Fin 2) => exX i 0 + l := by
  refine ⟨rfl, fun j i l => ?_⟩
  have h := (isMat_mat exX).2 i 0
  simp only [Fin.val_zero] at h
  simp [twoLosses, Tensor.unsqueeze0, h]

example {G : Type} (ext : TorchExt G) := C140_erm ext (D := { exTwo .none with ermMode := true }) (rho := 1) (zeta := ten exZ) (zl := none) rfl (.inr rfl)
  (xl := some (mat exX)) rfl exTwo_data

end Skwdro
