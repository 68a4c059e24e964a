import Verif.Props.Dual
import Mathlib.Analysis.SpecialFunctions.Log.Deriv
import Mathlib.Analysis.SpecialFunctions.ExpDeriv
import Mathlib.Analysis.Calculus.LocalExtr.Basic
import Mathlib.Topology.Order.Compact

/-! # C95: minimising the robust loss over the multiplier computes the worst case over the samples -/

namespace Skwdro
open Spec Tensor

variable {G : Type} (ext : TorchExt G)

section
variable {n m : ℕ} {rho p eps : ℝ} {L C : Fin n → Fin m → ℝ}

/-- derivative of the soft maximum in the multiplier: minus the expected cost under the tilted weights -/
theorem softmax_deriv (hn : 0 < n) (he : 0 < eps) (a c : Fin n → ℝ) (lam : ℝ) :
    HasDerivAt (fun lam => softmax eps (fun j => a j - lam * c j)) (-∑ j, tilt eps (fun j => a j - lam * c j) j * c j) lam := by
  have hnR : (0 : ℝ) < n := by exact_mod_cast hn
  have hne : Nonempty (Fin n) := ⟨⟨0, hn⟩⟩
  have hj : ∀ j, HasDerivAt (fun lam => Real.exp ((a j - lam * c j) / eps)) (Real.exp ((a j - lam * c j) / eps) * (-(c j) / eps)) lam := by
    intro j
    have h1 : HasDerivAt (fun lam => (a j - lam * c j) / eps) (-(c j) / eps) lam := by
      have := ((hasDerivAt_id lam).mul_const (c j)).const_sub (a j)
      simpa using this.div_const eps
    exact h1.exp
  have hs : HasDerivAt (fun lam => ∑ j, Real.exp ((a j - lam * c j) / eps)) (∑ j, Real.exp ((a j - lam * c j) / eps) * (-(c j) / eps)) lam :=
    HasDerivAt.fun_sum fun j _ => hj j
  have hpos : 0 < ∑ j, Real.exp ((a j - lam * c j) / eps) := Finset.sum_pos (fun j _ => Real.exp_pos _) Finset.univ_nonempty
  have hl := ((hs.div_const (n : ℝ)).log (by positivity)).const_mul eps
  have e : eps * ((∑ j, Real.exp ((a j - lam * c j) / eps) * (-(c j) / eps)) / n / ((∑ j, Real.exp ((a j - lam * c j) / eps)) / n)) =
      -∑ j, tilt eps (fun j => a j - lam * c j) j * c j := by
    simp only [tilt]
    rw [div_div_div_cancel_right₀ hnR.ne', ← mul_div_assoc, Finset.mul_sum, Finset.sum_div, ← Finset.sum_neg_distrib]
    refine Finset.sum_congr rfl fun j _ => ?_
    field_simp
  rw [e] at hl
  exact hl

theorem robust_deriv (hn : 0 < n) (he : 0 < eps) (lam : ℝ) :
    HasDerivAt (fun lam => robust lam rho p eps L C)
      (rho ^ p - avg (fun i => ∑ j, tilt eps (fun j => L j i - lam * C j i) j * C j i)) lam := by
  have h1 : HasDerivAt (fun lam : ℝ => lam * rho ^ p) (rho ^ p) lam := by simpa using (hasDerivAt_id lam).mul_const (rho ^ p)
  have h2 : HasDerivAt (fun lam => avg (fun i => softmax eps (fun j => L j i - lam * C j i)))
      (-avg (fun i => ∑ j, tilt eps (fun j => L j i - lam * C j i) j * C j i)) lam := by
    unfold avg
    have := (HasDerivAt.fun_sum (u := Finset.univ) fun i _ => softmax_deriv hn he (fun j => L j i) (fun j => C j i) lam).div_const (m : ℝ)
    rw [Finset.sum_neg_distrib, neg_div] at this
    exact this
  have := h1.add h2
  rw [← sub_eq_add_neg] at this
  exact this

/-- for large multipliers the robust loss is governed by the cheapest samples -/
theorem robust_lower (hn : 0 < n) (hm : 0 < m) (he : 0 < eps) (J : Fin m → Fin n) (lam : ℝ) :
    lam * (rho ^ p - avg (fun i => C (J i) i)) + (avg (fun i => L (J i) i) - eps * Real.log n) ≤ robust lam rho p eps L C := by
  have h1 : ∀ i, (L (J i) i + -(lam * C (J i) i)) + -(eps * Real.log n) ≤ softmax eps (fun j => L j i - lam * C j i) := by
    intro i
    have := point_le_softmax hn he (fun j => L j i - lam * C j i) (J i)
    linarith
  have h2 := avg_mono h1
  rw [avg_add_const hm] at h2
  have h3 : avg (fun i => L (J i) i + -(lam * C (J i) i)) = avg (fun i => L (J i) i) - lam * avg (fun i => C (J i) i) := by
    unfold avg
    rw [Finset.sum_add_distrib, Finset.sum_neg_distrib, ← Finset.mul_sum]
    ring
  rw [h3] at h2
  unfold robust
  linarith

theorem robust_upper (hn : 0 < n) (he : 0 < eps) {lam : ℝ} (hlam : 0 ≤ lam) {M B : Fin m → ℝ}
    (hM : ∀ j i, M i ≤ C j i) (hB : ∀ j i, L j i ≤ B i) : robust lam rho p eps L C ≤ lam * (rho ^ p - avg M) + avg B := by
  have h1 : ∀ i, softmax eps (fun j => L j i - lam * C j i) ≤ B i + -(lam * M i) := by
    intro i
    apply softmax_le_max hn he
    intro j
    have := mul_le_mul_of_nonneg_left (hM j i) hlam
    have := hB j i
    linarith
  have h2 := avg_mono h1
  have h3 : avg (fun i => B i + -(lam * M i)) = avg B - lam * avg M := by
    unfold avg
    rw [Finset.sum_add_distrib, Finset.sum_neg_distrib, ← Finset.mul_sum]
    ring
  rw [h3] at h2
  unfold robust
  linarith

/-- a best non-negative multiplier, and the first-order conditions it meets -/
theorem robust_min_exists (hn : 0 < n) (hm : 0 < m) (he : 0 < eps) (J : Fin m → Fin n) (hslack : avg (fun i => C (J i) i) < rho ^ p) :
    ∃ lam, 0 ≤ lam ∧ (∀ lam', 0 ≤ lam' → robust lam rho p eps L C ≤ robust lam' rho p eps L C) ∧
      0 ≤ rho ^ p - avg (fun i => ∑ j, tilt eps (fun j => L j i - lam * C j i) j * C j i) ∧
      lam * (rho ^ p - avg (fun i => ∑ j, tilt eps (fun j => L j i - lam * C j i) j * C j i)) = 0 := by
  set F := fun lam => robust lam rho p eps L C with hF
  have hcont : Continuous F := continuous_iff_continuousAt.2 fun lam => (robust_deriv hn he lam).continuousAt
  set s := rho ^ p - avg (fun i => C (J i) i) with hs
  have hs0 : 0 < s := by linarith
  set b := avg (fun i => L (J i) i) - eps * Real.log n with hb
  set K := max 0 ((F 0 - b) / s) with hK
  have hK0 : 0 ≤ K := le_max_left _ _
  obtain ⟨lam, ⟨hl0, -⟩, hmin⟩ := isCompact_Icc.exists_isMinOn (⟨0, le_refl _, hK0⟩ : (Set.Icc 0 K).Nonempty) hcont.continuousOn
  have hall : ∀ lam', 0 ≤ lam' → F lam ≤ F lam' := by
    intro lam' h'
    rcases le_total lam' K with h | h
    · exact hmin ⟨h', h⟩
    · have h1 : F lam ≤ F 0 := hmin ⟨le_refl _, hK0⟩
      have h2 : lam' * s + b ≤ F lam' := robust_lower hn hm he J lam'
      have h3 : (F 0 - b) / s ≤ lam' := (le_max_right _ _).trans h
      rw [div_le_iff₀ hs0] at h3
      linarith
  have hd := robust_deriv (rho := rho) (p := p) (L := L) (C := C) hn he lam
  refine ⟨lam, hl0, hall, ?_⟩
  rcases hl0.eq_or_lt with h0 | h0
  · subst h0
    refine ⟨?_, by ring⟩
    have ht := (hasDerivWithinAt_iff_tendsto_slope' (s := Set.Ioi (0 : ℝ)) (by simp)).1 hd.hasDerivWithinAt
    refine ge_of_tendsto ht ?_
    filter_upwards [self_mem_nhdsWithin] with x hx
    rw [slope_def_field]
    exact div_nonneg (sub_nonneg.2 (hall x (le_of_lt hx))) (sub_nonneg.2 (le_of_lt hx))
  · have hloc : IsLocalMin F lam := by
      filter_upwards [Ioi_mem_nhds h0] with x hx
      exact hall x (le_of_lt hx)
    have := hloc.hasDerivAt_eq_zero hd
    rw [this]; simp

end

section
variable {n m : ℕ} {D : DualLoss} {xi zeta : Tensor ℝ} {xl zl : Option (Tensor ℝ)} {rho : ℝ} {L C : Fin n → Fin m → ℝ}

theorem Spec.Plain.withLam (h : Plain D xi xl zeta zl rho L C) (lam : ℝ) : Plain { D with lam := lam } xi xl zeta zl rho L C :=
  ⟨h.rho_eq, h.rho_pos, h.eps_pos, h.erm, h.imp, h.n_pos, h.m_pos, h.samples, h.loss, h.cost⟩

/-- **C95** If some choice of one sample per data point has an average cost below `rho^p`, there is a best non-negative multiplier, and the
robust loss there is the penalised expected loss of an admissible adversary — hence (C32) the largest one: minimising over the multiplier
computes the worst case over all the re-weightings of the samples of average cost at most `rho^p`. -/
theorem C95_strong_duality (h : Plain D xi xl zeta zl rho L C) (hr : D.reduction = .mean) (J : Fin m → Fin n)
    (hJ : avg (fun i => C (J i) i) < rho ^ D.cost.power) :
    ∃ V, IsLeast {v | ∃ lam, 0 ≤ lam ∧ v = num (computeDual ext { D with lam := lam } xi xl zeta zl)} V ∧
      IsGreatest {v | ∃ q : Fin m → Fin n → ℝ, (∀ i, IsWeights (q i)) ∧ avg (fun i => ∑ j, q i j * C j i) ≤ rho ^ D.cost.power ∧
        v = avg (fun i => ∑ j, q i j * L j i - D.epsilon * KL (q i))} V := by
  obtain ⟨lam, h0, hmin, hadm, hslack⟩ := robust_min_exists (rho := rho) (p := D.cost.power) (L := L) (C := C) h.n_pos h.m_pos h.eps_pos J hJ
  have hv : ∀ lam, num (computeDual ext { D with lam := lam } xi xl zeta zl) = robust lam rho D.cost.power D.epsilon L C :=
    fun lam => num_plain ext (h.withLam lam) hr
  have ht := C32_tilted_adversary ext (h.withLam lam) hr
  obtain ⟨hw, heq⟩ := ht
  have hV : robust lam rho D.cost.power D.epsilon L C = avg (fun i => ∑ j, tilt D.epsilon (fun j => L j i - lam * C j i) j * L j i -
      D.epsilon * KL (tilt D.epsilon (fun j => L j i - lam * C j i))) := by
    rw [← hv, heq]
    show _ + lam * (rho ^ D.cost.power - _) = _
    rw [hslack, add_zero]
  refine ⟨robust lam rho D.cost.power D.epsilon L C, ⟨⟨lam, h0, (hv lam).symm⟩, ?_⟩, ⟨⟨_, hw, by linarith, hV⟩, ?_⟩⟩
  · rintro _ ⟨lam', h', rfl⟩
    rw [hv]
    exact hmin lam' h'
  · rintro _ ⟨q, hq, hc, rfl⟩
    rw [← hv]
    exact C32_bounds_adversaries ext (h.withLam lam) hr h0 q hq hc

/-- **C95** The robust loss is bounded below in the multiplier exactly when the cheapest samples (`M i`, the least cost among the samples of
data point `i`) have an average cost of at most `rho^p`.  Otherwise it tends to minus infinity: there is no best multiplier. -/
theorem C95_bounded_iff (h : Plain D xi xl zeta zl rho L C) (hr : D.reduction = .mean) {M : Fin m → ℝ}
    (hM : ∀ i, IsLeast (Set.range fun j => C j i) (M i)) :
    (∃ B, ∀ lam, 0 ≤ lam → B ≤ num (computeDual ext { D with lam := lam } xi xl zeta zl)) ↔ avg M ≤ rho ^ D.cost.power := by
  have hv : ∀ lam, num (computeDual ext { D with lam := lam } xi xl zeta zl) = robust lam rho D.cost.power D.epsilon L C :=
    fun lam => num_plain ext (h.withLam lam) hr
  simp only [hv]
  choose J hJ using fun i => (hM i).1
  have hJ' : (fun i => C (J i) i) = M := funext fun i => hJ i
  constructor
  · rintro ⟨B, hB⟩
    by_contra hlt
    rw [not_le] at hlt
    have hne : Nonempty (Fin n) := ⟨⟨0, h.n_pos⟩⟩
    have hb : ∃ b : Fin m → ℝ, ∀ j i, L j i ≤ b i := by
      choose j hj using fun i => Finite.exists_max (fun j => L j i)
      exact ⟨fun i => L (j i) i, fun k i => hj i k⟩
    obtain ⟨b, hb⟩ := hb
    set s := avg M - rho ^ D.cost.power
    have hs : 0 < s := by simp only [s]; linarith
    set lam := (|avg b - B| + 1) / s with hlam
    have hl0 : 0 ≤ lam := by positivity
    have h1 := robust_upper (rho := rho) (p := D.cost.power) (L := L) (C := C) h.n_pos h.eps_pos hl0 (fun j i => (hM i).2 ⟨j, rfl⟩) hb
    have h2 := hB lam hl0
    have h3 : lam * (rho ^ D.cost.power - avg M) = -(|avg b - B| + 1) := by
      rw [hlam]
      simp only [s]
      have : avg M - rho ^ D.cost.power ≠ 0 := hs.ne'
      field_simp
      ring
    have h4 := le_abs_self (avg b - B)
    linarith
  · intro hle
    refine ⟨avg (fun i => L (J i) i) - D.epsilon * Real.log n, fun lam hl => ?_⟩
    have := robust_lower (rho := rho) (p := D.cost.power) (L := L) (C := C) h.n_pos h.m_pos h.eps_pos J lam
    rw [hJ'] at this
    have h2 : 0 ≤ lam * (rho ^ D.cost.power - avg M) := mul_nonneg hl (by linarith)
    linarith

/-- **C95** That same condition says whether there is any admissible adversary at all among the re-weightings of the samples. -/
theorem C95_feasible_iff {M : Fin m → ℝ} (hM : ∀ i, IsLeast (Set.range fun j => C j i) (M i)) (r : ℝ) :
    (∃ q : Fin m → Fin n → ℝ, (∀ i, IsWeights (q i)) ∧ avg (fun i => ∑ j, q i j * C j i) ≤ r) ↔ avg M ≤ r := by
  constructor
  · rintro ⟨q, hq, hc⟩
    refine le_trans (avg_mono fun i => ?_) hc
    calc M i = ∑ j, q i j * M i := by rw [← Finset.sum_mul, (hq i).2, one_mul]
      _ ≤ _ := Finset.sum_le_sum fun j _ => mul_le_mul_of_nonneg_left ((hM i).2 ⟨j, rfl⟩) ((hq i).1 j)
  · intro h
    choose J hJ using fun i => (hM i).1
    refine ⟨fun i j => if j = J i then 1 else 0, fun i => ⟨fun j => by dsimp only; split <;> norm_num, by simp⟩, ?_⟩
    simp only [ite_mul, one_mul, zero_mul, Finset.sum_ite_eq', Finset.mem_univ, if_true, hJ]
    exact h

end

theorem exCost_eq (x z : Fin 1 → ℝ) : costAt exD.cost x z x z = (x 0 - z 0) ^ 2 := by
  rw [(C05_point_formula exD.cost rfl (Or.inl ⟨2, by norm_num, rfl⟩) _ _ _ _).1 1 (by norm_num) rfl]
  simp only [exD, pnorm, Fin.sum_univ_one, Fin.isValue]
  rw [← Real.rpow_mul (abs_nonneg _)]
  norm_num

/-- the hypotheses of `C95_strong_duality` are met by three samples around each of two data points -/
example : ∃ J : Fin 2 → Fin 3, avg (fun i => costAt exD.cost (exX i) (exZ (J i) i) (exX i) (exZ (J i) i)) < 1 ^ exD.cost.power := by
  refine ⟨fun _ => 0, ?_⟩
  simp [exCost_eq, exZ, exX, avg]

/-- samples at a distance of at least 10 of their data point -/
noncomputable def exFar : Fin 3 → Fin 2 → Fin 1 → ℝ := fun j i _ => i + j + 10

/-- **C95** The samples decide whether there is a best multiplier, and nothing checks that they allow one: with a radius of 1 and samples at
a distance of at least 10, the robust loss takes values below any bound. -/
theorem C95_unbounded_witness : ∀ B : ℝ, ∃ lam, 0 ≤ lam ∧
    num (computeDual ext { exD with lam := lam } (mat exX) (some (mat exX)) (ten exFar) (some (ten exFar))) < B := by
  have h : Plain exD (mat exX) (some (mat exX)) (ten exFar) (some (ten exFar)) 1 _ _ :=
    plain_of_labelled (n := 3) (m := 2) exD_labelled (by norm_num) (by norm_num) (isMat_mat exX) (isTen_ten exFar) (isMat_mat exX)
      (isTen_ten exFar)
  have hM : ∀ i : Fin 2, IsLeast (Set.range fun j : Fin 3 => costAt exD.cost (exX i) (exFar j i) (exX i) (exFar j i)) ((fun _ => 100) i) := by
    intro i
    refine ⟨⟨0, ?_⟩, ?_⟩
    · simp only [exCost_eq, exX, exFar, Fin.val_zero, Nat.cast_zero]; ring
    · rintro _ ⟨j, rfl⟩
      simp only [exCost_eq, exX, exFar]
      have : (0 : ℝ) ≤ (j : ℕ) := Nat.cast_nonneg _
      nlinarith
  have := (C95_bounded_iff ext h rfl hM).not.2 (by norm_num [avg])
  push Not at this
  exact this

end Skwdro
