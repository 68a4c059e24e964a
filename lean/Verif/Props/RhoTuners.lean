import Verif.Model.RhoTuners
import Verif.Spec.RhoTuners
import Verif.Props.Scores
import Mathlib.Analysis.Calculus.LocalExtr.Basic
import Mathlib.Analysis.Calculus.FDeriv.Pi
import Mathlib.Analysis.Matrix.Spectrum

/-! # C69, C70, C82-C85: choice of the radius -/

namespace Skwdro
open Spec

/-! ## C69 grid -/

/-- **C69** The grid is strictly increasing, has `max_power - min_power` values (none if the bounds are swapped or equal), and they are exactly the
powers of ten with exponents from `-max_power` to `-min_power - 1`. -/
theorem C69_grid (min_power max_power : ℤ) :
    (rhoGrid min_power max_power).length = (max_power - min_power).toNat ∧
    (rhoGrid min_power max_power).Pairwise (· < ·) ∧
    ∀ r, r ∈ rhoGrid min_power max_power ↔ ∃ k : ℤ, -max_power ≤ k ∧ k < -min_power ∧ r = 10 ^ k := by
  refine ⟨by simp [rhoGrid, pyRangeDown], ?_, fun r => ?_⟩
  · simp only [rhoGrid, pyRangeDown, List.map_map]
    rw [List.pairwise_map]
    refine List.pairwise_lt_range.imp ?_
    intro a b hab
    simp only [Function.comp]
    exact zpow_lt_zpow_right₀ (by norm_num) (by omega)
  · simp only [rhoGrid, pyRangeDown, List.map_map, List.mem_map, List.mem_range, Function.comp]
    constructor
    · rintro ⟨k, hk, rfl⟩
      exact ⟨-(max_power - k), by omega, by omega, rfl⟩
    · rintro ⟨k, h1, h2, rfl⟩
      exact ⟨(k + max_power).toNat, by omega, by congr 1; omega⟩

/-- **C69** Given a grid search that picks one of the radii offered and refits with it, the tuned estimator has one of these radii; it is positive, and
between the bounds. -/
theorem C69_choice {E : Type} {t : RhoTuned E} {hasScore hasReg : E → Bool} {search : E → List ℝ → Except PyErr (ℝ × E)} {radius : E → ℝ}
    (hs : ∀ e grid b, search e grid = .ok b → b.1 ∈ grid ∧ radius b.2 = b.1) {b : ℝ × E} (h : t.fit hasScore hasReg search = .ok b) :
    0 < radius b.2 ∧ (10 : ℝ) ^ (-t.max_power) ≤ radius b.2 ∧ radius b.2 < 10 ^ (-t.min_power) ∧
      ∃ k : ℤ, radius b.2 = 10 ^ k := by
  unfold RhoTuned.fit at h
  split at h
  · obtain ⟨c, hc, h⟩ := bind_ok h
    split at h
    · cases h
      obtain ⟨h1, h2⟩ := hs _ _ _ hc
      obtain ⟨k, k1, k2, k3⟩ := ((C69_grid _ _).2.2 _).1 h1
      rw [h2, k3]
      exact ⟨by positivity, zpow_le_zpow_right₀ (by norm_num) k1, zpow_lt_zpow_right₀ (by norm_num) k2, k, rfl⟩
    · cases h
  · cases h

/-- **C69** Construction fails exactly without an estimator; the default grid is the eight powers from 1e-4 to 1e3. -/
theorem C69_construct {E : Type} (o : Option E) (a b : ℤ) :
    (RhoTuned.construct o a b = .error .valueError ↔ o = none) ∧ (∀ e, o = some e → RhoTuned.construct o a b = .ok ⟨e, a, b⟩) ∧
    (∀ e, o = some e → RhoTuned.construct o = .ok ⟨e, -4, 4⟩) ∧ (rhoGrid (-4) 4).length = 8 ∧ (1 / 10000 : ℝ) ∈ rhoGrid (-4) 4 ∧ (1000 : ℝ) ∈ rhoGrid (-4) 4 ∧ (10000 : ℝ) ∉ rhoGrid (-4) 4 := by
  refine ⟨?_, ?_, ?_, by rw [(C69_grid _ _).1]; rfl, ?_, ?_, ?_⟩
  · cases o <;> simp [RhoTuned.construct]
  · rintro e rfl; rfl
  · rintro e rfl; rfl
  · exact ((C69_grid _ _).2.2 _).2 ⟨-4, by norm_num, by norm_num, by norm_num⟩
  · exact ((C69_grid _ _).2.2 _).2 ⟨3, by norm_num, by norm_num, by norm_num⟩
  · intro h
    obtain ⟨k, -, h2, h3⟩ := ((C69_grid _ _).2.2 _).1 h
    have : (10000 : ℝ) = 10 ^ (4 : ℤ) := by norm_num
    rw [this] at h3
    have := zpow_right_injective₀ (by norm_num : (0 : ℝ) < 10) (by norm_num) h3
    omega

/-- a search that always takes the smallest radius meets the hypothesis of `C69_choice` -/
example : ∃ b, (⟨(7 : ℝ), -4, 4⟩ : RhoTuned ℝ).fit (fun _ => true) (fun _ => true)
    (fun _ grid => match grid with | r :: _ => .ok (r, r) | [] => .error .valueError) = .ok b :=
  ⟨_, rfl⟩

/-! ## C70 conjugates -/

/-- **C70** (partial: dimension one) The value computed is the exact conjugate of `n²` times the documented function. For one sample it is the
documented conjugate; the infinite value is exactly the unbounded case. -/
theorem C70_scalar_partial {n : ℕ} (hn : 0 < n) (H : Fin n → ℝ) (z : ℝ) :
    (∃ v, phiStar1 H z = .ok (.fin v) ∧ IsLUB (Set.range fun a => a * z - (n : ℝ) ^ 2 * phi1 H a) v) ∨
    (phiStar1 H z = .ok .pinf ∧ ¬BddAbove (Set.range fun a => a * z - phi1 H a)) := by
  have hn' : (0 : ℝ) < n := by exact_mod_cast hn
  have e : ∀ a, (n : ℝ) ^ 2 * phi1 H a = 1 / 2 * (1 / 2 * n * ∑ k, H k ^ 2) * a ^ 2 := by
    intro a
    simp only [phi1, mul_pow, ← Finset.sum_mul]
    field_simp
    ring
  unfold phiStar1
  rw [if_neg hn.ne']
  dsimp only
  by_cases hA : 1 / 2 * (n : ℝ) * ∑ k, H k ^ 2 = 0
  · rw [if_neg (not_not.2 hA)]
    have h0 : ∀ a, phi1 H a = 0 := fun a => by
      have := e a
      rw [hA] at this
      have h2 : (n : ℝ) ^ 2 ≠ 0 := by positivity
      simpa [h2] using this
    by_cases hz : z = 0
    · left
      refine ⟨0, by rw [if_neg (not_not.2 hz)], ?_⟩
      simp only [h0, hz]
      refine ⟨?_, fun b hb => ?_⟩
      · rintro _ ⟨a, rfl⟩; simp
      · simpa using hb ⟨0, rfl⟩
    · right
      refine ⟨by rw [if_pos hz], ?_⟩
      rintro ⟨b, hb⟩
      have := hb ⟨(b + 1) / z, rfl⟩
      simp only [h0, sub_zero, div_mul_cancel₀ _ hz] at this
      linarith
  · left
    rw [if_pos hA]
    set A := 1 / 2 * (n : ℝ) * ∑ k, H k ^ 2 with hAdef
    have hApos : 0 < A := lt_of_le_of_ne (by rw [hAdef]; positivity) (Ne.symm hA)
    refine ⟨_, rfl, ?_, fun b hb => ?_⟩
    · rintro _ ⟨a, rfl⟩
      simp only [e]
      have : z / A * z - 1 / 2 * (z / A) * A * (z / A) - (a * z - 1 / 2 * A * a ^ 2) = 1 / 2 * A * (a - z / A) ^ 2 := by
        field_simp; ring
      nlinarith [mul_nonneg hApos.le (sq_nonneg (a - z / A))]
    · have := hb ⟨z / A, rfl⟩
      simp only [e] at this
      refine le_trans (le_of_eq ?_) this
      ring

/-- **C70** is false for two samples or more (`1 / 2 * n` is parsed as `n / 2`): the documented conjugate is `n²` times the value returned,
hence different whenever `z` and a second derivative are non-zero. -/
theorem C70_scale_false {n : ℕ} (hn : 2 ≤ n) (H : Fin n → ℝ) (hH : ∃ k, H k ≠ 0) {z : ℝ} (hz : z ≠ 0) :
    ∃ v, phiStar1 H z = .ok (.fin v) ∧ 0 < v ∧ IsLUB (Set.range fun a => a * z - phi1 H a) ((n : ℝ) ^ 2 * v) ∧ v < (n : ℝ) ^ 2 * v := by
  have hn' : (2 : ℝ) ≤ n := by exact_mod_cast hn
  obtain ⟨k, hk⟩ := hH
  have hS : 0 < ∑ k, H k ^ 2 := lt_of_lt_of_le (by positivity : 0 < H k ^ 2)
    (Finset.single_le_sum (f := fun k => H k ^ 2) (fun _ _ => sq_nonneg _) (Finset.mem_univ k))
  have hA : (0 : ℝ) < 1 / 2 * n * ∑ k, H k ^ 2 := by positivity
  have e : ∀ a, (n : ℝ) ^ 2 * phi1 H a = 1 / 2 * (1 / 2 * n * ∑ k, H k ^ 2) * a ^ 2 := by
    intro a
    simp only [phi1, mul_pow, ← Finset.sum_mul]
    field_simp
    ring
  unfold phiStar1
  rw [if_neg (by omega)]
  dsimp only
  rw [if_pos hA.ne']
  set A := 1 / 2 * (n : ℝ) * ∑ k, H k ^ 2
  have ev : z / A * z - 1 / 2 * (z / A) * A * (z / A) = z ^ 2 / (2 * A) := by field_simp; ring
  have hv : 0 < z ^ 2 / (2 * A) := by positivity
  rw [ev]
  have hphi : ∀ a, phi1 H a = 1 / 2 * (A / n ^ 2) * a ^ 2 := by
    intro a
    have := e a
    have h2 : (n : ℝ) ^ 2 ≠ 0 := by positivity
    field_simp at this ⊢
    linarith
  refine ⟨_, rfl, hv, ⟨?_, fun b hb => ?_⟩, lt_mul_of_one_lt_left hv (by nlinarith)⟩
  · rintro _ ⟨a, rfl⟩
    simp only [hphi]
    have : (n : ℝ) ^ 2 * (z ^ 2 / (2 * A)) - (a * z - 1 / 2 * (A / n ^ 2) * a ^ 2) = 1 / 2 * (A / n ^ 2) * (a - n ^ 2 * z / A) ^ 2 := by
      field_simp; ring
    have h3 : 0 ≤ 1 / 2 * (A / n ^ 2) * (a - n ^ 2 * z / A) ^ 2 := by positivity
    linarith
  · have := hb ⟨n ^ 2 * z / A, rfl⟩
    simp only [hphi] at this
    refine le_trans (le_of_eq ?_) this
    field_simp; ring

open Matrix in
/-- symmetric matrices have a pseudo-inverse (the hypothesis on `pinv` below can be met) -/
theorem pinv_exists {d : ℕ} : ∃ pinv : Matrix (Fin d) (Fin d) ℝ → Matrix (Fin d) (Fin d) ℝ, ∀ A, A.IsSymm → IsPinv A (pinv A) := by
  classical
  have h : ∀ A : Matrix (Fin d) (Fin d) ℝ, ∃ B, A.IsSymm → IsPinv A B := by
    intro A
    by_cases hA : A.IsSymm
    · have hH : A.IsHermitian := by rw [Matrix.IsHermitian, Matrix.conjTranspose_eq_transpose_of_trivial]; exact hA
      obtain ⟨U, e, hU, hA'⟩ : ∃ (U : Matrix (Fin d) (Fin d) ℝ) (e : Fin d → ℝ), U.transpose * U = 1 ∧ A = U * diagonal e * U.transpose := by
        refine ⟨hH.eigenvectorUnitary, hH.eigenvalues, ?_, ?_⟩
        · have := Unitary.coe_star_mul_self hH.eigenvectorUnitary
          rwa [Matrix.star_eq_conjTranspose, Matrix.conjTranspose_eq_transpose_of_trivial] at this
        · have := hH.spectral_theorem
          rw [Unitary.conjStarAlgAut_apply, Matrix.star_eq_conjTranspose, Matrix.conjTranspose_eq_transpose_of_trivial] at this
          simpa using this
      have key : ∀ f g : Fin d → ℝ, (U * diagonal f * U.transpose) * (U * diagonal g * U.transpose) = U * diagonal (fun i => f i * g i) * U.transpose := by
        intro f g
        rw [← diagonal_mul_diagonal]
        calc (U * diagonal f * U.transpose) * (U * diagonal g * U.transpose) = U * diagonal f * (U.transpose * U) * diagonal g * U.transpose := by
              simp only [Matrix.mul_assoc]
          _ = _ := by rw [hU, Matrix.mul_one]; simp only [Matrix.mul_assoc]
      have hs : ∀ f : Fin d → ℝ, (U * diagonal f * U.transpose).transpose = U * diagonal f * U.transpose := by
        intro f
        simp [Matrix.transpose_mul, Matrix.mul_assoc]
      refine ⟨U * diagonal (fun i => (e i)⁻¹) * U.transpose, fun _ => ⟨?_, ?_, ?_, ?_⟩⟩ <;> rw [hA'] <;> simp only [key, hs]
      · congr 3; funext i; by_cases h : e i = 0 <;> simp [h]
      · congr 3; funext i; by_cases h : e i = 0 <;> simp [h]
    · exact ⟨0, fun h => absurd h hA⟩
  choose f hf using h
  exact ⟨f, hf⟩

/-- the matrix `A` of the code -/
noncomputable def phiA {n r d : ℕ} (H : Fin n → Matrix (Fin r) (Fin d) ℝ) : Matrix (Fin d) (Fin d) ℝ :=
  (1 / 2 * (n : ℝ)) • ∑ k, (H k).transpose * H k

open Matrix in
theorem phiA_symm {n r d : ℕ} (H : Fin n → Matrix (Fin r) (Fin d) ℝ) : (phiA H).transpose = phiA H := by
  simp [phiA, Matrix.transpose_smul, Matrix.transpose_sum, Matrix.transpose_mul]

open Matrix in
theorem phiA_quad {n r d : ℕ} (hn : 0 < n) (H : Fin n → Matrix (Fin r) (Fin d) ℝ) (a : Fin d → ℝ) :
    1 / 2 * (a ⬝ᵥ phiA H *ᵥ a) = (n : ℝ) ^ 2 * phi H a := by
  have hn' : (0 : ℝ) < n := by exact_mod_cast hn
  have e : a ⬝ᵥ phiA H *ᵥ a = 1 / 2 * n * ∑ k, ∑ i, ((H k).mulVec a i) ^ 2 := by
    rw [phiA, Matrix.smul_mulVec, Matrix.sum_mulVec, dotProduct_smul, dotProduct_sum, smul_eq_mul]
    congr 1
    refine Finset.sum_congr rfl fun k _ => ?_
    rw [← Matrix.mulVec_mulVec, Matrix.dotProduct_mulVec, Matrix.vecMul_transpose]
    simp [dotProduct, sq]
  rw [e, phi]
  field_simp
  ring

open Matrix in
/-- **C70** (partial: `z` in the range of `A`, and `n²` times the documented function) With a Moore-Penrose pseudo-inverse, the value computed
for vectors is the exact conjugate of `n²` times the documented function. -/
theorem C70_vector_partial {n r d : ℕ} (hn : 0 < n) {pinv : Matrix (Fin d) (Fin d) ℝ → Matrix (Fin d) (Fin d) ℝ} (hp : ∀ A, A.IsSymm → IsPinv A (pinv A))
    (H : Fin n → Matrix (Fin r) (Fin d) ℝ) {z : Fin d → ℝ} (hz : ∃ w, z = (∑ k, (H k).transpose * H k) *ᵥ w) :
    ∃ v, phiStar pinv H z = .ok (.fin v) ∧ IsLUB (Set.range fun a => a ⬝ᵥ z - (n : ℝ) ^ 2 * phi H a) v := by
  have hn' : (0 : ℝ) < n := by exact_mod_cast hn
  obtain ⟨w', rfl⟩ := hz
  obtain ⟨w, hw⟩ : ∃ w, (∑ k, (H k).transpose * H k) *ᵥ w' = phiA H *ᵥ w := by
    refine ⟨(1 / 2 * (n : ℝ))⁻¹ • w', ?_⟩
    rw [phiA, Matrix.mulVec_smul, Matrix.smul_mulVec, smul_smul, inv_mul_cancel₀ (by positivity), one_smul]
  rw [hw]
  set A := phiA H with hA
  have hP := hp A (phiA_symm H)
  have hAα : A *ᵥ (pinv A *ᵥ (A *ᵥ w)) = A *ᵥ w := by
    rw [Matrix.mulVec_mulVec, Matrix.mulVec_mulVec, hP.aba]
  set α := pinv A *ᵥ (A *ᵥ w) with hα
  have hsym : ∀ x y : Fin d → ℝ, x ⬝ᵥ A *ᵥ y = y ⬝ᵥ A *ᵥ x := by
    intro x y
    rw [Matrix.dotProduct_mulVec, ← Matrix.mulVec_transpose, hA, phiA_symm, dotProduct_comm]
  have hval : phiStar pinv H (A *ᵥ w) = .ok (.fin (1 / 2 * (α ⬝ᵥ A *ᵥ α))) := by
    unfold phiStar
    rw [if_neg hn.ne']
    show Except.ok (XNum.fin (α ⬝ᵥ A *ᵥ w - 1 / 2 * (Matrix.vecMul α A ⬝ᵥ α))) = _
    rw [← Matrix.dotProduct_mulVec, ← hAα]
    congr 2
    ring
  refine ⟨_, hval, ?_, fun b hb => ?_⟩
  · rintro _ ⟨a, rfl⟩
    simp only [← phiA_quad hn]
    have hpos : 0 ≤ (a - α) ⬝ᵥ A *ᵥ (a - α) := by
      have h2 := phiA_quad hn H (a - α)
      have h3 : 0 ≤ (n : ℝ) ^ 2 * phi H (a - α) := by unfold phi; positivity
      rw [← hA] at h2
      linarith
    have hexp : (a - α) ⬝ᵥ A *ᵥ (a - α) = a ⬝ᵥ A *ᵥ a - 2 * (a ⬝ᵥ A *ᵥ α) + α ⬝ᵥ A *ᵥ α := by
      rw [Matrix.mulVec_sub, sub_dotProduct, dotProduct_sub, dotProduct_sub, hsym α a]
      ring
    have : a ⬝ᵥ A *ᵥ w = a ⬝ᵥ A *ᵥ α := by rw [hAα]
    rw [this, ← hA]
    linarith
  · have := hb ⟨α, rfl⟩
    simp only [← phiA_quad hn] at this
    rw [← hA, ← hAα] at this
    linarith

open Matrix in
/-- **C70** is false for vectors outside the range (the test for it never succeeds): the documented conjugate is infinite, a number is returned. -/
theorem C70_range_false {n r d : ℕ} (hn : 0 < n) {pinv : Matrix (Fin d) (Fin d) ℝ → Matrix (Fin d) (Fin d) ℝ} (hp : ∀ A, A.IsSymm → IsPinv A (pinv A))
    (H : Fin n → Matrix (Fin r) (Fin d) ℝ) {z : Fin d → ℝ} (hz : ¬∃ w, z = (∑ k, (H k).transpose * H k) *ᵥ w) :
    (∃ v, phiStar pinv H z = .ok (.fin v)) ∧ ¬BddAbove (Set.range fun a => a ⬝ᵥ z - phi H a) := by
  have hn' : (0 : ℝ) < n := by exact_mod_cast hn
  refine ⟨⟨_, by unfold phiStar; rw [if_neg hn.ne']⟩, ?_⟩
  set A := phiA H with hA
  set B := pinv A
  have hP := hp A (phiA_symm H)
  have hAA : A * (A * B) = A := by
    have h1 : A * (A * B) = (A * B * A).transpose := by
      rw [Matrix.transpose_mul, hP.ab, hA, phiA_symm]
    rw [h1, hP.aba, hA, phiA_symm]
  set a := z - (A * B) *ᵥ z with ha
  have ha0 : a ≠ 0 := by
    intro h
    apply hz
    refine ⟨(1 / 2 * (n : ℝ)) • (B *ᵥ z), ?_⟩
    have h1 : z = (A * B) *ᵥ z := by rw [ha, sub_eq_zero] at h; exact h
    rw [Matrix.mulVec_smul, ← Matrix.smul_mulVec]
    show z = A *ᵥ (B *ᵥ z)
    rw [Matrix.mulVec_mulVec]
    exact h1
  have hAa : A *ᵥ a = 0 := by
    rw [ha, Matrix.mulVec_sub, Matrix.mulVec_mulVec, hAA, sub_self]
  have hphi : ∀ t : ℝ, phi H (t • a) = 0 := by
    intro t
    have h1 := phiA_quad hn H (t • a)
    rw [← hA, Matrix.mulVec_smul, hAa] at h1
    have h2 : (n : ℝ) ^ 2 ≠ 0 := by positivity
    simpa [h2, eq_comm] using h1
  have haz : a ⬝ᵥ z = a ⬝ᵥ a := by
    have h1 : a ⬝ᵥ (A * B) *ᵥ z = 0 := by
      rw [Matrix.dotProduct_mulVec, ← Matrix.mulVec_transpose, hP.ab, ← hP.ab, Matrix.transpose_mul, ← Matrix.mulVec_mulVec, hA, phiA_symm,
        ← hA, hAa]
      simp
    have h2 : z = a + (A * B) *ᵥ z := by rw [ha]; simp
    conv_lhs => rw [h2]
    rw [dotProduct_add, h1, add_zero]
  have hpos : 0 < a ⬝ᵥ a := by
    rcases Function.ne_iff.1 ha0 with ⟨i, hi⟩
    have : 0 < a i * a i := mul_self_pos.2 hi
    exact lt_of_lt_of_le this (Finset.single_le_sum (f := fun j => a j * a j) (fun j _ => mul_self_nonneg _) (Finset.mem_univ i))
  rintro ⟨b, hb⟩
  have := hb ⟨((b + 1) / (a ⬝ᵥ a)) • a, rfl⟩
  simp only [hphi, sub_zero, smul_dotProduct, smul_eq_mul, haz, div_mul_cancel₀ _ hpos.ne'] at this
  linarith

end Skwdro
