import Mathlib.Analysis.Normed.Module.FiniteDimension
import Mathlib.LinearAlgebra.LinearIndependent.Basic

/-! Finitely generated cones: every point has non-negative coefficients bounded by its norm. -/

namespace Skwdro

variable {J : ℕ} {E : Type*} [NormedAddCommGroup E] [NormedSpace ℝ E]

/-- non-negative coefficients can be moved onto linearly independent vectors -/
theorem cone_independent (A : Fin J → E) : ∀ (n : ℕ) (γ : Fin J → ℝ), (∀ l, 0 ≤ γ l) → (Finset.univ.filter fun l => γ l ≠ 0).card = n →
    ∃ γ' : Fin J → ℝ, (∀ l, 0 ≤ γ' l) ∧ ∑ l, γ' l • A l = ∑ l, γ l • A l ∧
      LinearIndepOn ℝ A ((Finset.univ.filter fun l => γ' l ≠ 0 : Finset (Fin J)) : Set (Fin J)) := by
  classical
  intro n
  induction n using Nat.strong_induction_on with
  | _ n ih =>
    intro γ h0 hn
    set S := Finset.univ.filter fun l => γ l ≠ 0 with hS
    by_cases hli : LinearIndepOn ℝ A (S : Set (Fin J))
    · exact ⟨γ, h0, rfl, hli⟩
    · rw [linearIndepOn_finset_iff] at hli
      push Not at hli
      obtain ⟨f, hf, i0, hi0, hfi⟩ := hli
      obtain ⟨f, hf, i0, hi0, hfi⟩ : ∃ f : Fin J → ℝ, ∑ i ∈ S, f i • A i = 0 ∧ ∃ i0 ∈ S, 0 < f i0 := by
        rcases lt_or_gt_of_ne hfi with h | h
        · exact ⟨fun i => -f i, by simp [Finset.sum_neg_distrib, hf], i0, hi0, by simpa using h⟩
        · exact ⟨f, hf, i0, hi0, h⟩
      obtain ⟨i1, hi1, hmin⟩ := Finset.exists_min_image (S.filter fun l => 0 < f l) (fun l => γ l / f l) ⟨i0, by simp [hi0, hfi]⟩
      rw [Finset.mem_filter] at hi1
      set t := γ i1 / f i1 with ht
      have ht0 : 0 ≤ t := div_nonneg (h0 i1) hi1.2.le
      set g : Fin J → ℝ := fun l => if l ∈ S then γ l - t * f l else 0 with hg
      have hg0 : ∀ l, 0 ≤ g l := by
        intro l
        simp only [hg]
        split_ifs with hl
        · rcases le_or_gt (f l) 0 with h | h
          · have h1 := h0 l
            have : t * f l ≤ 0 := mul_nonpos_of_nonneg_of_nonpos ht0 h
            linarith
          · have := hmin l (by simp [hl, h])
            rw [le_div_iff₀ h] at this
            linarith
        · exact le_rfl
      have hsum : ∑ l, g l • A l = ∑ l, γ l • A l := by
        have e1 : ∑ l, g l • A l = ∑ l ∈ S, (γ l - t * f l) • A l := by
          rw [← Finset.sum_filter_add_sum_filter_not Finset.univ (· ∈ S)]
          have : ∑ l ∈ Finset.univ.filter (fun l => ¬ l ∈ S), g l • A l = 0 :=
            Finset.sum_eq_zero fun l hl => by simp [hg, (Finset.mem_filter.1 hl).2]
          rw [this, add_zero]
          refine Finset.sum_congr (by ext; simp) fun l hl => ?_
          simp only [hg]
          rw [if_pos (by simpa using hl)]
        have e2 : ∑ l, γ l • A l = ∑ l ∈ S, γ l • A l := by
          rw [hS, Finset.sum_filter]
          refine Finset.sum_congr rfl fun l _ => ?_
          split_ifs with h
          · rfl
          · simp only [not_not] at h; rw [h, zero_smul]
        rw [e1, e2]
        simp only [sub_smul, Finset.sum_sub_distrib, mul_smul, ← Finset.smul_sum, hf, smul_zero, sub_zero]
      have hcard : (Finset.univ.filter fun l => g l ≠ 0).card < n := by
        rw [← hn]
        apply Finset.card_lt_card
        refine ⟨fun l hl => ?_, fun h => ?_⟩
        · by_contra hnl
          simp [hg, hnl] at hl
        · have := h hi1.1
          simp only [Finset.mem_filter, Finset.mem_univ, true_and, hg, if_pos hi1.1, ht] at this
          exact this (by rw [div_mul_cancel₀ _ hi1.2.ne', sub_self])
      obtain ⟨γ', h1, h2, h3⟩ := ih _ hcard g hg0 rfl
      exact ⟨γ', h1, h2.trans hsum, h3⟩

/-- coefficients over linearly independent vectors are bounded by the norm of the combination -/
theorem independent_bounded (A : Fin J → E) (S : Finset (Fin J)) (hS : LinearIndepOn ℝ A (S : Set (Fin J))) :
    ∃ B : ℝ, 0 ≤ B ∧ ∀ g : Fin J → ℝ, (∀ l, l ∉ S → g l = 0) → ∀ l, |g l| ≤ B * ‖∑ l, g l • A l‖ := by
  classical
  let F := Fintype.linearCombination ℝ (fun l : (S : Set (Fin J)) => A l)
  have hk : F.ker = ⊥ := by
    rw [LinearMap.ker_eq_bot]
    exact linearIndependent_iff_injective_fintypeLinearCombination.1 hS
  obtain ⟨K, hK, hF⟩ := F.exists_antilipschitzWith hk
  refine ⟨K, K.2, fun g hg l => ?_⟩
  have h1 : F (fun l => g l) = ∑ l, g l • A l := by
    simp only [F, Fintype.linearCombination_apply]
    rw [← Finset.sum_subset (Finset.subset_univ S) fun l _ hl => by rw [hg l hl, zero_smul]]
    exact Finset.sum_coe_sort S fun l => g l • A l
  have h2 := hF.le_mul_dist (fun l => g l) 0
  rw [map_zero, dist_zero_right, dist_zero_right, h1] at h2
  by_cases hl : l ∈ S
  · exact (norm_le_pi_norm (fun l : (S : Set (Fin J)) => g l) ⟨l, hl⟩).trans h2
  · rw [hg l hl, abs_zero]
    exact mul_nonneg K.2 (norm_nonneg _)

theorem cone_bounded (A : Fin J → E) : ∃ B : ℝ, 0 ≤ B ∧ ∀ γ : Fin J → ℝ, (∀ l, 0 ≤ γ l) →
    ∃ γ' : Fin J → ℝ, (∀ l, 0 ≤ γ' l) ∧ ∑ l, γ' l • A l = ∑ l, γ l • A l ∧ ∀ l, γ' l ≤ B * ‖∑ l, γ l • A l‖ := by
  classical
  have h : ∀ S : Finset (Fin J), ∃ B : ℝ, 0 ≤ B ∧ (LinearIndepOn ℝ A (S : Set (Fin J)) →
      ∀ g : Fin J → ℝ, (∀ l, l ∉ S → g l = 0) → ∀ l, |g l| ≤ B * ‖∑ l, g l • A l‖) := by
    intro S
    by_cases hS : LinearIndepOn ℝ A (S : Set (Fin J))
    · obtain ⟨B, h1, h2⟩ := independent_bounded A S hS
      exact ⟨B, h1, fun _ => h2⟩
    · exact ⟨0, le_rfl, fun h => absurd h hS⟩
  choose B hB0 hB using h
  refine ⟨∑ S, B S, Finset.sum_nonneg fun S _ => hB0 S, fun γ hγ => ?_⟩
  obtain ⟨γ', h1, h2, h3⟩ := cone_independent A _ γ hγ rfl
  refine ⟨γ', h1, h2, fun l => ?_⟩
  have := hB _ h3 γ' (fun l hl => by simpa using hl) l
  rw [h2] at this
  exact ((le_abs_self _).trans this).trans (mul_le_mul_of_nonneg_right (Finset.single_le_sum (fun S _ => hB0 S) (Finset.mem_univ _)) (norm_nonneg _))

end Skwdro
