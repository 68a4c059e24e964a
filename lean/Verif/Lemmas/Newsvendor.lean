import Verif.Spec.Wasserstein
import Verif.Lemmas.Tensor
import Mathlib.Topology.Algebra.Order.LiminfLimsup
import Mathlib.Topology.Order.Compact
import Mathlib.Topology.Instances.Real.Lemmas

/-! Helper lemmas on the newsvendor programs. -/

namespace Skwdro
open Spec

theorem npSort_perm (l : List ℝ) : (npSort l).Perm l := List.perm_insertionSort _ _

theorem npSort_sorted (l : List ℝ) : (npSort l).Pairwise (· ≤ ·) := List.pairwise_insertionSort _ _

theorem npSort_length (l : List ℝ) : (npSort l).length = l.length := (npSort_perm l).length_eq

theorem avgCost_perm {l l' : List ℝ} (h : l.Perm l') (k u t : ℝ) : avgCost k u l t = avgCost k u l' t := by
  unfold avgCost
  rw [(h.map _).sum_eq, h.length_eq]

theorem avgCost_fin (k u : ℝ) (z : List ℝ) (t : ℝ) :
    avgCost k u z t = (∑ i : Fin z.length, newsvendor k u t z[i]) / z.length := by
  unfold avgCost
  congr 1
  rw [← List.sum_ofFn]
  congr 1
  apply List.ext_getElem <;> simp

theorem avgCost_eq (k u : ℝ) (z : List ℝ) (hz : z ≠ []) (t : ℝ) :
    avgCost k u z t = k * t - u * ((∑ i : Fin z.length, min t z[i]) / z.length) := by
  have hn : (z.length : ℝ) ≠ 0 := by
    simpa using hz
  rw [avgCost_fin]
  unfold newsvendor
  rw [Finset.sum_sub_distrib, ← Finset.mul_sum]
  simp only [Finset.sum_const, Finset.card_univ, Fintype.card_fin, nsmul_eq_mul]
  field_simp
  rw [Finset.mul_sum]

theorem avgCost_continuous (k u : ℝ) (z : List ℝ) : Continuous (avgCost k u z) := by
  have : avgCost k u z = fun t => (∑ i : Fin z.length, newsvendor k u t z[i]) / z.length := by
    ext t; exact avgCost_fin k u z t
  rw [this]
  unfold newsvendor
  fun_prop

theorem saa2_feasible {k u : ℝ} {z : List ℝ} {b : Fin z.length → ℝ} {t : ℝ} :
    (saa2Program k u z).Feasible (b, t) ↔ 0 ≤ t ∧ ∀ i, b i ≤ t ∧ b i ≤ z[i] := by
  unfold Program.Feasible saa2Program
  simp only [List.mem_cons, List.mem_flatMap, List.mem_finRange, true_and, List.not_mem_nil, or_false]
  constructor
  · intro h
    refine ⟨h _ (Or.inl rfl), fun i => ⟨h _ (Or.inr ⟨i, Or.inl rfl⟩), h _ (Or.inr ⟨i, Or.inr rfl⟩)⟩⟩
  · rintro ⟨h0, h⟩ c (rfl | ⟨i, rfl | rfl⟩)
    · exact h0
    · exact (h i).1
    · exact (h i).2

theorem saa_feasible {k u : ℝ} {z : List ℝ} {s : Fin z.length → ℝ} {t : ℝ} :
    (saaProgram k u z).Feasible (t, s) ↔ ∀ i, (k - u) * t ≤ s i ∧ k * t - u * z[i] ≤ s i := by
  unfold Program.Feasible saaProgram
  simp only [List.mem_append, List.mem_map, List.mem_finRange, true_and]
  have key : ∀ i : Fin z.length, ∑ j, -(if i = j then (1 : ℝ) else 0) * s j = - s i := by
    intro i
    simp
  constructor
  · intro h i
    have h1 := h _ (Or.inl ⟨i, rfl⟩)
    have h2 := h _ (Or.inr ⟨i, rfl⟩)
    simp only [key] at h1 h2
    exact ⟨by linarith, by linarith⟩
  · rintro h c (⟨i, rfl⟩ | ⟨i, rfl⟩)
    · simp only [key]; linarith [(h i).1]
    · simp only [key]; linarith [(h i).2]

theorem saa2_objective_best {k u : ℝ} (hu : 0 ≤ u) {z : List ℝ} (hz : z ≠ []) {b : Fin z.length → ℝ} {t : ℝ}
    (h : (saa2Program k u z).Feasible (b, t)) : avgCost k u z t ≤ (saa2Program k u z).objective (b, t) := by
  rw [avgCost_eq k u z hz]
  have hn : 0 < (z.length : ℝ) := by
    simpa [List.length_pos_iff] using hz
  have hs : ∑ i, b i ≤ ∑ i : Fin z.length, min t z[i] :=
    Finset.sum_le_sum fun i _ => le_min ((saa2_feasible.1 h).2 i).1 ((saa2_feasible.1 h).2 i).2
  unfold saa2Program
  simp only
  have : u * 1 / (z.length : ℝ) * ∑ i, b i ≤ u * ((∑ i : Fin z.length, min t z[i]) / z.length) := by
    rw [mul_one, div_mul_eq_mul_div, ← mul_div_assoc]
    exact div_le_div_of_nonneg_right (mul_le_mul_of_nonneg_left hs hu) hn.le
  linarith

theorem saa2_min_feasible {k u : ℝ} {z : List ℝ} {t : ℝ} (ht : 0 ≤ t) :
    (saa2Program k u z).Feasible ((fun i => min t z[i]), t) :=
  saa2_feasible.2 ⟨ht, fun _ => ⟨min_le_left _ _, min_le_right _ _⟩⟩

theorem saa2_min_objective {k u : ℝ} {z : List ℝ} (hz : z ≠ []) (t : ℝ) :
    (saa2Program k u z).objective ((fun i => min t z[i]), t) = avgCost k u z t := by
  rw [avgCost_eq k u z hz]
  unfold saa2Program
  simp only
  ring

theorem newsvendor_max {k u : ℝ} (hu : 0 ≤ u) (t x : ℝ) : newsvendor k u t x = max ((k - u) * t) (k * t - u * x) := by
  unfold newsvendor
  rcases le_total t x with h | h
  · rw [min_eq_left h, max_eq_left (by nlinarith)]; ring
  · rw [min_eq_right h, max_eq_right (by nlinarith)]

theorem saa_objective (k u : ℝ) (z : List ℝ) (t : ℝ) (s : Fin z.length → ℝ) :
    (saaProgram k u z).objective (t, s) = (∑ i, s i) / z.length := by
  unfold saaProgram
  simp only
  rw [← Finset.mul_sum]; ring

theorem saa_objective_best {k u : ℝ} (hu : 0 ≤ u) {z : List ℝ} {s : Fin z.length → ℝ} {t : ℝ}
    (h : (saaProgram k u z).Feasible (t, s)) : avgCost k u z t ≤ (saaProgram k u z).objective (t, s) := by
  rw [avgCost_fin, saa_objective]
  apply div_le_div_of_nonneg_right _ (Nat.cast_nonneg _)
  apply Finset.sum_le_sum
  intro i _
  rw [newsvendor_max hu]
  exact max_le (saa_feasible.1 h i).1 (saa_feasible.1 h i).2

theorem saa_best_feasible {k u : ℝ} (hu : 0 ≤ u) {z : List ℝ} (t : ℝ) :
    (saaProgram k u z).Feasible (t, fun i => newsvendor k u t z[i]) := by
  refine saa_feasible.2 fun i => ?_
  rw [newsvendor_max hu]
  exact ⟨le_max_left _ _, le_max_right _ _⟩

theorem saa_best_objective (k u : ℝ) (z : List ℝ) (t : ℝ) :
    (saaProgram k u z).objective (t, fun i => newsvendor k u t z[i]) = avgCost k u z t := by
  rw [avgCost_fin, saa_objective]

/-- beyond the largest demand more stock only costs more -/
theorem avgCost_mono_right {k u : ℝ} (hk : 0 ≤ k) {z : List ℝ} {M : ℝ} (hM : ∀ x ∈ z, x ≤ M) {t : ℝ} (ht : M ≤ t) :
    avgCost k u z M ≤ avgCost k u z t := by
  rw [avgCost_fin, avgCost_fin]
  apply div_le_div_of_nonneg_right _ (Nat.cast_nonneg _)
  apply Finset.sum_le_sum
  intro i _
  have hi := hM z[i] (List.getElem_mem _)
  unfold newsvendor
  rw [min_eq_right hi, min_eq_right (hi.trans ht)]
  nlinarith

/-- below the smallest demand less stock only costs more when selling pays -/
theorem avgCost_mono_left {k u : ℝ} (hku : k ≤ u) {z : List ℝ} {L : ℝ} (hL : ∀ x ∈ z, L ≤ x) {t : ℝ} (ht : t ≤ L) :
    avgCost k u z L ≤ avgCost k u z t := by
  rw [avgCost_fin, avgCost_fin]
  apply div_le_div_of_nonneg_right _ (Nat.cast_nonneg _)
  apply Finset.sum_le_sum
  intro i _
  have hi := hL z[i] (List.getElem_mem _)
  unfold newsvendor
  rw [min_eq_left hi, min_eq_left (ht.trans hi)]
  nlinarith

theorem exists_bound (z : List ℝ) : ∃ M : ℝ, 0 ≤ M ∧ ∀ x ∈ z, x ≤ M ∧ -M ≤ x := by
  induction z with
  | nil => exact ⟨0, le_refl _, by simp⟩
  | cons a z ih =>
    obtain ⟨M, h0, h⟩ := ih
    refine ⟨max M |a|, le_max_of_le_left h0, ?_⟩
    intro x hx
    rcases List.mem_cons.1 hx with rfl | hx
    · exact ⟨(le_abs_self _).trans (le_max_right _ _), by
        have := neg_abs_le x; have := le_max_right M |x|; linarith⟩
    · obtain ⟨h1, h2⟩ := h x hx
      exact ⟨h1.trans (le_max_left _ _), by have := le_max_left M |a|; linarith⟩

theorem avgCost_has_min_nonneg {k : ℝ} (u : ℝ) (hk : 0 ≤ k) (z : List ℝ) :
    ∃ t, 0 ≤ t ∧ ∀ t', 0 ≤ t' → avgCost k u z t ≤ avgCost k u z t' := by
  obtain ⟨M, hM0, hM⟩ := exists_bound z
  obtain ⟨t, ht, hmin⟩ := isCompact_Icc.exists_isMinOn (Set.nonempty_Icc.2 hM0) (avgCost_continuous k u z).continuousOn
  refine ⟨t, ht.1, fun t' h0 => ?_⟩
  rcases le_total t' M with h | h
  · exact hmin ⟨h0, h⟩
  · exact (hmin ⟨hM0, le_refl _⟩).trans (avgCost_mono_right hk (fun x hx => (hM x hx).1) h)

theorem avgCost_has_min {k u : ℝ} (hk : 0 ≤ k) (hku : k ≤ u) (z : List ℝ) :
    ∃ t, ∀ t', avgCost k u z t ≤ avgCost k u z t' := by
  obtain ⟨M, hM0, hM⟩ := exists_bound z
  have hne : (-M) ≤ M := by linarith
  obtain ⟨t, ht, hmin⟩ := isCompact_Icc.exists_isMinOn (Set.nonempty_Icc.2 hne) (avgCost_continuous k u z).continuousOn
  refine ⟨t, fun t' => ?_⟩
  rcases le_total t' M with h | h
  · rcases le_total (-M) t' with h' | h'
    · exact hmin ⟨h', h⟩
    · exact (hmin ⟨le_refl _, hne⟩).trans (avgCost_mono_left hku (fun x hx => (hM x hx).2) h')
  · exact (hmin ⟨hne, le_refl _⟩).trans (avgCost_mono_right hk (fun x hx => (hM x hx).1) h)

end Skwdro
