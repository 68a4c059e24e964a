import Verif.Lemmas.Duality
import Verif.Props.SmallTemperature

/-!
# Small temperatures, uniformly in the multiplier
-/

namespace Skwdro
open Spec MeasureTheory Filter
open scoped Topology

section
variable {E : Type} [TopologicalSpace E] [MeasurableSpace E] [OpensMeasurableSpace E] {n : ℕ} {c l : Fin n → E → ℝ} {nu : Fin n → Measure E}

theorem log_integral_ge {μ : Measure E} [IsProbabilityMeasure μ] {f : E → ℝ} {A : Set E} (hA : MeasurableSet A) (h0 : 0 < μ.real A) {b : ℝ}
    (hb : ∀ x ∈ A, b ≤ f x) {eps : ℝ} (he : 0 < eps) (hi : Integrable (fun x => Real.exp (f x / eps)) μ) :
    b + eps * Real.log (μ.real A) ≤ eps * Real.log (∫ x, Real.exp (f x / eps) ∂μ) := by
  have h1 : μ.real A * Real.exp (b / eps) ≤ ∫ x, Real.exp (f x / eps) ∂μ := by
    calc μ.real A * Real.exp (b / eps) = ∫ _ in A, Real.exp (b / eps) ∂μ := by simp
      _ ≤ ∫ x in A, Real.exp (f x / eps) ∂μ := setIntegral_mono_on (integrable_const _).integrableOn hi.integrableOn hA fun x hx =>
          Real.exp_le_exp.2 (div_le_div_of_nonneg_right (hb x hx) he.le)
      _ ≤ _ := setIntegral_le_integral hi (Eventually.of_forall fun x => (Real.exp_pos _).le)
  have h2 := Real.log_le_log (mul_pos h0 (Real.exp_pos _)) h1
  rw [Real.log_mul h0.ne' (Real.exp_pos _).ne', Real.log_exp] at h2
  have h3 := mul_le_mul_of_nonneg_left h2 he.le
  rw [mul_add, mul_div_cancel₀ _ he.ne'] at h3
  linarith

/-- the objective is not much below what the data gains by moving to fixed destinations -/
theorem destinations_ge [∀ i, IsProbabilityMeasure (nu i)] [∀ i, (nu i).IsOpenPosMeasure] (hl : ∀ i, Continuous (l i)) (hc : ∀ i, Continuous (c i))
    (z : Fin n → E) {η : ℝ} (hη : 0 < η) : ∃ K : ℝ, 0 ≤ K ∧ ∀ eps lam : ℝ, 0 < eps → 0 ≤ lam →
      (∀ i, Integrable (fun e => Real.exp ((l i e - lam * c i e) / eps)) (nu i)) →
      avg (fun i => l i (z i) - lam * c i (z i) - η * (1 + lam)) - eps * K ≤
        avg fun i => eps * Real.log (∫ e, Real.exp ((l i e - lam * c i e) / eps) ∂(nu i)) := by
  set A : Fin n → Set E := fun i => {e | l i (z i) - η < l i e} ∩ {e | c i e < c i (z i) + η} with hA
  have hopen : ∀ i, IsOpen (A i) := fun i => (isOpen_lt continuous_const (hl i)).inter (isOpen_lt (hc i) continuous_const)
  have hpos : ∀ i, 0 < (nu i).real (A i) := fun i =>
    ENNReal.toReal_pos ((hopen i).measure_pos (nu i) ⟨z i, by simp [hA, hη]⟩).ne' (measure_ne_top _ _)
  refine ⟨avg fun i => -Real.log ((nu i).real (A i)), ?_, fun eps lam he hlam hi => ?_⟩
  · refine div_nonneg (Finset.sum_nonneg fun i _ => ?_) n.cast_nonneg
    exact neg_nonneg.2 (Real.log_nonpos (hpos i).le measureReal_le_one)
  · have h1 : avg (fun i => l i (z i) - lam * c i (z i) - η * (1 + lam)) - eps * avg (fun i => -Real.log ((nu i).real (A i))) =
        avg fun i => (l i (z i) - lam * c i (z i) - η * (1 + lam)) + eps * Real.log ((nu i).real (A i)) := by
      simp only [avg, Finset.sum_add_distrib, Finset.sum_neg_distrib, ← Finset.mul_sum]
      ring
    rw [h1]
    refine avg_mono fun i => log_integral_ge (hopen i).measurableSet (hpos i) (fun e he' => ?_) he (hi i)
    have h2 : l i (z i) - η < l i e := he'.1
    have h3 : c i e < c i (z i) + η := he'.2
    have h4 := mul_le_mul_of_nonneg_left h3.le hlam
    linarith

/-- some destinations gain nearly as much as any plan -/
theorem destinations_exist [MeasurableSingletonClass E] (hn : 0 < n) {r V : ℝ} (hV : IsLUB (PlanLosses c l r) V) (x : Fin n → E) {lam : ℝ} (hlam : 0 ≤ lam)
    {δ : ℝ} (hδ : 0 < δ) : ∃ z : Fin n → E, V - δ < lam * r + avg fun i => l i (z i) - lam * c i (z i) := by
  have hnR : (0 : ℝ) < n := by exact_mod_cast hn
  by_contra hcon
  push Not at hcon
  -- each coordinate is bounded
  have hbd : ∀ i, BddAbove (Set.range fun e => l i e - lam * c i e) := by
    intro i
    refine ⟨n * (V - δ - lam * r) - ∑ j ∈ Finset.univ.erase i, (l j (x j) - lam * c j (x j)), ?_⟩
    rintro _ ⟨e, rfl⟩
    have h1 := hcon (Function.update x i e)
    have h1' : avg (fun j => l j (Function.update x i e j) - lam * c j (Function.update x i e j)) ≤ V - δ - lam * r := by linarith
    unfold avg at h1'
    rw [div_le_iff₀ hnR, ← Finset.add_sum_erase _ _ (Finset.mem_univ i)] at h1'
    have h2 : ∑ j ∈ Finset.univ.erase i, (l j (Function.update x i e j) - lam * c j (Function.update x i e j)) =
        ∑ j ∈ Finset.univ.erase i, (l j (x j) - lam * c j (x j)) := by
      refine Finset.sum_congr rfl fun j hj => ?_
      rw [Function.update_of_ne (Finset.ne_of_mem_erase hj)]
    rw [h2, Function.update_self] at h1'
    dsimp only
    linarith
  have h1 := hV.2 fun v hv => planLosses_le hlam (fun i e => le_csSup (hbd i) ⟨e, rfl⟩) hv
  have h2 : ∀ i, ∃ e, sSup (Set.range fun e => l i e - lam * c i e) - δ / 2 < l i e - lam * c i e := fun i => by
    obtain ⟨_, ⟨e, rfl⟩, he⟩ := exists_lt_of_lt_csSup (⟨_, ⟨x i, rfl⟩⟩ : (Set.range fun e => l i e - lam * c i e).Nonempty)
      (show sSup (Set.range fun e => l i e - lam * c i e) - δ / 2 < sSup (Set.range fun e => l i e - lam * c i e) by linarith)
    exact ⟨e, he⟩
  choose z hz using h2
  have h3 := avg_mono fun i => (hz i).le
  have h4 : avg (fun i => sSup (Set.range fun e => l i e - lam * c i e) - δ / 2) = avg (fun i => sSup (Set.range fun e => l i e - lam * c i e)) - δ / 2 := by
    simp only [avg, Finset.sum_sub_distrib, Finset.sum_const, Finset.card_univ, Fintype.card_fin, nsmul_eq_mul]
    field_simp
  have h5 := hcon z
  rw [h4] at h3
  linarith

/-- at small temperatures the objective is not much below the worst case, whatever the multiplier -/
theorem uniform_temperature [MeasurableSingletonClass E] (hn : 0 < n) [∀ i, IsProbabilityMeasure (nu i)] [∀ i, (nu i).IsOpenPosMeasure]
    (hl : ∀ i, Continuous (l i)) (hc : ∀ i, Continuous (c i)) (x : Fin n → E) (hx : ∀ i, c i (x i) = 0) {r V : ℝ} (hr : 0 < r)
    (hV : IsLUB (PlanLosses c l r) V) {δ : ℝ} (hδ : 0 < δ) :
    ∃ e0 > 0, ∀ eps lam : ℝ, 0 < eps → eps ≤ e0 → 0 ≤ lam → (∀ i, Integrable (fun e => Real.exp ((l i e - lam * c i e) / eps)) (nu i)) →
      V - δ ≤ lam * r + avg fun i => eps * Real.log (∫ e, Real.exp ((l i e - lam * c i e) / eps) ∂(nu i)) := by
  have hnR : (0 : ℝ) < n := by exact_mod_cast hn
  have hconst : ∀ (f : Fin n → ℝ) (b : ℝ), avg (fun i => f i - b) = avg f - b := by
    intro f b
    simp only [avg, Finset.sum_sub_distrib, Finset.sum_const, Finset.card_univ, Fintype.card_fin, nsmul_eq_mul]
    field_simp
  have hlin : ∀ (z : Fin n → E) (lam : ℝ), avg (fun i => l i (z i) - lam * c i (z i)) = avg (fun i => l i (z i)) - lam * avg fun i => c i (z i) := by
    intro z lam
    simp only [avg, Finset.sum_sub_distrib, ← Finset.mul_sum]
    ring
  -- large multipliers: the data stays in place
  obtain ⟨K0, hK0, h0⟩ := destinations_ge (nu := nu) hl hc x (half_pos hr)
  set B : ℝ := V - avg (fun i => l i (x i)) + r / 2 + K0 with hB
  set L : ℝ := max (2 * B / r) 0 with hL
  have hL0 : 0 ≤ L := le_max_right _ _
  have hbig : ∀ eps lam : ℝ, 0 < eps → eps ≤ 1 → L ≤ lam → (∀ i, Integrable (fun e => Real.exp ((l i e - lam * c i e) / eps)) (nu i)) →
      V ≤ lam * r + avg fun i => eps * Real.log (∫ e, Real.exp ((l i e - lam * c i e) / eps) ∂(nu i)) := by
    intro eps lam he he1 hle hi
    have h1 := h0 eps lam he (hL0.trans hle) hi
    rw [hconst, hlin] at h1
    have hz : avg (fun i => c i (x i)) = 0 := by simp [hx, avg]
    rw [hz] at h1
    have h2 : 2 * B / r ≤ lam := (le_max_left _ _).trans hle
    rw [div_le_iff₀ hr] at h2
    have h3 := mul_le_mul_of_nonneg_right he1 hK0
    linarith
  -- the others form a compact set
  have hsmall : ∃ e0 > 0, ∀ lam ∈ Set.Icc 0 L, ∀ eps : ℝ, 0 < eps → eps ≤ e0 →
      (∀ i, Integrable (fun e => Real.exp ((l i e - lam * c i e) / eps)) (nu i)) →
      V - δ ≤ lam * r + avg fun i => eps * Real.log (∫ e, Real.exp ((l i e - lam * c i e) / eps) ∂(nu i)) := by
    refine (isCompact_Icc (a := (0 : ℝ)) (b := L)).induction_on (p := fun s => ∃ e0 > 0, ∀ lam ∈ s, ∀ eps : ℝ, 0 < eps → eps ≤ e0 →
      (∀ i, Integrable (fun e => Real.exp ((l i e - lam * c i e) / eps)) (nu i)) →
      V - δ ≤ lam * r + avg fun i => eps * Real.log (∫ e, Real.exp ((l i e - lam * c i e) / eps) ∂(nu i)))
      ⟨1, one_pos, fun lam h => h.elim⟩ ?_ ?_ ?_
    · rintro s t hst ⟨e0, he0, h⟩
      exact ⟨e0, he0, fun lam hlam => h lam (hst hlam)⟩
    · rintro s t ⟨e0, he0, h⟩ ⟨e1, he1, h'⟩
      refine ⟨min e0 e1, lt_min he0 he1, fun lam hlam eps he hle => ?_⟩
      rcases hlam with hlam | hlam
      · exact h lam hlam eps he (hle.trans (min_le_left _ _))
      · exact h' lam hlam eps he (hle.trans (min_le_right _ _))
    · intro lam0 hlam0
      obtain ⟨z, hz⟩ := destinations_exist hn hV x hlam0.1 (δ := δ / 4) (by linarith)
      have hη : 0 < δ / (4 * (1 + L)) := by positivity
      obtain ⟨K, hK, hd⟩ := destinations_ge (nu := nu) hl hc z hη
      have hcont : Continuous fun lam : ℝ => lam * r + avg fun i => l i (z i) - lam * c i (z i) := by
        simp only [hlin]
        fun_prop
      have hnear : ∀ᶠ lam in 𝓝 lam0, V - δ / 4 < lam * r + avg fun i => l i (z i) - lam * c i (z i) :=
        hcont.continuousAt.eventually (lt_mem_nhds hz)
      refine ⟨{lam | V - δ / 4 < lam * r + avg fun i => l i (z i) - lam * c i (z i)} ∩ Set.Icc 0 L,
        Filter.inter_mem (nhdsWithin_le_nhds hnear) self_mem_nhdsWithin, δ / (4 * (K + 1)), by positivity, ?_⟩
      rintro lam ⟨h1, h2⟩ eps he hle hi
      have h1' : V - δ / 4 < lam * r + avg fun i => l i (z i) - lam * c i (z i) := h1
      have h3 := hd eps lam he h2.1 hi
      rw [hconst] at h3
      have h4 : δ / (4 * (1 + L)) * (1 + lam) ≤ δ / 4 := by
        rw [div_mul_eq_mul_div, div_le_div_iff₀ (by positivity) (by norm_num)]
        have := mul_le_mul_of_nonneg_left h2.2 hδ.le
        linarith
      have h5 : eps * K ≤ δ / 4 := by
        calc eps * K ≤ δ / (4 * (K + 1)) * (K + 1) := mul_le_mul hle (by linarith) hK (by positivity)
          _ = δ / 4 := by field_simp
      linarith
  obtain ⟨e0, he0, hs⟩ := hsmall
  refine ⟨min e0 1, lt_min he0 one_pos, fun eps lam he hle hlam hi => ?_⟩
  rcases le_total lam L with h | h
  · exact hs lam ⟨hlam, h⟩ eps he (hle.trans (min_le_left _ _)) hi
  · have := hbig eps lam he (hle.trans (min_le_right _ _)) h hi
    linarith

end

end Skwdro
