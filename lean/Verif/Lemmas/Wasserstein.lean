import Verif.Spec.Wasserstein
import Mathlib.MeasureTheory.Integral.Bochner.SumMeasure
import Mathlib.MeasureTheory.Integral.Bochner.Set

/-! Dual certificates and finite transport plans. -/

namespace Skwdro
open Spec MeasureTheory

section
variable {E : Type} [MeasurableSpace E] {n : ℕ} {z : Fin n → E} {cost : E → E → ℝ} {rho : ℝ} {Q : Measure E}

theorem integral_fst {π : Measure (Fin n × E)} [IsProbabilityMeasure π] (h : ∀ i, π.real {p | p.1 = i} = 1 / n) (s : Fin n → ℝ) :
    Integrable (fun p : Fin n × E => s p.1) π ∧ ∫ p, s p.1 ∂π = avg s := by
  have hm : Measurable (Prod.fst : Fin n × E → Fin n) := measurable_fst
  have hs : ∀ μ : Measure (Fin n), AEStronglyMeasurable s μ := fun μ => (measurable_of_finite s).aestronglyMeasurable
  have : IsProbabilityMeasure (π.map Prod.fst) := Measure.isProbabilityMeasure_map hm.aemeasurable
  have hint : Integrable s (π.map Prod.fst) := Integrable.of_finite
  refine ⟨(integrable_map_measure (hs _) hm.aemeasurable).1 hint, ?_⟩
  have := integral_map (μ := π) hm.aemeasurable (hs _)
  rw [← this, integral_fintype hint]
  unfold avg
  rw [Finset.sum_div]
  apply Finset.sum_congr rfl
  intro i _
  have : (π.map Prod.fst).real {i} = 1 / n := by
    rw [map_measureReal_apply hm (measurableSet_singleton i)]
    exact h i
  rw [this, smul_eq_mul]; ring

/-- A dual certificate bounds the expected loss over the ball. -/
theorem ball_bound (hQ : InBall z cost rho Q) {l : E → ℝ} {s : Fin n → ℝ} {lam : ℝ} (hl : 0 ≤ lam) (S : E → Prop)
    (hS : ∀ᵐ x ∂Q, S x) (hint : Integrable l Q) (hb : ∀ i x, S x → l x ≤ s i + lam * cost (z i) x) :
    ∫ x, l x ∂Q ≤ lam * rho + avg s := by
  obtain ⟨π, hp, hmarg, rfl, hci, hc⟩ := hQ
  have hm : Measurable (Prod.snd : Fin n × E → E) := measurable_snd
  rw [integral_map hm.aemeasurable hint.aestronglyMeasurable]
  have hint' : Integrable (fun p : Fin n × E => l p.2) π :=
    (integrable_map_measure hint.aestronglyMeasurable hm.aemeasurable).1 hint
  obtain ⟨hsi, hs⟩ := integral_fst hmarg s
  have hS' : ∀ᵐ p ∂π, S p.2 := ae_of_ae_map hm.aemeasurable hS
  calc ∫ p, l p.2 ∂π ≤ ∫ p, (s p.1 + lam * cost (z p.1) p.2) ∂π := by
        apply integral_mono_ae hint' (hsi.add (hci.const_mul lam))
        filter_upwards [hS'] with p hp
        exact hb p.1 p.2 hp
    _ = avg s + lam * ∫ p, cost (z p.1) p.2 ∂π := by
        rw [integral_add hsi (hci.const_mul lam), hs, integral_const_mul]
    _ ≤ lam * rho + avg s := by
        have := mul_le_mul_of_nonneg_left hc hl
        linarith

/-- A loss growing at most like the cost is integrable over the ball. -/
theorem ball_integrable (hQ : InBall z cost rho Q) {l : E → ℝ} (hl : Measurable l) {s : Fin n → ℝ} {lam : ℝ} (S : E → Prop)
    (hS : ∀ᵐ x ∂Q, S x) (hb : ∀ i x, S x → |l x| ≤ s i + lam * cost (z i) x) : Integrable l Q := by
  obtain ⟨π, hp, hmarg, rfl, hci, hc⟩ := hQ
  have hm : Measurable (Prod.snd : Fin n × E → E) := measurable_snd
  rw [integrable_map_measure hl.aestronglyMeasurable hm.aemeasurable]
  obtain ⟨hsi, hs⟩ := integral_fst hmarg s
  have hS' : ∀ᵐ p ∂π, S p.2 := ae_of_ae_map hm.aemeasurable hS
  refine Integrable.mono' (hsi.add (hci.const_mul lam)) (hl.comp hm).aestronglyMeasurable ?_
  filter_upwards [hS'] with p hp
  exact hb p.1 p.2 hp

/-- The same on a plan, with a bound depending on the pair of an index and a destination. -/
theorem plan_bound {π : Measure (Fin n × E)} [IsProbabilityMeasure π] (hmarg : ∀ i, π.real {p | p.1 = i} = 1 / n)
    {c : Fin n × E → ℝ} (hci : Integrable c π) (hc : ∫ p, c p ∂π ≤ rho) {l : E → ℝ} (hlm : Measurable l) (hl0 : ∀ x, 0 ≤ l x)
    {s : Fin n → ℝ} {lam : ℝ} (hl : 0 ≤ lam) (hb : ∀ᵐ p ∂π, l p.2 ≤ s p.1 + lam * c p) :
    Integrable l (π.map Prod.snd) ∧ ∫ x, l x ∂(π.map Prod.snd) ≤ lam * rho + avg s := by
  have hm : Measurable (Prod.snd : Fin n × E → E) := measurable_snd
  obtain ⟨hsi, hs⟩ := integral_fst hmarg s
  have hint' : Integrable (fun p : Fin n × E => l p.2) π := by
    refine Integrable.mono' (hsi.add (hci.const_mul lam)) (hlm.comp hm).aestronglyMeasurable ?_
    filter_upwards [hb] with p hp
    rw [Real.norm_eq_abs, abs_of_nonneg (hl0 _)]
    exact hp
  refine ⟨(integrable_map_measure hlm.aestronglyMeasurable hm.aemeasurable).2 hint', ?_⟩
  rw [integral_map hm.aemeasurable hlm.aestronglyMeasurable]
  calc ∫ p, l p.2 ∂π ≤ ∫ p, (s p.1 + lam * c p) ∂π :=
        integral_mono_ae hint' (hsi.add (hci.const_mul lam)) hb
    _ = avg s + lam * ∫ p, c p ∂π := by
        rw [integral_add hsi (hci.const_mul lam), hs, integral_const_mul]
    _ ≤ lam * rho + avg s := by
        have := mul_le_mul_of_nonneg_left hc hl
        linarith

/-- the law of an index and a destination given by finitely many weights -/
noncomputable def finPlan {m : ℕ} (w : Fin n → Fin m → ℝ) (dest : Fin n → Fin m → E) : Measure (Fin n × E) :=
  ∑ i, ∑ j, ENNReal.ofReal (w i j) • Measure.dirac (i, dest i j)

theorem finPlan_integral [MeasurableSingletonClass E] {m : ℕ} {w : Fin n → Fin m → ℝ} (hw : ∀ i j, 0 ≤ w i j)
    (dest : Fin n → Fin m → E) (g : Fin n × E → ℝ) :
    Integrable g (finPlan w dest) ∧ ∫ p, g p ∂(finPlan w dest) = ∑ i, ∑ j, w i j * g (i, dest i j) := by
  have h1 : ∀ i j, Integrable g (ENNReal.ofReal (w i j) • Measure.dirac (i, dest i j)) := fun i j =>
    Integrable.smul_measure (integrable_dirac (by simp)) ENNReal.ofReal_ne_top
  have h2 : ∀ i, Integrable g (∑ j, ENNReal.ofReal (w i j) • Measure.dirac (i, dest i j)) := fun i =>
    integrable_finsetSum_measure.2 fun j _ => h1 i j
  refine ⟨integrable_finsetSum_measure.2 fun i _ => h2 i, ?_⟩
  unfold finPlan
  rw [integral_finsetSum_measure fun i _ => h2 i]
  apply Finset.sum_congr rfl
  intro i _
  rw [integral_finsetSum_measure fun j _ => h1 i j]
  apply Finset.sum_congr rfl
  intro j _
  rw [integral_smul_measure, integral_dirac, ENNReal.toReal_ofReal (hw i j), smul_eq_mul]

theorem finPlan_marginal [MeasurableSingletonClass E] {m : ℕ} {w : Fin n → Fin m → ℝ} (hn : 0 < n) (hw : ∀ i j, 0 ≤ w i j)
    (hsum : ∀ i, ∑ j, w i j = 1 / n) (dest : Fin n → Fin m → E) :
    IsProbabilityMeasure (finPlan w dest) ∧ ∀ i, (finPlan w dest).real {p | p.1 = i} = 1 / n := by
  have hn' : (n : ℝ) ≠ 0 := by positivity
  have hmass : ∀ A : Set (Fin n × E), MeasurableSet A →
      (finPlan w dest).real A = ∑ i, ∑ j, w i j * A.indicator 1 (i, dest i j) := by
    intro A hA
    rw [← (finPlan_integral hw dest (A.indicator 1)).2, integral_indicator_one hA]
  refine ⟨⟨?_⟩, ?_⟩
  · have huniv := hmass Set.univ MeasurableSet.univ
    have htot : ∑ i : Fin n, ∑ j, w i j * (Set.univ : Set (Fin n × E)).indicator 1 (i, dest i j) = 1 := by
      simp only [Set.indicator_univ, Pi.one_apply, mul_one, hsum, Finset.sum_const, Finset.card_univ, Fintype.card_fin,
        nsmul_eq_mul]
      field_simp
    rw [htot] at huniv
    rw [Measure.real, ENNReal.toReal_eq_one_iff] at huniv
    exact huniv
  · intro i
    have hA : MeasurableSet {p : Fin n × E | p.1 = i} := measurable_fst (measurableSet_singleton i)
    rw [hmass _ hA, Finset.sum_eq_single i]
    · simp [hsum]
    · intro i' _ hne
      apply Finset.sum_eq_zero
      intro j _
      simp [hne]
    · simp

theorem finPlan_inBall [MeasurableSingletonClass E] {m : ℕ} {w : Fin n → Fin m → ℝ} (hn : 0 < n) (hw : ∀ i j, 0 ≤ w i j)
    (hsum : ∀ i, ∑ j, w i j = 1 / n) (dest : Fin n → Fin m → E)
    (hc : ∑ i, ∑ j, w i j * cost (z i) (dest i j) ≤ rho) :
    InBall z cost rho ((finPlan w dest).map Prod.snd) := by
  obtain ⟨h1, h2⟩ := finPlan_marginal hn hw hsum dest
  refine ⟨finPlan w dest, h1, h2, rfl, (finPlan_integral hw dest _).1, ?_⟩
  rw [(finPlan_integral hw dest _).2]
  exact hc

theorem finPlan_ae {m : ℕ} {w : Fin n → Fin m → ℝ} (dest : Fin n → Fin m → E) {S : Fin n × E → Prop}
    (hS : MeasurableSet {x | S x}) (h : ∀ i j, S (i, dest i j)) : ∀ᵐ p ∂(finPlan w dest), S p := by
  unfold finPlan
  rw [ae_iff]
  simp only [Measure.coe_finsetSum, Finset.sum_apply, Measure.smul_apply, smul_eq_mul]
  apply Finset.sum_eq_zero
  intro i _
  apply Finset.sum_eq_zero
  intro j _
  have hm : MeasurableSet {a : Fin n × E | ¬ S a} := hS.compl
  rw [Measure.dirac_apply' _ hm]
  simp [h i j]

theorem finPlan_snd_integral [MeasurableSingletonClass E] {m : ℕ} {w : Fin n → Fin m → ℝ} (hw : ∀ i j, 0 ≤ w i j)
    (dest : Fin n → Fin m → E) {g : E → ℝ} (hg : Measurable g) :
    ∫ x, g x ∂((finPlan w dest).map Prod.snd) = ∑ i, ∑ j, w i j * g (dest i j) := by
  rw [integral_map measurable_snd.aemeasurable hg.aestronglyMeasurable]
  exact (finPlan_integral hw dest fun p => g p.2).2

theorem finPlan_snd_ae {m : ℕ} {w : Fin n → Fin m → ℝ} (dest : Fin n → Fin m → E) {S : E → Prop} (hS : MeasurableSet {x | S x})
    (h : ∀ i j, S (dest i j)) : ∀ᵐ x ∂((finPlan w dest).map Prod.snd), S x := by
  rw [ae_map_iff measurable_snd.aemeasurable hS]
  unfold finPlan
  rw [ae_iff]
  simp only [Measure.coe_finsetSum, Finset.sum_apply, Measure.smul_apply, smul_eq_mul]
  apply Finset.sum_eq_zero
  intro i _
  apply Finset.sum_eq_zero
  intro j _
  have hm : MeasurableSet {a : Fin n × E | ¬ S a.2} := measurable_snd hS.compl
  rw [Measure.dirac_apply' _ hm]
  simp [h i j]

end

end Skwdro
