import Mathlib.MeasureTheory.Measure.WithDensity
import Mathlib.MeasureTheory.Integral.Bochner.ContinuousLinearMap
import Mathlib.MeasureTheory.Function.L1Space.Integrable
import Mathlib.MeasureTheory.Measure.WithDensityFinite
import Mathlib.MeasureTheory.Integral.Bochner.Set
import Mathlib.MeasureTheory.Measure.Typeclasses.Probability

/-! Plans sending each point to one of finitely many destinations, with probabilities depending on the point. -/

namespace Skwdro
open MeasureTheory

variable {A : Type} [MeasurableSpace A] {m : ℕ} {nu : Measure A} {c : Fin m → A → ℝ} {T : Fin m → A → A}

/-- joint law of a point of law `nu` and of its destination, `T k` with probability `c k` -/
noncomputable def mixPlan (nu : Measure A) (c : Fin m → A → ℝ) (T : Fin m → A → A) : Measure (A × A) :=
  ∑ k, (nu.withDensity fun z => ENNReal.ofReal (c k z)).map fun z => (z, T k z)

theorem mixPlan_fst (hc : ∀ k, Measurable (c k)) (h0 : ∀ k z, 0 ≤ c k z) (h1 : ∀ z, ∑ k, c k z = 1) (hT : ∀ k, Measurable (T k)) :
    (mixPlan nu c T).map Prod.fst = nu := by
  ext s hs
  have hm : ∀ k, Measurable fun z => ENNReal.ofReal (c k z) := fun k => (hc k).ennreal_ofReal
  rw [Measure.map_apply measurable_fst hs]
  unfold mixPlan
  rw [Measure.finsetSum_apply]
  have : ∀ k, ((nu.withDensity fun z => ENNReal.ofReal (c k z)).map fun z => (z, T k z)) (Prod.fst ⁻¹' s) = ∫⁻ z in s, ENNReal.ofReal (c k z) ∂nu := by
    intro k
    have hp : Measurable fun z => (z, T k z) := measurable_id.prodMk (hT k)
    rw [Measure.map_apply hp (measurable_fst hs)]
    exact withDensity_apply _ hs
  simp only [this]
  rw [← lintegral_finsetSum _ fun k _ => hm k]
  have : ∀ z, ∑ k, ENNReal.ofReal (c k z) = 1 := by
    intro z
    rw [← ENNReal.ofReal_sum_of_nonneg fun k _ => h0 k z, h1, ENNReal.ofReal_one]
  simp [this]

theorem mixPlan_integral (hc : ∀ k, Measurable (c k)) (h0 : ∀ k z, 0 ≤ c k z) (hT : ∀ k, Measurable (T k)) {F : A × A → ℝ} (hF : Measurable F)
    (hi : ∀ k, Integrable (fun z => c k z * F (z, T k z)) nu) :
    Integrable F (mixPlan nu c T) ∧ ∫ p, F p ∂(mixPlan nu c T) = ∑ k, ∫ z, c k z * F (z, T k z) ∂nu := by
  have hm : ∀ k, Measurable fun z => ENNReal.ofReal (c k z) := fun k => (hc k).ennreal_ofReal
  have hp : ∀ k, Measurable fun z => (z, T k z) := fun k => measurable_id.prodMk (hT k)
  have hk : ∀ k, Integrable F ((nu.withDensity fun z => ENNReal.ofReal (c k z)).map fun z => (z, T k z)) := by
    intro k
    rw [integrable_map_measure hF.aestronglyMeasurable (hp k).aemeasurable,
      integrable_withDensity_iff_integrable_smul' (hm k) (ae_of_all _ fun _ => ENNReal.ofReal_lt_top)]
    simpa only [ENNReal.toReal_ofReal (h0 k _), smul_eq_mul, Function.comp] using hi k
  unfold mixPlan
  refine ⟨integrable_finsetSum_measure.2 fun k _ => hk k, ?_⟩
  rw [integral_finsetSum_measure fun k _ => hk k]
  refine Finset.sum_congr rfl fun k _ => ?_
  rw [integral_map (hp k).aemeasurable hF.aestronglyMeasurable, integral_withDensity_eq_integral_toReal_smul (hm k) (ae_of_all _ fun _ => ENNReal.ofReal_lt_top)]
  simp only [ENNReal.toReal_ofReal (h0 k _), smul_eq_mul]

theorem mixPlan_ae (hT : ∀ k, Measurable (T k)) {p : A × A → Prop} (hp : MeasurableSet {x | p x}) (h : ∀ k, ∀ᵐ z ∂nu, p (z, T k z)) :
    ∀ᵐ x ∂(mixPlan nu c T), p x := by
  rw [ae_iff]
  unfold mixPlan
  rw [Measure.finsetSum_apply]
  refine Finset.sum_eq_zero fun k _ => ?_
  have hq : Measurable fun z => (z, T k z) := measurable_id.prodMk (hT k)
  have hn : MeasurableSet {x | ¬p x} := hp.compl
  rw [Measure.map_apply hq hn]
  exact withDensity_absolutelyContinuous _ _ (ae_iff.1 (h k))

end Skwdro
