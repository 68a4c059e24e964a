import Verif.Props.Adversary
import Verif.Props.SampleBias
import Verif.Props.ImpConsistencyLabels

/-! Concrete cases meeting the hypotheses of the statistical theorems, where the theorem's own file has none: squared error of labels one above
the inputs, Euclidean cost on the inputs, two data points, standard normal noise. -/

namespace Skwdro
open Spec MeasureTheory ProbabilityTheory Topology InformationTheory Tensor

variable {G : Type} (ext : TorchExt G)

abbrev witEll : (Fin 1 → ℝ) → (Fin 1 → ℝ) → Fin 1 → ℝ := fun x y c => (x c - y c) ^ 2
noncomputable abbrev witYs : Fin 2 → Fin 1 → ℝ := fun i c => exX i c + 1

theorem witEll_loss (x y : Fin 1 → ℝ) : lossAt exW witEll x y = (x 0 - y 0) ^ 2 := by simp [lossAt, avg, ridge, exW]

theorem witEll_measurable : Measurable fun u : (Fin 1 → ℝ) × (Fin 1 → ℝ) => lossAt exW witEll u.1 u.2 := by
  simp only [witEll_loss]
  exact (((measurable_pi_apply 0).comp measurable_fst).sub ((measurable_pi_apply 0).comp measurable_snd)).pow_const 2

theorem witCost_measurable (i : Fin 2) : Measurable fun u : (Fin 1 → ℝ) × (Fin 1 → ℝ) => costAt exCons.cost (exX i) u.1 (witYs i) u.2 := by
  simp only [exCons_cost]
  exact (((measurable_pi_apply 0).comp measurable_fst).const_sub _).pow_const 2

/-- a sample around the data point `i` -/
noncomputable def witDraw (i : Fin 2) (t : ℝ) : (Fin 1 → ℝ) × (Fin 1 → ℝ) := (fun r => exX i r + t, witYs i)

theorem witDraw_measurable (i : Fin 2) : Measurable (witDraw i) := (measurable_pi_lambda _ fun _ => measurable_id.const_add _).prodMk measurable_const

/-- its law -/
noncomputable def witNu (i : Fin 2) : Measure ((Fin 1 → ℝ) × (Fin 1 → ℝ)) := (gaussianReal 0 1).map (witDraw i)

instance (i : Fin 2) : IsProbabilityMeasure (witNu i) := Measure.isProbabilityMeasure_map (witDraw_measurable i).aemeasurable

theorem wit_exponent (i : Fin 2) (t : ℝ) : (lossAt exW witEll (witDraw i t).1 (witDraw i t).2 -
    exCons.lam * costAt exCons.cost (exX i) (witDraw i t).1 (witYs i) (witDraw i t).2) / exCons.epsilon = 1 + -2 * t := by
  rw [witEll_loss, exCons_cost]
  simp only [witDraw, exCons, exD]
  ring

theorem wit_exp_integrable : Integrable (fun t : ℝ => Real.exp (1 + -2 * t)) (gaussianReal 0 1) := by
  simp only [Real.exp_add]
  exact (integrable_exp_mul_gaussianReal (-2)).const_mul _

theorem wit_exp_measurable (i : Fin 2) : Measurable fun u : (Fin 1 → ℝ) × (Fin 1 → ℝ) => Real.exp ((lossAt exW witEll u.1 u.2 -
    exCons.lam * costAt exCons.cost (exX i) u.1 (witYs i) u.2) / exCons.epsilon) :=
  Real.measurable_exp.comp ((witEll_measurable.sub ((witCost_measurable i).const_mul _)).div_const _)

theorem wit_integrable (i : Fin 2) : Integrable (fun u : (Fin 1 → ℝ) × (Fin 1 → ℝ) => Real.exp ((lossAt exW witEll u.1 u.2 -
    exCons.lam * costAt exCons.cost (exX i) u.1 (witYs i) u.2) / exCons.epsilon)) (witNu i) := by
  refine (integrable_map_measure (wit_exp_measurable i).aestronglyMeasurable (witDraw_measurable i).aemeasurable).2 ?_
  simpa only [Function.comp_def, wit_exponent] using wit_exp_integrable

theorem wit_law (j : ℕ) (i : Fin 2) : driftLaw.map (fun ω => witDraw i (ω j)) = witNu i := by
  have : driftLaw.map (fun ω => ω j) = gaussianReal 0 1 := Measure.infinitePi_map_eval _ j
  rw [witNu, ← this, Measure.map_map (witDraw_measurable i) (measurable_pi_apply j)]; rfl

theorem wit_indep (i : Fin 2) : Pairwise fun j j' => IndepFun (fun ω : ℕ → ℝ => witDraw i (ω j)) (fun ω => witDraw i (ω j')) driftLaw :=
  fun _ _ hj => ((iIndepFun_infinitePi (P := fun _ : ℕ => gaussianReal 0 1) (X := fun _ u => u) fun _ => measurable_id).indepFun hj).comp
    (witDraw_measurable i) (witDraw_measurable i)

/-! ## C96 -/

example := C96_almost_sure ext (X := exX) (Y := witYs) exCons_labelled rfl (by norm_num) (fun j i (ω : ℕ → ℝ) => witDraw i (ω j)) witNu
  (fun j i => (witDraw_measurable i).comp (measurable_pi_apply j)) wit_law wit_indep witEll_measurable wit_integrable

/-- all the data points displaced by the same noise -/
noncomputable def witKap : Measure (Fin 2 → (Fin 1 → ℝ) × (Fin 1 → ℝ)) := (gaussianReal 0 1).map fun t i => witDraw i t

theorem witKap_measurable : Measurable fun (t : ℝ) (i : Fin 2) => witDraw i t := measurable_pi_lambda _ witDraw_measurable

instance : IsProbabilityMeasure witKap := Measure.isProbabilityMeasure_map witKap_measurable.aemeasurable

theorem witKap_exp (i : Fin 2) : Integrable (fun u : Fin 2 → (Fin 1 → ℝ) × (Fin 1 → ℝ) => Real.exp ((lossAt exW witEll (u i).1 (u i).2 -
    exCons.lam * costAt exCons.cost (exX i) (u i).1 (witYs i) (u i).2) / exCons.epsilon)) witKap := by
  refine (integrable_map_measure ((wit_exp_measurable i).comp (measurable_pi_apply i)).aestronglyMeasurable witKap_measurable.aemeasurable).2 ?_
  simpa only [Function.comp_def, wit_exponent] using wit_exp_integrable

example (δ : ℝ) (hδ : 0 < δ) := C96_in_probability ext (X := exX) (Y := witYs) exCons_labelled rfl (by norm_num)
  (fun n => Measure.pi fun _ : Fin n => witKap) witKap (fun _ T => T) (fun _ => measurable_id) (fun _ => Measure.map_id) witEll_measurable witKap_exp hδ

/-! ## C97 -/

theorem witKap_lin (i : Fin 2) : Integrable (exponent exW exCons witEll exX witYs i) witKap := by
  refine (integrable_map_measure (exponent_measurable exCons_labelled witEll_measurable i).aestronglyMeasurable witKap_measurable.aemeasurable).2 ?_
  have : (exponent exW exCons witEll exX witYs i ∘ fun (t : ℝ) (i : Fin 2) => witDraw i t) = fun t => 1 + -2 * t := funext (wit_exponent i)
  rw [this]
  exact (integrable_const _).add (((memLp_id_gaussianReal 1).integrable (by simp)).const_mul _)

example := C97_underestimates ext exCons_labelled rfl (by norm_num) witKap witEll_measurable witKap_lin witKap_exp (n := 5) (by norm_num)

/-! ## C98 -/

theorem wit_quad (i : Fin 2) (t : ℝ) : lossAt exW witEll (witDraw i t).1 (witDraw i t).2 = t ^ 2 - 2 * t + 1 := by
  rw [witEll_loss]; simp only [witDraw]; ring

theorem wit_cost (i : Fin 2) (t : ℝ) : costAt exCons.cost (exX i) (witDraw i t).1 (witYs i) (witDraw i t).2 = t ^ 2 := by
  rw [exCons_cost]; simp only [witDraw]; ring

/-- the noise is itself an adversary: its mean squared size is the squared radius -/
theorem wit_adversary : Adversary (fun i z y => costAt exCons.cost (exX i) z (witYs i) y) (lossAt exW witEll) witNu witNu (1 ^ exCons.cost.power) := by
  refine ⟨fun i => inferInstance, fun i => by simp [klDiv_self], fun i => ?_, fun i => ?_, ?_⟩
  · refine (integrable_map_measure witEll_measurable.aestronglyMeasurable (witDraw_measurable i).aemeasurable).2 ?_
    simp only [Function.comp_def, wit_quad]
    exact (gaussian_sq_integrable.sub (((memLp_id_gaussianReal 1).integrable (by simp)).const_mul _)).add (integrable_const _)
  · refine (integrable_map_measure (witCost_measurable i).aestronglyMeasurable (witDraw_measurable i).aemeasurable).2 ?_
    simpa only [Function.comp_def, wit_cost] using gaussian_sq_integrable
  · have : ∀ i : Fin 2, ∫ u, costAt exCons.cost (exX i) u.1 (witYs i) u.2 ∂(witNu i) = 1 := by
      intro i
      rw [witNu, integral_map (witDraw_measurable i).aemeasurable (witCost_measurable i).aestronglyMeasurable]
      simpa only [wit_cost] using gaussian_sq
    simp [this, avg]

example (δ : ℝ) (hδ : 0 < δ) := C98_covers_adversaries ext (X := exX) (Y := witYs) exCons_labelled rfl (by norm_num) (by norm_num [exCons, exD])
  (fun j i (ω : ℕ → ℝ) => witDraw i (ω j)) witNu
  (fun j i => (witDraw_measurable i).comp (measurable_pi_apply j)) wit_law wit_indep witEll_measurable wit_integrable witNu wit_adversary hδ

theorem wit_moment (q : ℕ) : Integrable (fun t : ℝ => t ^ q * Real.exp (-2 * t)) (gaussianReal 0 1) := by
  have := integrable_pow_mul_exp_of_mem_interior_integrableExpSet (X := id) (μ := gaussianReal 0 1) (v := -2) (by simp) q
  simpa using this

example := C98_worst_case (X := exX) (Y := witYs) exCons_labelled witNu wit_integrable (Q := fun i => (witNu i).tilted fun u =>
    (lossAt exW witEll u.1 u.2 - exCons.lam * costAt exCons.cost (exX i) u.1 (witYs i) u.2) / exCons.epsilon) (fun _ => rfl)
  (fun i => by
    rw [integrable_tilted_iff (wit_integrable i)]
    refine (integrable_map_measure ((wit_exp_measurable i).smul witEll_measurable).aestronglyMeasurable (witDraw_measurable i).aemeasurable).2 ?_
    have := (((wit_moment 2).sub ((wit_moment 1).const_mul 2)).add (wit_moment 0)).const_mul (Real.exp 1)
    refine this.congr (.of_forall fun t => ?_)
    simp only [Function.comp, Pi.mul_apply, smul_eq_mul]
    rw [wit_exponent]
    simp only [wit_quad, Pi.add_apply, Pi.sub_apply, Real.exp_add]
    ring)
  (fun i => by
    rw [integrable_tilted_iff (wit_integrable i)]
    refine (integrable_map_measure ((wit_exp_measurable i).smul (witCost_measurable i)).aestronglyMeasurable (witDraw_measurable i).aemeasurable).2 ?_
    refine ((wit_moment 2).const_mul (Real.exp 1)).congr (.of_forall fun t => ?_)
    simp only [Function.comp, Pi.mul_apply, smul_eq_mul]
    rw [wit_exponent]
    simp only [wit_cost, Real.exp_add]
    ring)

end Skwdro
