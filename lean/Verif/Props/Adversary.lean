import Verif.Props.Consistency
import Mathlib.InformationTheory.KullbackLeibler.Basic

/-! # C98: with enough samples, the robust loss covers every adversary, not only re-weightings of the samples -/

namespace Skwdro
open Spec Tensor MeasureTheory ProbabilityTheory InformationTheory
open scoped Topology

variable {G : Type} (ext : TorchExt G)

/-- the Donsker–Varadhan inequality -/
theorem donsker_varadhan {α : Type} [MeasurableSpace α] {Q nu : Measure α} [IsProbabilityMeasure Q] [IsProbabilityMeasure nu] {f : α → ℝ}
    (hkl : klDiv Q nu ≠ ⊤) (hf : Integrable f Q) (hexp : Integrable (fun u => Real.exp (f u)) nu) :
    ∫ u, f u ∂Q - (klDiv Q nu).toReal ≤ Real.log (∫ u, Real.exp (f u) ∂nu) := by
  obtain ⟨hac, hint⟩ := klDiv_ne_top_iff.1 hkl
  have ht : IsProbabilityMeasure (nu.tilted f) := isProbabilityMeasure_tilted hexp
  have h1 := integral_llr_tilted_right hac hf hexp hint
  have h2 := integral_llr_add_sub_measure_univ_nonneg (hac.trans (absolutelyContinuous_tilted hexp)) (integrable_llr_tilted_right hac hf hint hexp)
  have h3 := toReal_klDiv_of_measure_eq hac (by simp)
  rw [h3]
  simp only [probReal_univ] at h2
  linarith

/-- the tilted law attains it -/
theorem donsker_varadhan_eq {α : Type} [MeasurableSpace α] {nu : Measure α} [IsProbabilityMeasure nu] {f : α → ℝ}
    (hexp : Integrable (fun u => Real.exp (f u)) nu) (hf : Integrable f (nu.tilted f)) :
    klDiv (nu.tilted f) nu ≠ ⊤ ∧ ∫ u, f u ∂(nu.tilted f) - (klDiv (nu.tilted f) nu).toReal = Real.log (∫ u, Real.exp (f u) ∂nu) := by
  have ht : IsProbabilityMeasure (nu.tilted f) := isProbabilityMeasure_tilted hexp
  have hac := tilted_absolutelyContinuous nu f
  have hllr : llr (nu.tilted f) nu =ᵐ[nu.tilted f] fun x => f x - Real.log (∫ z, Real.exp (f z) ∂nu) := by
    have := hac.ae_le (log_rnDeriv_tilted_left_self hexp)
    exact this
  have hi : Integrable (llr (nu.tilted f) nu) (nu.tilted f) := by
    rw [integrable_congr hllr]; exact hf.sub (integrable_const _)
  refine ⟨klDiv_ne_top hac hi, ?_⟩
  rw [toReal_klDiv_of_measure_eq hac (by simp), integral_congr_ae hllr, integral_sub hf (integrable_const _)]
  simp

section
variable {m d k s : ℕ} {w : WLoss} {D : DualLoss} {ell : (Fin d → ℝ) → (Fin k → ℝ) → Fin s → ℝ} {rho : ℝ}
  {X : Fin m → Fin d → ℝ} {Y : Fin m → Fin k → ℝ}

/-- an adversary: a law for each data point, with a finite divergence from the law of its samples, moving at an average cost of at most
`r` -/
structure Adversary (c : Fin m → (Fin d → ℝ) → (Fin k → ℝ) → ℝ) (loss : (Fin d → ℝ) → (Fin k → ℝ) → ℝ)
    (nu Q : Fin m → Measure ((Fin d → ℝ) × (Fin k → ℝ))) (r : ℝ) : Prop where
  prob : ∀ i, IsProbabilityMeasure (Q i)
  div : ∀ i, klDiv (Q i) (nu i) ≠ ⊤
  loss_int : ∀ i, Integrable (fun u => loss u.1 u.2) (Q i)
  cost_int : ∀ i, Integrable (fun u => c i u.1 u.2) (Q i)
  budget : avg (fun i => ∫ u, c i u.1 u.2 ∂(Q i)) ≤ r

theorem population_covers {lam p eps : ℝ} (hlam : 0 ≤ lam) (heps : 0 < eps) {c : Fin m → (Fin d → ℝ) → (Fin k → ℝ) → ℝ}
    {loss : (Fin d → ℝ) → (Fin k → ℝ) → ℝ} {nu Q : Fin m → Measure ((Fin d → ℝ) × (Fin k → ℝ))} [∀ i, IsProbabilityMeasure (nu i)]
    (hexp : ∀ i, Integrable (fun u => Real.exp ((loss u.1 u.2 - lam * c i u.1 u.2) / eps)) (nu i)) (hQ : Adversary c loss nu Q (rho ^ p)) :
    avg (fun i => ∫ u, loss u.1 u.2 ∂(Q i) - eps * (klDiv (Q i) (nu i)).toReal) ≤ population lam rho p eps loss c nu := by
  have h1 : ∀ i, (∫ u, loss u.1 u.2 ∂(Q i) - eps * (klDiv (Q i) (nu i)).toReal) - lam * ∫ u, c i u.1 u.2 ∂(Q i) ≤
      eps * Real.log (∫ u, Real.exp ((loss u.1 u.2 - lam * c i u.1 u.2) / eps) ∂(nu i)) := by
    intro i
    have := hQ.prob i
    have hlin : Integrable (fun u : (Fin d → ℝ) × (Fin k → ℝ) => (loss u.1 u.2 - lam * c i u.1 u.2) / eps) (Q i) :=
      ((hQ.loss_int i).sub ((hQ.cost_int i).const_mul lam)).div_const eps
    have h := mul_le_mul_of_nonneg_left (donsker_varadhan (hQ.div i) hlin (hexp i)) heps.le
    rw [integral_div, integral_sub (hQ.loss_int i) ((hQ.cost_int i).const_mul lam), integral_const_mul, mul_sub,
      mul_div_cancel₀ _ heps.ne'] at h
    linarith
  have h2 := avg_mono h1
  have h3 : avg (fun i => (∫ u, loss u.1 u.2 ∂(Q i) - eps * (klDiv (Q i) (nu i)).toReal) - lam * ∫ u, c i u.1 u.2 ∂(Q i)) =
      avg (fun i => ∫ u, loss u.1 u.2 ∂(Q i) - eps * (klDiv (Q i) (nu i)).toReal) - lam * avg (fun i => ∫ u, c i u.1 u.2 ∂(Q i)) := by
    unfold avg
    rw [Finset.sum_sub_distrib, ← Finset.mul_sum]
    ring
  have h4 := mul_le_mul_of_nonneg_left hQ.budget hlam
  unfold population
  linarith

/-- **C98** Almost surely, once enough samples are drawn the robust loss exceeds, up to any tolerance, the expected loss (penalised by the
divergence) of any adversary: any law, absolutely continuous or not with respect to the drawn samples, that moves the data at an average cost of
at most `rho^p` and has a finite divergence from the law of the samples. -/
theorem C98_covers_adversaries (h : Labelled w D ell rho) (hr : D.reduction = .mean) (hm : 0 < m) (hlam : 0 ≤ D.lam) {Ω : Type}
    [MeasurableSpace Ω] {μ : Measure Ω}
    [IsProbabilityMeasure μ] (U : ℕ → Fin m → Ω → (Fin d → ℝ) × (Fin k → ℝ)) (nu : Fin m → Measure ((Fin d → ℝ) × (Fin k → ℝ)))
    (hU : ∀ j i, Measurable (U j i)) (hlaw : ∀ j i, μ.map (U j i) = nu i)
    (hind : ∀ i, Pairwise fun j j' => IndepFun (U j i) (U j' i) μ)
    (hell : Measurable fun u : (Fin d → ℝ) × (Fin k → ℝ) => lossAt w ell u.1 u.2)
    (hint : ∀ i, Integrable (fun u => Real.exp ((lossAt w ell u.1 u.2 - D.lam * costAt D.cost (X i) u.1 (Y i) u.2) / D.epsilon)) (nu i))
    (Q : Fin m → Measure ((Fin d → ℝ) × (Fin k → ℝ)))
    (hQ : Adversary (fun i z y => costAt D.cost (X i) z (Y i) y) (lossAt w ell) nu Q (rho ^ D.cost.power)) {δ : ℝ} (hδ : 0 < δ) :
    ∀ᵐ ω ∂μ, ∀ᶠ n in Filter.atTop, avg (fun i => ∫ u, lossAt w ell u.1 u.2 ∂(Q i) - D.epsilon * (klDiv (Q i) (nu i)).toReal) - δ <
      num (computeDual ext D (mat X) (some (mat Y)) (ten fun (j : Fin n) i => (U j i ω).1) (some (ten fun (j : Fin n) i => (U j i ω).2))) := by
  have hp : ∀ i, IsProbabilityMeasure (nu i) := fun i => by rw [← hlaw 0 i]; exact Measure.isProbabilityMeasure_map (hU 0 i).aemeasurable
  have hcov := population_covers hlam h.eps_pos hint hQ
  filter_upwards [C96_almost_sure ext (X := X) (Y := Y) h hr hm U nu hU hlaw hind hell hint] with ω hω
  exact hω.eventually (lt_mem_nhds (by linarith))

/-- **C98** The bound is tight: the tilted laws meet it, up to the price of the cost they leave unspent; in particular when they spend exactly
`rho^p` on average they are a worst case, and the robust loss converges to their penalised expected loss. -/
theorem C98_worst_case (h : Labelled w D ell rho) (nu : Fin m → Measure ((Fin d → ℝ) × (Fin k → ℝ))) [∀ i, IsProbabilityMeasure (nu i)]
    (hint : ∀ i, Integrable (fun u => Real.exp ((lossAt w ell u.1 u.2 - D.lam * costAt D.cost (X i) u.1 (Y i) u.2) / D.epsilon)) (nu i))
    {Q : Fin m → Measure ((Fin d → ℝ) × (Fin k → ℝ))}
    (hQ : ∀ i, Q i = (nu i).tilted fun u => (lossAt w ell u.1 u.2 - D.lam * costAt D.cost (X i) u.1 (Y i) u.2) / D.epsilon)
    (hl : ∀ i, Integrable (fun u => lossAt w ell u.1 u.2) (Q i)) (hc : ∀ i, Integrable (fun u => costAt D.cost (X i) u.1 (Y i) u.2) (Q i)) :
    avg (fun i => ∫ u, lossAt w ell u.1 u.2 ∂(Q i) - D.epsilon * (klDiv (Q i) (nu i)).toReal) +
        D.lam * (rho ^ D.cost.power - avg (fun i => ∫ u, costAt D.cost (X i) u.1 (Y i) u.2 ∂(Q i))) =
      population D.lam rho D.cost.power D.epsilon (lossAt w ell) (fun i z y => costAt D.cost (X i) z (Y i) y) nu := by
  have h1 : ∀ i, (∫ u, lossAt w ell u.1 u.2 ∂(Q i) - D.epsilon * (klDiv (Q i) (nu i)).toReal) -
      D.lam * ∫ u, costAt D.cost (X i) u.1 (Y i) u.2 ∂(Q i) =
      D.epsilon * Real.log (∫ u, Real.exp ((lossAt w ell u.1 u.2 - D.lam * costAt D.cost (X i) u.1 (Y i) u.2) / D.epsilon) ∂(nu i)) := by
    intro i
    have hlin : Integrable (fun u : (Fin d → ℝ) × (Fin k → ℝ) => (lossAt w ell u.1 u.2 - D.lam * costAt D.cost (X i) u.1 (Y i) u.2) / D.epsilon)
      (Q i) := ((hl i).sub ((hc i).const_mul D.lam)).div_const D.epsilon
    have he := (donsker_varadhan_eq (hint i) (by rw [← hQ i]; exact hlin)).2
    rw [← hQ i] at he
    rw [← he, integral_div, integral_sub (hl i) ((hc i).const_mul D.lam), integral_const_mul, mul_sub, mul_div_cancel₀ _ h.eps_pos.ne']
    ring
  unfold population
  rw [← funext h1]
  unfold avg
  simp only [Finset.sum_sub_distrib, ← Finset.mul_sum]
  ring

end

theorem gaussian_sq_integrable : Integrable (fun t : ℝ => t ^ 2) (gaussianReal 0 1) := (memLp_id_gaussianReal 2).integrable_sq

theorem gaussian_sq : ∫ t : ℝ, t ^ 2 ∂(gaussianReal 0 1) = 1 := by
  have h := variance_eq_integral (μ := gaussianReal 0 1) (X := id) aemeasurable_id
  rw [variance_id_gaussianReal] at h
  simpa [integral_id_gaussianReal] using h.symm

/-- normal noise of standard deviation 1 spends exactly the squared radius 1 under the squared Euclidean cost: it is itself an adversary -/
example : Adversary (fun i z y => costAt exCons.cost (exX i) z (exX i) y) (lossAt exW fun (x y : Fin 1 → ℝ) (c : Fin 1) => (x c - y c) ^ 2)
    (fun i => sampleLaw 1 (exX i) (exX i)) (fun i => sampleLaw 1 (exX i) (exX i)) (1 ^ exCons.cost.power) := by
  have hloss : ∀ x y : Fin 1 → ℝ, lossAt exW (fun (x y : Fin 1 → ℝ) (c : Fin 1) => (x c - y c) ^ 2) x y = (x 0 - y 0) ^ 2 := by
    intro x y; simp [lossAt, avg, ridge, exW]
  have hphi : ∀ i : Fin 2, Measurable fun e : Fin 1 → ℝ => ((fun r => exX i r + 1 * e r, exX i) : (Fin 1 → ℝ) × (Fin 1 → ℝ)) := fun i =>
    (measurable_pi_lambda _ fun r => ((measurable_pi_apply r).const_mul _).const_add _).prodMk measurable_const
  have hprob : ∀ i, IsProbabilityMeasure (sampleLaw 1 (exX i) (exX i)) := fun i => Measure.isProbabilityMeasure_map (hphi i).aemeasurable
  have h1 : Measurable fun u : (Fin 1 → ℝ) × (Fin 1 → ℝ) => u.1 0 := (measurable_pi_apply 0).comp measurable_fst
  have h2 : Measurable fun u : (Fin 1 → ℝ) × (Fin 1 → ℝ) => u.2 0 := (measurable_pi_apply 0).comp measurable_snd
  have hmp := measurePreserving_eval (fun _ : Fin 1 => gaussianReal 0 1) 0
  have e1 : ∀ i : Fin 2, ((fun u : (Fin 1 → ℝ) × (Fin 1 → ℝ) => (u.1 0 - u.2 0) ^ 2) ∘ fun e : Fin 1 → ℝ => (fun r => exX i r + 1 * e r, exX i)) =
      (fun t : ℝ => t ^ 2) ∘ fun e : Fin 1 → ℝ => e 0 := by
    intro i; funext e; simp
  have e2 : ∀ i : Fin 2, ((fun u : (Fin 1 → ℝ) × (Fin 1 → ℝ) => (exX i 0 - u.1 0) ^ 2) ∘ fun e : Fin 1 → ℝ => (fun r => exX i r + 1 * e r, exX i)) =
      (fun t : ℝ => t ^ 2) ∘ fun e : Fin 1 → ℝ => e 0 := by
    intro i; funext e; simp
  refine ⟨hprob, fun i => by simp [klDiv_self], fun i => ?_, fun i => ?_, ?_⟩
  · simp only [hloss]
    refine (integrable_map_measure ((h1.sub h2).pow_const 2).aestronglyMeasurable (hphi i).aemeasurable).2 ?_
    refine (congrArg (fun f => Integrable f _) (e1 i)).mpr ?_
    exact hmp.integrable_comp_of_integrable gaussian_sq_integrable
  · simp only [exCons_cost]
    rw [sampleLaw, integrable_map_measure ((h1.const_sub _).pow_const 2).aestronglyMeasurable (hphi i).aemeasurable, e2]
    exact hmp.integrable_comp_of_integrable gaussian_sq_integrable
  · have : ∀ i : Fin 2, ∫ u, costAt exCons.cost (exX i) u.1 (exX i) u.2 ∂(sampleLaw 1 (exX i) (exX i)) = 1 := by
      intro i
      simp only [exCons_cost]
      rw [sampleLaw, integral_map (hphi i).aemeasurable ((h1.const_sub _).pow_const 2).aestronglyMeasurable]
      have e3 := e2 i
      simp only [Function.comp_def] at e3
      rw [e3]
      have e4 := integral_map (μ := Measure.pi fun _ : Fin 1 => gaussianReal 0 1) (φ := fun e : Fin 1 → ℝ => e 0) (f := fun t : ℝ => t ^ 2)
        (measurable_pi_apply 0).aemeasurable (measurable_id.pow_const 2).aestronglyMeasurable
      rw [← e4, ← gaussian_sq]
      exact congrArg (fun ν => ∫ t : ℝ, t ^ 2 ∂ν) hmp.map_eq
    simp [this, avg]

end Skwdro
