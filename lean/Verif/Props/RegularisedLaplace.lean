import Mathlib.MeasureTheory.Integral.Gamma
import Verif.Props.LaplaceLabelNoise
import Verif.Props.RegularisedLabelNoise

/-!
# C145 with Laplace noise: the sampler of a 1-norm cost, on the inputs or on inputs and labels
-/

namespace Skwdro
open Spec Tensor MeasureTheory ProbabilityTheory InformationTheory Filter
open scoped Topology

/-- every moment of the Laplace law is finite -/
theorem laplace_moment {w : ℝ} (hw : 0 < w) : Integrable (fun t : ℝ => |t| ^ w) laplaceLaw := by
  have hI : ∫ t : ℝ, Real.exp (-|t|) * |t| ^ w ≠ 0 := by
    rw [integral_comp_abs (f := fun t => Real.exp (-t) * t ^ w)]
    have := Real.Gamma_eq_integral (s := w + 1) (by linarith)
    rw [add_sub_cancel_right] at this
    rw [← this]
    exact mul_ne_zero two_ne_zero (Real.Gamma_pos_of_pos (by linarith)).ne'
  have h1 : Integrable fun t : ℝ => Real.exp (-|t|) * |t| ^ w := by
    by_contra h
    exact hI (integral_undef h)
  rw [laplaceLaw, integrable_withDensity_iff (by fun_prop) (Eventually.of_forall fun t => ENNReal.ofReal_lt_top)]
  refine (h1.div_const 2).congr (Eventually.of_forall fun t => ?_)
  simp only
  rw [ENNReal.toReal_ofReal (by positivity)]
  ring

section
variable {m d : ℕ} {D : DualLoss} {X : Fin m → Fin d → ℝ}

theorem laplace_noise_cost_integrable (hp : NormOrder D.cost.p) (hw : 0 < D.cost.power) (sigma : ℝ) (i : Fin m) :
    Integrable (fun e : Fin d → ℝ => moveCost D X i (fun r => X i r + sigma * e r)) (Measure.pi fun _ : Fin d => laplaceLaw) := by
  obtain ⟨K, hK, hle⟩ := pnorm_le_norm (d := d) hp
  have hcont : Continuous fun e : Fin d → ℝ => moveCost D X i (fun r => X i r + sigma * e r) :=
    (moveCost_continuous hp hw i).comp (continuous_pi fun q => continuous_const.add (continuous_const.mul (continuous_apply q)))
  have hone : ∀ r : Fin d, Integrable (fun e : Fin d → ℝ => |e r| ^ D.cost.power) (Measure.pi fun _ : Fin d => laplaceLaw) := by
    intro r
    exact (measurePreserving_eval (fun _ : Fin d => laplaceLaw) r).integrable_comp_of_integrable (laplace_moment hw)
  refine Integrable.mono' (((integrable_finsetSum Finset.univ fun r _ => hone r).const_mul ((K * |sigma|) ^ D.cost.power)))
    hcont.aestronglyMeasurable (Eventually.of_forall fun e => ?_)
  have h0 : 0 ≤ moveCost D X i (fun r => X i r + sigma * e r) := Real.rpow_nonneg (pnorm_nonneg _ _) _
  rw [Real.norm_of_nonneg h0]
  have h2 : (fun q => X i q - (X i q + sigma * e q)) = fun q => -sigma * e q := by funext q; ring
  have h3 : ‖(fun q => -sigma * e q)‖ = |sigma| * ‖e‖ := by
    have : (fun q => -sigma * e q) = (-sigma) • e := rfl
    rw [this, norm_smul, norm_neg, Real.norm_eq_abs]
  calc moveCost D X i (fun r => X i r + sigma * e r) ≤ (K * (|sigma| * ‖e‖)) ^ D.cost.power := by
        unfold moveCost
        rw [h2]
        refine Real.rpow_le_rpow (pnorm_nonneg _ _) ?_ hw.le
        rw [← h3]
        exact hle _
    _ = (K * |sigma|) ^ D.cost.power * ‖e‖ ^ D.cost.power := by
        rw [← mul_assoc, Real.mul_rpow (by positivity) (norm_nonneg _)]
    _ ≤ _ := mul_le_mul_of_nonneg_left (norm_rpow_le hw e) (by positivity)

theorem laplace_cost_integrable (hp : NormOrder D.cost.p) (hw : 0 < D.cost.power) (sigma : ℝ) (i : Fin m) :
    Integrable (moveCost D X i) (laplaceAround sigma (X i)) := by
  have hT : _root_.Measurable fun (e : Fin d → ℝ) r => X i r + sigma * e r :=
    measurable_pi_lambda _ fun r => ((measurable_pi_apply r).const_mul _).const_add _
  exact (integrable_map_measure (moveCost_measurable i).aestronglyMeasurable hT.aemeasurable).2 (laplace_noise_cost_integrable hp hw sigma i)

end

section
variable {m d k : ℕ} {D : DualLoss} {X : Fin m → Fin d → ℝ} {Y : Fin m → Fin k → ℝ}

theorem sampleLawL_cost_integrable (hc : GoodCost D.cost) (hplain : D.cost.kind = .normCost) (hw : 0 < D.cost.power) (sigma : ℝ) (i : Fin m) :
    Integrable (fun u => costAt D.cost (X i) u.1 (Y i) u.2) (sampleLawL sigma (X i) (Y i)) := by
  have hT : _root_.Measurable fun e : Fin d → ℝ => ((fun q => X i q + sigma * e q, Y i) : (Fin d → ℝ) × (Fin k → ℝ)) :=
    (measurable_pi_lambda _ fun r => ((measurable_pi_apply r).const_mul _).const_add _).prodMk measurable_const
  refine (integrable_map_measure (costAt_measurable hc (X i) (Y i)).aestronglyMeasurable hT.aemeasurable).2 ?_
  refine (laplace_noise_cost_integrable (X := X) hc.order hw sigma i).congr (Eventually.of_forall fun e => ?_)
  dsimp only [Function.comp]
  rw [C04_point_formula D.cost hplain hc.order]
  rfl

end

section
variable {m d s : ℕ} {w : WLoss} {D : DualLoss} {ell : (Fin d → ℝ) → Fin s → ℝ} {rho : ℝ} {X : Fin m → Fin d → ℝ} {G : Type} (ext : TorchExt G)

/-- some adversary spends less than any positive budget -/
theorem adversary0_exists_laplace (h : NoLabels w D ell rho) (hw : 0 < D.cost.power) {sigma : ℝ} (hs : 0 < sigma) {r : ℝ} (hr : 0 < r) (hm : 0 < m)
    (hl : ∀ i, Integrable (lossAt0 w ell) (laplaceAround sigma (X i))) :
    ∃ Q, Adversary0 (moveCost D X) (lossAt0 w ell) (fun i => laplaceAround sigma (X i)) Q r := by
  set nu : Fin m → Measure (Fin d → ℝ) := fun i => laplaceAround sigma (X i) with hnu
  have hp : ∀ i, IsProbabilityMeasure (nu i) := fun i => by rw [hnu]; infer_instance
  have hc : ∀ i, Integrable (moveCost D X i) (nu i) := fun i => laplace_cost_integrable h.order hw sigma i
  set A : Fin m → Set (Fin d → ℝ) := fun i => {z | moveCost D X i z < r} with hAdef
  have hopen : ∀ i, IsOpen (A i) := fun i => isOpen_lt (moveCost_continuous h.order hw i) continuous_const
  have h0 : ∀ i, nu i (A i) ≠ 0 := fun i => by
    have := noise_open_laplace hs (X i)
    refine ((hopen i).measure_pos (nu i) ⟨X i, ?_⟩).ne'
    simp only [hAdef, Set.mem_setOf_eq, moveCost_self h.order hw i, hr]
  have hint : ∀ i (f : (Fin d → ℝ) → ℝ), Integrable f (nu i) → Integrable f (ProbabilityTheory.cond (nu i) (A i)) := fun i f hf =>
    hf.restrict.smul_measure (ENNReal.inv_ne_top.2 (h0 i))
  refine ⟨fun i => ProbabilityTheory.cond (nu i) (A i), ⟨fun i => cond_isProbabilityMeasure (h0 i),
    fun i => klDiv_cond (hopen i).measurableSet (h0 i), fun i => hint i _ (hl i), fun i => hint i _ (hc i), ?_⟩⟩
  have hle : ∀ i, ∫ z, moveCost D X i z ∂(ProbabilityTheory.cond (nu i) (A i)) ≤ r := by
    intro i
    have := cond_isProbabilityMeasure (h0 i)
    have hae : ∀ᵐ z ∂(ProbabilityTheory.cond (nu i) (A i)), z ∈ A i := by
      rw [ae_iff]
      exact (cond_apply (hopen i).measurableSet _ _).trans (by
        have : A i ∩ {a | a ∉ A i} = ∅ := by ext a; simp
        rw [this]; simp)
    refine (integral_mono_ae (hint i _ (hc i)) (integrable_const r) ?_).trans (by simp)
    filter_upwards [hae] with z hz
    exact le_of_lt hz
  refine (avg_mono hle).trans (le_of_eq ?_)
  have : (m : ℝ) ≠ 0 := by exact_mod_cast hm.ne'
  simp [avg, this]

/-- **C145** With Laplace noise and without labels, for every order and power of the transport cost: the same least upper bound, met by some multiplier and never undercut. -/
theorem C145_worst_case_unlabelled_laplace (h : NoLabels w D ell rho) (hr : D.reduction = .mean) (hm : 0 < m) {Ω : Type} [MeasurableSpace Ω]
    {μ : Measure Ω} {gen : Ω → G} (hN : LaplaceContract ext μ gen) {c : CostR} (hp : c.p = .fin 1) (hpow : c.power = 1) {sigma : ℝ} (hs : 0 < sigma) {T : Sampler} (hkind : T.kind = .noLabelsCost)
    (hgen : T.generating_cost = some c) (hsig : T.sigma = some sigma) (hseed : T.seed = none) (hD : D.sampler = some T)
    (hell : _root_.Measurable (lossAt0 w ell)) (hw : 0 < D.cost.power)
    (hl : ∀ i, Integrable (lossAt0 w ell) (laplaceAround sigma (X i)))
    (hgrow : ∃ lam0, 0 ≤ lam0 ∧ ∀ i, Integrable (fun z => Real.exp ((lossAt0 w ell z - lam0 * moveCost D X i z) / D.epsilon))
      (laplaceAround sigma (X i))) :
    ∃ V, IsLUB {v | ∃ Q, Adversary0 (moveCost D X) (lossAt0 w ell) (fun i => laplaceAround sigma (X i)) Q
          (rho ^ D.cost.power) ∧
        v = avg (fun i => ∫ z, lossAt0 w ell z ∂(Q i) -
          D.epsilon * (klDiv (Q i) (laplaceAround sigma (X i))).toReal)} V ∧
      (∃ lam, 0 ≤ lam ∧ ∀ δ > 0, Tendsto (fun n => μ {ω | ¬ ∃ v D' g',
        postForward ext { D with lam := lam, nSamples := n } (mat X) none true (gen ω) = .ok (.val v, D', g') ∧
        |v.get [] - V| < δ}) atTop (𝓝 0)) ∧
      ∀ lam, 0 ≤ lam → (∀ i, Integrable (fun z => Real.exp ((lossAt0 w ell z - lam * moveCost D X i z) / D.epsilon))
          (laplaceAround sigma (X i))) → ∀ δ > 0,
        Tendsto (fun n => μ {ω | ¬ ∃ v D' g', postForward ext { D with lam := lam, nSamples := n } (mat X) none true (gen ω) =
          .ok (.val v, D', g') ∧ V - δ < v.get []}) atTop (𝓝 0) := by
  have hrho : 0 < rho ^ D.cost.power := Real.rpow_pos_of_pos h.rho_pos _
  obtain ⟨Q0, hQ0⟩ := adversary0_exists_laplace (X := X) h hw hs (half_pos hrho) hm hl
  obtain ⟨lam, hlam, hexp, hlub⟩ := entropic_duality0 hm h.eps_pos hell (fun i => moveCost_measurable i) hl
    (fun i => laplace_cost_integrable h.order hw sigma i) (half_lt_self hrho) hQ0 hgrow
  refine ⟨_, hlub, ⟨lam, hlam, fun δ hδ => ?_⟩, fun lam' hlam' hexp' δ hδ => ?_⟩
  · exact C96_forward_unlabelled_laplace ext (priced h lam) hr hm hN hp hpow hs hkind hgen hsig hseed hD hell hexp hδ
  · have hlim := C96_forward_unlabelled_laplace ext (priced h lam') hr hm hN hp hpow hs hkind hgen hsig hseed hD hell hexp' hδ
    refine tendsto_of_tendsto_of_tendsto_of_le_of_le tendsto_const_nhds hlim (fun n => zero_le) fun n => measure_mono ?_
    intro ω hω hgood
    obtain ⟨v, D', g', hf, hv⟩ := hgood
    refine hω ⟨v, D', g', hf, ?_⟩
    have h1 := hlub.2 (show populationU lam' rho D.cost.power D.epsilon (lossAt0 w ell) (moveCost D X)
      (fun i => laplaceAround sigma (X i)) ∈ upperBounds _ by
        rintro u ⟨Q, hQ, rfl⟩
        exact population_covers0 hlam' h.eps_pos hexp' hQ)
    have h2 : -δ < v.get [] - populationU lam' rho D.cost.power D.epsilon (lossAt0 w ell) (moveCost D X)
      (fun i => laplaceAround sigma (X i)) := (abs_lt.1 hv).1
    linarith

end

section
variable {m d k s : ℕ} {w : WLoss} {D : DualLoss} {ell : (Fin d → ℝ) → (Fin k → ℝ) → Fin s → ℝ} {rho : ℝ}
  {X : Fin m → Fin d → ℝ} {Y : Fin m → Fin k → ℝ} {G : Type} (ext : TorchExt G)

theorem sampleLawL_prob (sigma : ℝ) (x : Fin d → ℝ) (y : Fin k → ℝ) : IsProbabilityMeasure (sampleLawL sigma x y) :=
  Measure.isProbabilityMeasure_map
    ((measurable_pi_lambda _ fun r => ((measurable_pi_apply r).const_mul _).const_add _).prodMk measurable_const).aemeasurable

/-- the noise falls near the data with a positive probability -/
theorem sampleLawL_near (h : Labelled w D ell rho) (hplain : D.cost.kind = .normCost) (hw : 0 < D.cost.power) (sigma : ℝ) {r : ℝ} (hr : 0 < r) (i : Fin m) :
    sampleLawL sigma (X i) (Y i) {u | costAt D.cost (X i) u.1 (Y i) u.2 < r} ≠ 0 := by
  have hT : _root_.Measurable fun e : Fin d → ℝ => ((fun q => X i q + sigma * e q, Y i) : (Fin d → ℝ) × (Fin k → ℝ)) :=
    (measurable_pi_lambda _ fun r => ((measurable_pi_apply r).const_mul _).const_add _).prodMk measurable_const
  have hA : MeasurableSet {u : (Fin d → ℝ) × (Fin k → ℝ) | costAt D.cost (X i) u.1 (Y i) u.2 < r} :=
    measurableSet_lt (costAt_measurable h.cost (X i) (Y i)) measurable_const
  rw [sampleLawL, Measure.map_apply hT hA]
  have e : (fun e : Fin d → ℝ => ((fun q => X i q + sigma * e q, Y i) : (Fin d → ℝ) × (Fin k → ℝ))) ⁻¹'
      {u | costAt D.cost (X i) u.1 (Y i) u.2 < r} = {e | moveCost D X i (fun q => X i q + sigma * e q) < r} := by
    ext e
    simp only [Set.mem_preimage, Set.mem_setOf_eq]
    rw [C04_point_formula D.cost hplain h.cost.order]
    rfl
  rw [e]
  have hc : Continuous fun e : Fin d → ℝ => moveCost D X i (fun q => X i q + sigma * e q) :=
    (moveCost_continuous h.cost.order hw i).comp (continuous_pi fun q => continuous_const.add (continuous_const.mul (continuous_apply q)))
  refine (IsOpen.measure_pos _ (isOpen_lt hc continuous_const) ⟨0, ?_⟩).ne'
  have : (fun q => X i q + sigma * (0 : Fin d → ℝ) q) = X i := by funext q; simp
  simp only [Set.mem_setOf_eq, this, moveCost_self h.cost.order hw i, hr]

/-- some adversary spends less than any positive budget -/
theorem adversary_exists_laplace (h : Labelled w D ell rho) (hplain : D.cost.kind = .normCost) (hw : 0 < D.cost.power) (sigma : ℝ) {r : ℝ} (hr : 0 < r) (hm : 0 < m)
    (hl : ∀ i, Integrable (fun u => lossAt w ell u.1 u.2) (sampleLawL sigma (X i) (Y i)))
    (hc : ∀ i, Integrable (fun u => costAt D.cost (X i) u.1 (Y i) u.2) (sampleLawL sigma (X i) (Y i))) :
    ∃ Q, Adversary (fun i z y => costAt D.cost (X i) z (Y i) y) (lossAt w ell) (fun i => sampleLawL sigma (X i) (Y i)) Q r := by
  have hp := fun i => sampleLawL_prob sigma (X i) (Y i)
  set A : Fin m → Set ((Fin d → ℝ) × (Fin k → ℝ)) := fun i => {u | costAt D.cost (X i) u.1 (Y i) u.2 < r} with hAdef
  have hA : ∀ i, MeasurableSet (A i) := fun i => measurableSet_lt (costAt_measurable h.cost (X i) (Y i)) measurable_const
  have h0 : ∀ i, sampleLawL sigma (X i) (Y i) (A i) ≠ 0 := fun i => sampleLawL_near h hplain hw sigma hr i
  have hint : ∀ i (f : (Fin d → ℝ) × (Fin k → ℝ) → ℝ), Integrable f (sampleLawL sigma (X i) (Y i)) →
      Integrable f (ProbabilityTheory.cond (sampleLawL sigma (X i) (Y i)) (A i)) := by
    intro i f hf
    exact hf.restrict.smul_measure (ENNReal.inv_ne_top.2 (h0 i))
  refine ⟨fun i => ProbabilityTheory.cond (sampleLawL sigma (X i) (Y i)) (A i), ⟨fun i => cond_isProbabilityMeasure (h0 i),
    fun i => klDiv_cond (hA i) (h0 i), fun i => hint i _ (hl i), fun i => hint i _ (hc i), ?_⟩⟩
  have hle : ∀ i, ∫ u, costAt D.cost (X i) u.1 (Y i) u.2 ∂(ProbabilityTheory.cond (sampleLawL sigma (X i) (Y i)) (A i)) ≤ r := by
    intro i
    haveI := cond_isProbabilityMeasure (h0 i)
    have hae : ∀ᵐ u ∂(ProbabilityTheory.cond (sampleLawL sigma (X i) (Y i)) (A i)), u ∈ A i := by
      rw [ae_iff]
      exact (cond_apply (hA i) _ _).trans (by
        have : A i ∩ {a | a ∉ A i} = ∅ := by ext a; simp
        rw [this]; simp)
    refine (integral_mono_ae (hint i _ (hc i)) (integrable_const r) ?_).trans (by simp)
    filter_upwards [hae] with u hu
    exact le_of_lt hu
  refine (avg_mono hle).trans (le_of_eq ?_)
  have : (m : ℝ) ≠ 0 := by exact_mod_cast hm.ne'
  simp [avg, this]

/-- **C145** A labelled loss with a plain cost and Laplace noise under which it is integrable: the expected losses of the adversaries that spend at most `rho^p` on
average, penalised by `epsilon` times their divergence from the noise, have a least upper bound `V`.  For some multiplier the robust loss tends to
`V` in probability as the number of samples grows; for no multiplier that keeps the objective finite does it fall below `V` by a fixed amount. -/
theorem C145_worst_case_laplace (h : Labelled w D ell rho) (hr : D.reduction = .mean) (hm : 0 < m) {Ω : Type} [MeasurableSpace Ω] {μ : Measure Ω}
    [IsProbabilityMeasure μ] {gen : Ω → G} (hN : LaplaceContract ext μ gen) {c : CostR} (hk : c.kind = .normCost) (hp : c.p = .fin 1) (hpow : c.power = 1) {sigma : ℝ} (hs : 0 < sigma) {T : Sampler} (hkind : T.kind = .labeledCost)
    (hgen : T.generating_cost = some c) (hsig : T.sigma = some sigma) (hseed : T.seed = none) (hD : D.sampler = some T)
    (hell : _root_.Measurable fun u : (Fin d → ℝ) × (Fin k → ℝ) => lossAt w ell u.1 u.2) (hplain : D.cost.kind = .normCost) (hw : 0 < D.cost.power)
    (hl : ∀ i, Integrable (fun u => lossAt w ell u.1 u.2) (sampleLawL sigma (X i) (Y i)))
    (hgrow : ∃ lam0, 0 ≤ lam0 ∧ ∀ i, Integrable (fun u => Real.exp ((lossAt w ell u.1 u.2 - lam0 * costAt D.cost (X i) u.1 (Y i) u.2) / D.epsilon))
      (sampleLawL sigma (X i) (Y i))) :
    ∃ V, IsLUB {v | ∃ Q, Adversary (fun i z y => costAt D.cost (X i) z (Y i) y) (lossAt w ell) (fun i => sampleLawL sigma (X i) (Y i)) Q
          (rho ^ D.cost.power) ∧
        v = avg (fun i => ∫ u, lossAt w ell u.1 u.2 ∂(Q i) - D.epsilon * (klDiv (Q i) (sampleLawL sigma (X i) (Y i))).toReal)} V ∧
      (∃ lam, 0 ≤ lam ∧ ∀ δ > 0, Tendsto (fun n => μ {ω | ¬ ∃ v D' g',
        postForward ext { D with lam := lam, nSamples := n } (mat X) (some (mat Y)) true (gen ω) = .ok (.val v, D', g') ∧
        |v.get [] - V| < δ}) atTop (𝓝 0)) ∧
      ∀ lam, 0 ≤ lam → (∀ i, Integrable (fun u => Real.exp ((lossAt w ell u.1 u.2 - lam * costAt D.cost (X i) u.1 (Y i) u.2) / D.epsilon))
          (sampleLawL sigma (X i) (Y i))) → ∀ δ > 0,
        Tendsto (fun n => μ {ω | ¬ ∃ v D' g', postForward ext { D with lam := lam, nSamples := n } (mat X) (some (mat Y)) true (gen ω) =
          .ok (.val v, D', g') ∧ V - δ < v.get []}) atTop (𝓝 0) := by
  haveI := fun i => sampleLawL_prob sigma (X i) (Y i)
  have hrho : 0 < rho ^ D.cost.power := Real.rpow_pos_of_pos h.rho_pos _
  have hc : ∀ i, Integrable (fun u => costAt D.cost (X i) u.1 (Y i) u.2) (sampleLawL sigma (X i) (Y i)) := fun i =>
    sampleLawL_cost_integrable h.cost hplain hw sigma i
  obtain ⟨Q0, hQ0⟩ := adversary_exists_laplace (X := X) (Y := Y) h hplain hw sigma (half_pos hrho) hm hl hc
  obtain ⟨lam, hlam, hexp, hlub⟩ := entropic_duality hm h.eps_pos hl hc (half_lt_self hrho) hQ0 hgrow
  refine ⟨_, hlub, ⟨lam, hlam, fun δ hδ => ?_⟩, fun lam' hlam' hexp' δ hδ => ?_⟩
  · exact C96_forward_laplace ext (priced_labelled h lam) hr hm hN hk hp hpow hs hkind hgen hsig hseed hD hell hexp hδ
  · have hlim := C96_forward_laplace ext (priced_labelled h lam') hr hm hN hk hp hpow hs hkind hgen hsig hseed hD hell hexp' hδ
    refine tendsto_of_tendsto_of_tendsto_of_le_of_le tendsto_const_nhds hlim (fun n => zero_le) fun n => measure_mono ?_
    intro ω hω hgood
    obtain ⟨v, D', g', hf, hv⟩ := hgood
    refine hω ⟨v, D', g', hf, ?_⟩
    have h1 := hlub.2 (show population lam' rho D.cost.power D.epsilon (lossAt w ell) (fun i z y => costAt D.cost (X i) z (Y i) y)
      (fun i => sampleLawL sigma (X i) (Y i)) ∈ upperBounds _ by
        rintro u ⟨Q, hQ, rfl⟩
        exact population_covers hlam' h.eps_pos hexp' hQ)
    have h2 : -δ < v.get [] - population lam' rho D.cost.power D.epsilon (lossAt w ell) (fun i z y => costAt D.cost (X i) z (Y i) y)
      (fun i => sampleLawL sigma (X i) (Y i)) := (abs_lt.1 hv).1
    linarith

end

section
variable {m d k s : ℕ} {w : WLoss} {D : DualLoss} {ell : (Fin d → ℝ) → (Fin k → ℝ) → Fin s → ℝ} {rho : ℝ}
  {X : Fin m → Fin d → ℝ} {Y : Fin m → Fin k → ℝ} {G : Type} (ext : TorchExt G)

/-- a label cost has a finite mean under Laplace noise on inputs and labels -/
theorem sampleLawL2_cost_integrable (hcost : GoodCost D.cost) (hDk : D.cost.kind = .normLabelCost) {kap : ℝ} (hkap : 0 ≤ kap)
    (hkappa : D.cost.kappa = .fin kap) (hw : 0 < D.cost.power) (sigma tau : ℝ) (i : Fin m) :
    Integrable (fun u => costAt D.cost (X i) u.1 (Y i) u.2) (sampleLawL2 sigma tau (X i) (Y i)) := by
  have hmeas := costAt_measurable hcost (X i) (Y i)
  have hT := (noised_continuous sigma tau (X i) (Y i)).measurable
  refine (integrable_map_measure hmeas.aestronglyMeasurable hT.aemeasurable).2 ?_
  have h1 := (laplace_noise_cost_integrable (D := D) (X := X) hcost.order hw sigma i).comp_fst (Measure.pi fun _ : Fin k => laplaceLaw)
  have h2 := (laplace_noise_cost_integrable (D := D) (X := Y) hcost.order hw tau i).comp_snd (Measure.pi fun _ : Fin d => laplaceLaw)
  refine (h1.add h2).mono' (hmeas.comp hT).aestronglyMeasurable (Eventually.of_forall fun e => ?_)
  have ha := pnorm_nonneg D.cost.p (fun q => X i q - (noised sigma tau (X i) (Y i) e).1 q)
  have hb := pnorm_nonneg D.cost.p (fun q => Y i q - (noised sigma tau (X i) (Y i) e).2 q)
  rw [Real.norm_eq_abs, Function.comp, (C05_point_formula D.cost hDk hcost.order _ _ _ _).1 kap hkap hkappa]
  show _ ≤ pnorm D.cost.p (fun q => X i q - (noised sigma tau (X i) (Y i) e).1 q) ^ D.cost.power +
    pnorm D.cost.p (fun q => Y i q - (noised sigma tau (X i) (Y i) e).2 q) ^ D.cost.power
  set a := pnorm D.cost.p (fun q => X i q - (noised sigma tau (X i) (Y i) e).1 q)
  set b := pnorm D.cost.p (fun q => Y i q - (noised sigma tau (X i) (Y i) e).2 q)
  rw [abs_of_nonneg (Real.rpow_nonneg (by positivity) _)]
  have hpa := Real.rpow_nonneg ha D.cost.power
  have hpb := Real.rpow_nonneg hb D.cost.power
  rcases le_total a b with hab | hab
  · have : (a + kap * b) / (1 + kap) ≤ b := by
      rw [div_le_iff₀ (by positivity)]
      linarith
    have := Real.rpow_le_rpow (by positivity) this hw.le
    linarith
  · have : (a + kap * b) / (1 + kap) ≤ a := by
      rw [div_le_iff₀ (by positivity)]
      have := mul_le_mul_of_nonneg_left hab hkap
      linarith
    have := Real.rpow_le_rpow (by positivity) this hw.le
    linarith

/-- some adversary spends less than any positive budget -/
theorem adversary2_exists_laplace (hcost : GoodCost D.cost) (hDk : D.cost.kind = .normLabelCost) {kap : ℝ} (hDkap : 0 < kap)
    (hDkappa : D.cost.kappa = .fin kap) (hw : 0 < D.cost.power) {sigma tau : ℝ} (hs : 0 < sigma) (ht : 0 < tau) {r : ℝ} (hr : 0 < r) (hm : 0 < m)
    (hl : ∀ i, Integrable (fun u => lossAt w ell u.1 u.2) (sampleLawL2 sigma tau (X i) (Y i)))
    (hc : ∀ i, Integrable (fun u => costAt D.cost (X i) u.1 (Y i) u.2) (sampleLawL2 sigma tau (X i) (Y i))) :
    ∃ Q, Adversary (fun i z y => costAt D.cost (X i) z (Y i) y) (lossAt w ell) (fun i => sampleLawL2 sigma tau (X i) (Y i)) Q r := by
  set A : Fin m → Set ((Fin d → ℝ) × (Fin k → ℝ)) := fun i => {u | costAt D.cost (X i) u.1 (Y i) u.2 < r} with hAdef
  have hA : ∀ i, MeasurableSet (A i) := fun i => measurableSet_lt (costAt_measurable hcost (X i) (Y i)) measurable_const
  have h0 : ∀ i, sampleLawL2 sigma tau (X i) (Y i) (A i) ≠ 0 := fun i => by
    have := sampleLawL2_open hs ht (X i) (Y i)
    have hc := costAt_continuous hDk hcost.order hDkap.le hDkappa hw (X i) (Y i)
    refine (IsOpen.measure_pos _ (isOpen_lt hc continuous_const) ⟨(X i, Y i), ?_⟩).ne'
    show costAt D.cost (X i) (X i) (Y i) (Y i) < r
    rw [(C05_zero_iff D.cost hDk hcost.order hDkap hDkappa hw _ _ _ _).2 ⟨rfl, rfl⟩]
    exact hr
  have hint : ∀ i (f : (Fin d → ℝ) × (Fin k → ℝ) → ℝ), Integrable f (sampleLawL2 sigma tau (X i) (Y i)) →
      Integrable f (ProbabilityTheory.cond (sampleLawL2 sigma tau (X i) (Y i)) (A i)) := by
    intro i f hf
    exact hf.restrict.smul_measure (ENNReal.inv_ne_top.2 (h0 i))
  refine ⟨fun i => ProbabilityTheory.cond (sampleLawL2 sigma tau (X i) (Y i)) (A i), ⟨fun i => cond_isProbabilityMeasure (h0 i),
    fun i => klDiv_cond (hA i) (h0 i), fun i => hint i _ (hl i), fun i => hint i _ (hc i), ?_⟩⟩
  have hle : ∀ i, ∫ u, costAt D.cost (X i) u.1 (Y i) u.2 ∂(ProbabilityTheory.cond (sampleLawL2 sigma tau (X i) (Y i)) (A i)) ≤ r := by
    intro i
    haveI := cond_isProbabilityMeasure (h0 i)
    have hae : ∀ᵐ u ∂(ProbabilityTheory.cond (sampleLawL2 sigma tau (X i) (Y i)) (A i)), u ∈ A i := by
      rw [ae_iff]
      exact (cond_apply (hA i) _ _).trans (by
        have : A i ∩ {a | a ∉ A i} = ∅ := by ext a; simp
        rw [this]; simp)
    refine (integral_mono_ae (hint i _ (hc i)) (integrable_const r) ?_).trans (by simp)
    filter_upwards [hae] with u hu
    exact le_of_lt hu
  refine (avg_mono hle).trans (le_of_eq ?_)
  have : (m : ℝ) ≠ 0 := by exact_mod_cast hm.ne'
  simp [avg, this]

/-- **C145** A labelled loss with a label cost of positive weight and Laplace noise, on inputs and labels, under which it is integrable: the expected losses of the adversaries that spend at most `rho^p` on
average, penalised by `epsilon` times their divergence from the noise, have a least upper bound `V`.  For some multiplier the robust loss tends to
`V` in probability as the number of samples grows; for no multiplier that keeps the objective finite does it fall below `V` by a fixed amount. -/
theorem C145_worst_case_label_noise_laplace (h : Labelled w D ell rho) (hr : D.reduction = .mean) (hm : 0 < m) {Ω : Type} [MeasurableSpace Ω] {μ : Measure Ω}
    [IsProbabilityMeasure μ] {gen : Ω → G} (hN : LaplaceContract2 ext μ gen) {c : CostR} (hk : c.kind = .normLabelCost) (hp : c.p = .fin 1) (hpow : c.power = 1)
    {sigma tau kappa kap : ℝ} (hs : 0 < sigma) (hkap : 0 < kappa) (hkappa : c.kappa = .fin kappa)
    (htau : tau = sigma / kappa) {T : Sampler} (hkind : T.kind = .labeledCost)
    (hgen : T.generating_cost = some c) (hsig : T.sigma = some sigma) (hseed : T.seed = none) (hD : D.sampler = some T)
    (hell : _root_.Measurable fun u : (Fin d → ℝ) × (Fin k → ℝ) => lossAt w ell u.1 u.2) (hDk : D.cost.kind = .normLabelCost)
    (hDkap : 0 < kap) (hDkappa : D.cost.kappa = .fin kap) (hw : 0 < D.cost.power)
    (hl : ∀ i, Integrable (fun u => lossAt w ell u.1 u.2) (sampleLawL2 sigma tau (X i) (Y i)))
    (hgrow : ∃ lam0, 0 ≤ lam0 ∧ ∀ i, Integrable (fun u => Real.exp ((lossAt w ell u.1 u.2 - lam0 * costAt D.cost (X i) u.1 (Y i) u.2) / D.epsilon))
      (sampleLawL2 sigma tau (X i) (Y i))) :
    ∃ V, IsLUB {v | ∃ Q, Adversary (fun i z y => costAt D.cost (X i) z (Y i) y) (lossAt w ell) (fun i => sampleLawL2 sigma tau (X i) (Y i)) Q
          (rho ^ D.cost.power) ∧
        v = avg (fun i => ∫ u, lossAt w ell u.1 u.2 ∂(Q i) - D.epsilon * (klDiv (Q i) (sampleLawL2 sigma tau (X i) (Y i))).toReal)} V ∧
      (∃ lam, 0 ≤ lam ∧ ∀ δ > 0, Tendsto (fun n => μ {ω | ¬ ∃ v D' g',
        postForward ext { D with lam := lam, nSamples := n } (mat X) (some (mat Y)) true (gen ω) = .ok (.val v, D', g') ∧
        |v.get [] - V| < δ}) atTop (𝓝 0)) ∧
      ∀ lam, 0 ≤ lam → (∀ i, Integrable (fun u => Real.exp ((lossAt w ell u.1 u.2 - lam * costAt D.cost (X i) u.1 (Y i) u.2) / D.epsilon))
          (sampleLawL2 sigma tau (X i) (Y i))) → ∀ δ > 0,
        Tendsto (fun n => μ {ω | ¬ ∃ v D' g', postForward ext { D with lam := lam, nSamples := n } (mat X) (some (mat Y)) true (gen ω) =
          .ok (.val v, D', g') ∧ V - δ < v.get []}) atTop (𝓝 0) := by
  have ht : 0 < tau := htau ▸ div_pos hs hkap
  have hrho : 0 < rho ^ D.cost.power := Real.rpow_pos_of_pos h.rho_pos _
  have hc : ∀ i, Integrable (fun u => costAt D.cost (X i) u.1 (Y i) u.2) (sampleLawL2 sigma tau (X i) (Y i)) := fun i =>
    sampleLawL2_cost_integrable h.cost hDk hDkap.le hDkappa hw sigma tau i
  obtain ⟨Q0, hQ0⟩ := adversary2_exists_laplace (X := X) (Y := Y) h.cost hDk hDkap hDkappa hw hs ht (half_pos hrho) hm hl hc
  obtain ⟨lam, hlam, hexp, hlub⟩ := entropic_duality hm h.eps_pos hl hc (half_lt_self hrho) hQ0 hgrow
  refine ⟨_, hlub, ⟨lam, hlam, fun δ hδ => ?_⟩, fun lam' hlam' hexp' δ hδ => ?_⟩
  · exact C96_forward_label_noise_laplace ext (priced_labelled h lam) hr hm hN hk hp hpow hs hkap hkappa htau hkind hgen hsig hseed hD hell hexp hδ
  · have hlim := C96_forward_label_noise_laplace ext (priced_labelled h lam') hr hm hN hk hp hpow hs hkap hkappa htau hkind hgen hsig hseed hD hell hexp' hδ
    refine tendsto_of_tendsto_of_tendsto_of_le_of_le tendsto_const_nhds hlim (fun n => zero_le) fun n => measure_mono ?_
    intro ω hω hgood
    obtain ⟨v, D', g', hf, hv⟩ := hgood
    refine hω ⟨v, D', g', hf, ?_⟩
    have h1 := hlub.2 (show population lam' rho D.cost.power D.epsilon (lossAt w ell) (fun i z y => costAt D.cost (X i) z (Y i) y)
      (fun i => sampleLawL2 sigma tau (X i) (Y i)) ∈ upperBounds _ by
        rintro u ⟨Q, hQ, rfl⟩
        exact population_covers hlam' h.eps_pos hexp' hQ)
    have h2 : -δ < v.get [] - population lam' rho D.cost.power D.epsilon (lossAt w ell) (fun i z y => costAt D.cost (X i) z (Y i) y)
      (fun i => sampleLawL2 sigma tau (X i) (Y i)) := (abs_lt.1 hv).1
    linarith

end

/-! ### The hypotheses can be met -/

theorem exA_losses (i : Fin 2) : Integrable (lossAt0 exWA (fun (x : Fin 1 → ℝ) (c : Fin 1) => |x c|)) (laplaceAround 1 (exX i)) := by
  have hc := laplace_cost_integrable (D := exA 0) (X := exX) (exA_noLabels 0).order (by norm_num [exA]) 1 i
  refine ((hc.const_mul 2).add (integrable_const |exX i 0|)).mono' exA_measurable.aestronglyMeasurable (Eventually.of_forall fun z => ?_)
  have := exA_bound 0 i z
  have h2 : (exA 0).lam = 2 := rfl
  rw [h2] at this
  rw [Real.norm_eq_abs, abs_of_nonneg (by rw [exA_loss]; exact abs_nonneg _)]
  simp only [Pi.add_apply]
  linarith

example := C145_worst_case_unlabelled_laplace lapBankExt (X := exX) (exA_noLabels 0) rfl (by norm_num) lapBank_contract
  (c := ⟨.normCost, .fin 1, 1, .nan⟩) rfl rfl (sigma := 1) one_pos rfl rfl rfl rfl rfl exA_measurable (by norm_num [exA])
  exA_losses ⟨2, by norm_num, fun i => exA_exp 0 i _⟩

theorem exB_losses (i : Fin 2) : Integrable (fun u : (Fin 1 → ℝ) × (Fin 1 → ℝ) =>
    lossAt exWB (fun (x y : Fin 1 → ℝ) (c : Fin 1) => |x c - y c|) u.1 u.2) (sampleLawL 1 (exX i) (exX i)) := by
  have hT : _root_.Measurable fun e : Fin 1 → ℝ => ((fun r => exX i r + 1 * e r, exX i) : (Fin 1 → ℝ) × (Fin 1 → ℝ)) :=
    (measurable_pi_lambda _ fun r => ((measurable_pi_apply r).const_mul _).const_add _).prodMk measurable_const
  refine (integrable_map_measure exB_measurable.aestronglyMeasurable hT.aemeasurable).2 ?_
  have h1 : Integrable (fun t : ℝ => |t| ^ (1 : ℝ)) laplaceLaw := laplace_moment one_pos
  refine ((measurePreserving_eval (fun _ : Fin 1 => laplaceLaw) 0).integrable_comp_of_integrable h1).congr (Eventually.of_forall fun e => ?_)
  simp [exB_loss]

example := C145_worst_case_laplace lapBankExt exB_labelled rfl (by norm_num) lapBank_contract (c := ⟨.normCost, .fin 1, 1, .fin 0⟩)
  rfl rfl rfl (sigma := 1) one_pos rfl rfl rfl rfl rfl exB_measurable (X := exX) (Y := exX) rfl (by norm_num [exB])
  exB_losses ⟨2, by norm_num, exB_exp⟩

theorem exLL_losses (i : Fin 2) : Integrable (fun u : (Fin 1 → ℝ) × (Fin 1 → ℝ) =>
    lossAt exWB (fun (x y : Fin 1 → ℝ) (c : Fin 1) => |x c - y c|) u.1 u.2) (sampleLawL2 1 (1 / 2) (exX i) (exX i)) := by
  have hc := sampleLawL2_cost_integrable (D := exLL) (X := exX) (Y := exX) exLL_labelled.cost rfl (kap := 2) zero_le_two rfl (by norm_num [exLL, exD]) 1
    (1 / 2) i
  refine (hc.const_mul 3).mono' exLL_continuous.measurable.aestronglyMeasurable (Eventually.of_forall fun u => ?_)
  have := exLL_bound i u
  rw [Real.norm_eq_abs, exB_loss, abs_of_nonneg (abs_nonneg _)]
  rw [exB_loss] at this
  linarith

example := C145_worst_case_label_noise_laplace twoLapExt (X := exX) (Y := exX) exLL_labelled rfl (by norm_num) twoLap_contract
  (c := ⟨.normLabelCost, .fin 1, 1, .fin 2⟩) rfl rfl rfl (sigma := 1) (tau := 1 / 2) (kappa := 2) (kap := 2) one_pos two_pos rfl rfl rfl rfl rfl rfl rfl
  exLL_continuous.measurable rfl two_pos rfl (by norm_num [exLL, exD]) exLL_losses
  ⟨3, by norm_num, fun i => temperature_integrable (exLL_continuous.sub (continuous_const.mul
    (costAt_continuous (kappa := 2) rfl exLL_order zero_le_two rfl (by norm_num [exLL, exD]) _ _))) (exLL_bound i) (by norm_num [exLL, exD])⟩

end Skwdro
