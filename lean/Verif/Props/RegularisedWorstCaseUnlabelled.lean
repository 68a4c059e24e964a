import Verif.Props.RegularisedWorstCase

/-!
# The worst case over the regularised adversaries, for losses without labels (C145)
-/

namespace Skwdro
open Spec Tensor MeasureTheory ProbabilityTheory InformationTheory Filter
open scoped Topology

section
variable {m d s : ℕ} {w : WLoss} {D : DualLoss} {ell : (Fin d → ℝ) → Fin s → ℝ} {rho : ℝ} {X : Fin m → Fin d → ℝ} {G : Type} (ext : TorchExt G)

/-- some adversary spends less than any positive budget -/
theorem adversary0_exists (h : NoLabels w D ell rho) (hw : 0 < D.cost.power) {sigma : ℝ} (hs : 0 < sigma) {r : ℝ} (hr : 0 < r) (hm : 0 < m)
    (hl : ∀ i, Integrable (lossAt0 w ell) (Measure.pi fun q => gaussianReal (X i q) (sigma.toNNReal ^ 2))) :
    ∃ Q, Adversary0 (moveCost D X) (lossAt0 w ell) (fun i => Measure.pi fun q => gaussianReal (X i q) (sigma.toNNReal ^ 2)) Q r := by
  set nu : Fin m → Measure (Fin d → ℝ) := fun i => Measure.pi fun q => gaussianReal (X i q) (sigma.toNNReal ^ 2) with hnu
  have hp : ∀ i, IsProbabilityMeasure (nu i) := fun i => by rw [hnu]; infer_instance
  have hc : ∀ i, Integrable (moveCost D X i) (nu i) := fun i => normal_cost_integrable h.order hw hs i
  set A : Fin m → Set (Fin d → ℝ) := fun i => {z | moveCost D X i z < r} with hAdef
  have hopen : ∀ i, IsOpen (A i) := fun i => isOpen_lt (moveCost_continuous h.order hw i) continuous_const
  have h0 : ∀ i, nu i (A i) ≠ 0 := fun i => by
    have := noise_open hs (X i)
    refine ((hopen i).measure_pos (nu i) ⟨X i, ?_⟩).ne'
    simp only [hAdef, Set.mem_setOf_eq, moveCost_self h.order hw i, hr]
  have hint : ∀ i (f : (Fin d → ℝ) → ℝ), Integrable f (nu i) → Integrable f (ProbabilityTheory.cond (nu i) (A i)) := fun i f hf =>
    hf.restrict.smul_measure (ENNReal.inv_ne_top.2 (h0 i))
  refine ⟨fun i => ProbabilityTheory.cond (nu i) (A i), ⟨fun i => cond_isProbabilityMeasure (h0 i),
    fun i => klDiv_cond (hopen i).measurableSet (h0 i), fun i => hint i _ (hl i), fun i => hint i _ (hc i), ?_⟩⟩
  have hle : ∀ i, ∫ z, moveCost D X i z ∂(ProbabilityTheory.cond (nu i) (A i)) ≤ r := by
    intro i
    have := cond_isProbabilityMeasure (h0 i)
    have hae : ∀ᵐ z ∂(ProbabilityTheory.cond (nu i) (A i)), z ∈ A i := by
      rw [ae_iff]
      exact (cond_apply (hopen i).measurableSet _ _).trans (by
        have : A i ∩ {a | a ∉ A i} = ∅ := by ext a; simp
        rw [this]; simp)
    refine (integral_mono_ae (hint i _ (hc i)) (integrable_const r) ?_).trans (by simp)
    filter_upwards [hae] with z hz
    exact le_of_lt hz
  refine (avg_mono hle).trans (le_of_eq ?_)
  have : (m : ℝ) ≠ 0 := by exact_mod_cast hm.ne'
  simp [avg, this]

/-- **C145** Without labels, for every order and power of the transport cost: the same least upper bound, met by some multiplier and never undercut. -/
theorem C145_worst_case_unlabelled (h : NoLabels w D ell rho) (hr : D.reduction = .mean) (hm : 0 < m) {Ω : Type} [MeasurableSpace Ω]
    {μ : Measure Ω} {gen : Ω → G} (hN : NormalContract ext μ gen) {c : CostR} (hp : NormalSampled c) {sigma : ℝ} (hs : 0 < sigma) {T : Sampler} (hkind : T.kind = .noLabelsCost)
    (hgen : T.generating_cost = some c) (hsig : T.sigma = some sigma) (hseed : T.seed = none) (hD : D.sampler = some T)
    (hell : _root_.Measurable (lossAt0 w ell)) (hw : 0 < D.cost.power)
    (hl : ∀ i, Integrable (lossAt0 w ell) (Measure.pi fun q => gaussianReal (X i q) (sigma.toNNReal ^ 2)))
    (hgrow : ∃ lam0, 0 ≤ lam0 ∧ ∀ i, Integrable (fun z => Real.exp ((lossAt0 w ell z - lam0 * moveCost D X i z) / D.epsilon))
      (Measure.pi fun q => gaussianReal (X i q) (sigma.toNNReal ^ 2))) :
    ∃ V, IsLUB {v | ∃ Q, Adversary0 (moveCost D X) (lossAt0 w ell) (fun i => Measure.pi fun q => gaussianReal (X i q) (sigma.toNNReal ^ 2)) Q
          (rho ^ D.cost.power) ∧
        v = avg (fun i => ∫ z, lossAt0 w ell z ∂(Q i) -
          D.epsilon * (klDiv (Q i) (Measure.pi fun q => gaussianReal (X i q) (sigma.toNNReal ^ 2))).toReal)} V ∧
      (∃ lam, 0 ≤ lam ∧ ∀ δ > 0, Tendsto (fun n => μ {ω | ¬ ∃ v D' g',
        postForward ext { D with lam := lam, nSamples := n } (mat X) none true (gen ω) = .ok (.val v, D', g') ∧
        |v.get [] - V| < δ}) atTop (𝓝 0)) ∧
      ∀ lam, 0 ≤ lam → (∀ i, Integrable (fun z => Real.exp ((lossAt0 w ell z - lam * moveCost D X i z) / D.epsilon))
          (Measure.pi fun q => gaussianReal (X i q) (sigma.toNNReal ^ 2))) → ∀ δ > 0,
        Tendsto (fun n => μ {ω | ¬ ∃ v D' g', postForward ext { D with lam := lam, nSamples := n } (mat X) none true (gen ω) =
          .ok (.val v, D', g') ∧ V - δ < v.get []}) atTop (𝓝 0) := by
  have hrho : 0 < rho ^ D.cost.power := Real.rpow_pos_of_pos h.rho_pos _
  obtain ⟨Q0, hQ0⟩ := adversary0_exists (X := X) h hw hs (half_pos hrho) hm hl
  obtain ⟨lam, hlam, hexp, hlub⟩ := entropic_duality0 hm h.eps_pos hell (fun i => moveCost_measurable i) hl
    (fun i => normal_cost_integrable h.order hw hs i) (half_lt_self hrho) hQ0 hgrow
  refine ⟨_, hlub, ⟨lam, hlam, fun δ hδ => ?_⟩, fun lam' hlam' hexp' δ hδ => ?_⟩
  · exact C96_forward_unlabelled ext (priced h lam) hr hm hN hp hs hkind hgen hsig hseed hD hell hexp hδ
  · have hlim := C96_forward_unlabelled ext (priced h lam') hr hm hN hp hs hkind hgen hsig hseed hD hell hexp' hδ
    refine tendsto_of_tendsto_of_tendsto_of_le_of_le tendsto_const_nhds hlim (fun n => zero_le) fun n => measure_mono ?_
    intro ω hω hgood
    obtain ⟨v, D', g', hf, hv⟩ := hgood
    refine hω ⟨v, D', g', hf, ?_⟩
    have h1 := hlub.2 (show populationU lam' rho D.cost.power D.epsilon (lossAt0 w ell) (moveCost D X)
      (fun i => Measure.pi fun q => gaussianReal (X i q) (sigma.toNNReal ^ 2)) ∈ upperBounds _ by
        rintro u ⟨Q, hQ, rfl⟩
        exact population_covers0 hlam' h.eps_pos hexp' hQ)
    have h2 : -δ < v.get [] - populationU lam' rho D.cost.power D.epsilon (lossAt0 w ell) (moveCost D X)
      (fun i => Measure.pi fun q => gaussianReal (X i q) (sigma.toNNReal ^ 2)) := (abs_lt.1 hv).1
    linarith

end

/-! ### The hypotheses can be met -/

example := C145_worst_case_unlabelled bankExt (X := exX) (exU_noLabels 0) rfl (by norm_num) bank_contract
  (c := ⟨.normCost, .fin 2, 2, .nan⟩) (Or.inl ⟨rfl, Or.inr rfl⟩) (sigma := 1) one_pos rfl rfl rfl rfl rfl exU_measurable (by norm_num [exU])
  (fun i => by
    rw [show lossAt0 exW0 (fun (x : Fin 1 → ℝ) (c : Fin 1) => x c ^ 2) = fun z => 1 * z 0 ^ 2 + 0 * z 0 + 9 from
      funext fun z => by rw [exU_loss]; ring]
    rw [← noise_marginal one_pos]
    exact exU_quadratic i _ _ _)
  ⟨2, by norm_num, fun i => exU_exp 0 i _⟩

end Skwdro
