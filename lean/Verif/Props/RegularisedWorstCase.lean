import Verif.Lemmas.NormalCost

/-!
# The robust loss at the best multiplier is the worst case over the regularised adversaries (C145)
-/

namespace Skwdro
open Spec Tensor MeasureTheory ProbabilityTheory InformationTheory Filter
open scoped Topology

section
variable {m d k s : ℕ} {w : WLoss} {D : DualLoss} {ell : (Fin d → ℝ) → (Fin k → ℝ) → Fin s → ℝ} {rho : ℝ}
  {X : Fin m → Fin d → ℝ} {Y : Fin m → Fin k → ℝ} {G : Type} (ext : TorchExt G)

theorem sampleLaw_prob (sigma : ℝ) (x : Fin d → ℝ) (y : Fin k → ℝ) : IsProbabilityMeasure (sampleLaw sigma x y) :=
  Measure.isProbabilityMeasure_map
    ((measurable_pi_lambda _ fun r => ((measurable_pi_apply r).const_mul _).const_add _).prodMk measurable_const).aemeasurable

/-- the noise falls near the data with a positive probability -/
theorem sampleLaw_near (h : Labelled w D ell rho) (hplain : D.cost.kind = .normCost) (hw : 0 < D.cost.power) (sigma : ℝ) {r : ℝ} (hr : 0 < r) (i : Fin m) :
    sampleLaw sigma (X i) (Y i) {u | costAt D.cost (X i) u.1 (Y i) u.2 < r} ≠ 0 := by
  have hT : _root_.Measurable fun e : Fin d → ℝ => ((fun q => X i q + sigma * e q, Y i) : (Fin d → ℝ) × (Fin k → ℝ)) :=
    (measurable_pi_lambda _ fun r => ((measurable_pi_apply r).const_mul _).const_add _).prodMk measurable_const
  have hA : MeasurableSet {u : (Fin d → ℝ) × (Fin k → ℝ) | costAt D.cost (X i) u.1 (Y i) u.2 < r} :=
    measurableSet_lt (costAt_measurable h.cost (X i) (Y i)) measurable_const
  rw [sampleLaw, Measure.map_apply hT hA]
  have e : (fun e : Fin d → ℝ => ((fun q => X i q + sigma * e q, Y i) : (Fin d → ℝ) × (Fin k → ℝ))) ⁻¹'
      {u | costAt D.cost (X i) u.1 (Y i) u.2 < r} = {e | moveCost D X i (fun q => X i q + sigma * e q) < r} := by
    ext e
    simp only [Set.mem_preimage, Set.mem_setOf_eq]
    rw [C04_point_formula D.cost hplain h.cost.order]
    rfl
  rw [e]
  have hc : Continuous fun e : Fin d → ℝ => moveCost D X i (fun q => X i q + sigma * e q) :=
    (moveCost_continuous h.cost.order hw i).comp (continuous_pi fun q => continuous_const.add (continuous_const.mul (continuous_apply q)))
  refine (IsOpen.measure_pos _ (isOpen_lt hc continuous_const) ⟨0, ?_⟩).ne'
  have : (fun q => X i q + sigma * (0 : Fin d → ℝ) q) = X i := by funext q; simp
  simp only [Set.mem_setOf_eq, this, moveCost_self h.cost.order hw i, hr]

/-- some adversary spends less than any positive budget -/
theorem adversary_exists (h : Labelled w D ell rho) (hplain : D.cost.kind = .normCost) (hw : 0 < D.cost.power) (sigma : ℝ) {r : ℝ} (hr : 0 < r) (hm : 0 < m)
    (hl : ∀ i, Integrable (fun u => lossAt w ell u.1 u.2) (sampleLaw sigma (X i) (Y i)))
    (hc : ∀ i, Integrable (fun u => costAt D.cost (X i) u.1 (Y i) u.2) (sampleLaw sigma (X i) (Y i))) :
    ∃ Q, Adversary (fun i z y => costAt D.cost (X i) z (Y i) y) (lossAt w ell) (fun i => sampleLaw sigma (X i) (Y i)) Q r := by
  have hp := fun i => sampleLaw_prob sigma (X i) (Y i)
  set A : Fin m → Set ((Fin d → ℝ) × (Fin k → ℝ)) := fun i => {u | costAt D.cost (X i) u.1 (Y i) u.2 < r} with hAdef
  have hA : ∀ i, MeasurableSet (A i) := fun i => measurableSet_lt (costAt_measurable h.cost (X i) (Y i)) measurable_const
  have h0 : ∀ i, sampleLaw sigma (X i) (Y i) (A i) ≠ 0 := fun i => sampleLaw_near h hplain hw sigma hr i
  have hint : ∀ i (f : (Fin d → ℝ) × (Fin k → ℝ) → ℝ), Integrable f (sampleLaw sigma (X i) (Y i)) →
      Integrable f (ProbabilityTheory.cond (sampleLaw sigma (X i) (Y i)) (A i)) := by
    intro i f hf
    exact hf.restrict.smul_measure (ENNReal.inv_ne_top.2 (h0 i))
  refine ⟨fun i => ProbabilityTheory.cond (sampleLaw sigma (X i) (Y i)) (A i), ⟨fun i => cond_isProbabilityMeasure (h0 i),
    fun i => klDiv_cond (hA i) (h0 i), fun i => hint i _ (hl i), fun i => hint i _ (hc i), ?_⟩⟩
  have hle : ∀ i, ∫ u, costAt D.cost (X i) u.1 (Y i) u.2 ∂(ProbabilityTheory.cond (sampleLaw sigma (X i) (Y i)) (A i)) ≤ r := by
    intro i
    haveI := cond_isProbabilityMeasure (h0 i)
    have hae : ∀ᵐ u ∂(ProbabilityTheory.cond (sampleLaw sigma (X i) (Y i)) (A i)), u ∈ A i := by
      rw [ae_iff]
      exact (cond_apply (hA i) _ _).trans (by
        have : A i ∩ {a | a ∉ A i} = ∅ := by ext a; simp
        rw [this]; simp)
    refine (integral_mono_ae (hint i _ (hc i)) (integrable_const r) ?_).trans (by simp)
    filter_upwards [hae] with u hu
    exact le_of_lt hu
  refine (avg_mono hle).trans (le_of_eq ?_)
  have : (m : ℝ) ≠ 0 := by exact_mod_cast hm.ne'
  simp [avg, this]

/-- **C145** A labelled loss with a plain cost and normal noise under which it is integrable: the expected losses of the adversaries that spend at most `rho^p` on
average, penalised by `epsilon` times their divergence from the noise, have a least upper bound `V`.  For some multiplier the robust loss tends to
`V` in probability as the number of samples grows; for no multiplier that keeps the objective finite does it fall below `V` by a fixed amount. -/
theorem C145_worst_case (h : Labelled w D ell rho) (hr : D.reduction = .mean) (hm : 0 < m) {Ω : Type} [MeasurableSpace Ω] {μ : Measure Ω}
    [IsProbabilityMeasure μ] {gen : Ω → G} (hN : NormalContract ext μ gen) {c : CostR} (hk : c.kind = .normCost) (hp : NormalSampled c) {sigma : ℝ} (hs : 0 < sigma) {T : Sampler} (hkind : T.kind = .labeledCost)
    (hgen : T.generating_cost = some c) (hsig : T.sigma = some sigma) (hseed : T.seed = none) (hD : D.sampler = some T)
    (hell : _root_.Measurable fun u : (Fin d → ℝ) × (Fin k → ℝ) => lossAt w ell u.1 u.2) (hplain : D.cost.kind = .normCost) (hw : 0 < D.cost.power)
    (hl : ∀ i, Integrable (fun u => lossAt w ell u.1 u.2) (sampleLaw sigma (X i) (Y i)))
    (hgrow : ∃ lam0, 0 ≤ lam0 ∧ ∀ i, Integrable (fun u => Real.exp ((lossAt w ell u.1 u.2 - lam0 * costAt D.cost (X i) u.1 (Y i) u.2) / D.epsilon))
      (sampleLaw sigma (X i) (Y i))) :
    ∃ V, IsLUB {v | ∃ Q, Adversary (fun i z y => costAt D.cost (X i) z (Y i) y) (lossAt w ell) (fun i => sampleLaw sigma (X i) (Y i)) Q
          (rho ^ D.cost.power) ∧
        v = avg (fun i => ∫ u, lossAt w ell u.1 u.2 ∂(Q i) - D.epsilon * (klDiv (Q i) (sampleLaw sigma (X i) (Y i))).toReal)} V ∧
      (∃ lam, 0 ≤ lam ∧ ∀ δ > 0, Tendsto (fun n => μ {ω | ¬ ∃ v D' g',
        postForward ext { D with lam := lam, nSamples := n } (mat X) (some (mat Y)) true (gen ω) = .ok (.val v, D', g') ∧
        |v.get [] - V| < δ}) atTop (𝓝 0)) ∧
      ∀ lam, 0 ≤ lam → (∀ i, Integrable (fun u => Real.exp ((lossAt w ell u.1 u.2 - lam * costAt D.cost (X i) u.1 (Y i) u.2) / D.epsilon))
          (sampleLaw sigma (X i) (Y i))) → ∀ δ > 0,
        Tendsto (fun n => μ {ω | ¬ ∃ v D' g', postForward ext { D with lam := lam, nSamples := n } (mat X) (some (mat Y)) true (gen ω) =
          .ok (.val v, D', g') ∧ V - δ < v.get []}) atTop (𝓝 0) := by
  haveI := fun i => sampleLaw_prob sigma (X i) (Y i)
  have hrho : 0 < rho ^ D.cost.power := Real.rpow_pos_of_pos h.rho_pos _
  have hc : ∀ i, Integrable (fun u => costAt D.cost (X i) u.1 (Y i) u.2) (sampleLaw sigma (X i) (Y i)) := fun i =>
    sampleLaw_cost_integrable h.cost hplain hw sigma i
  obtain ⟨Q0, hQ0⟩ := adversary_exists (X := X) (Y := Y) h hplain hw sigma (half_pos hrho) hm hl hc
  obtain ⟨lam, hlam, hexp, hlub⟩ := entropic_duality hm h.eps_pos hl hc (half_lt_self hrho) hQ0 hgrow
  refine ⟨_, hlub, ⟨lam, hlam, fun δ hδ => ?_⟩, fun lam' hlam' hexp' δ hδ => ?_⟩
  · exact C96_forward ext (priced_labelled h lam) hr hm hN hk hp hs hkind hgen hsig hseed hD hell hexp hδ
  · have hlim := C96_forward ext (priced_labelled h lam') hr hm hN hk hp hs hkind hgen hsig hseed hD hell hexp' hδ
    refine tendsto_of_tendsto_of_tendsto_of_le_of_le tendsto_const_nhds hlim (fun n => zero_le) fun n => measure_mono ?_
    intro ω hω hgood
    obtain ⟨v, D', g', hf, hv⟩ := hgood
    refine hω ⟨v, D', g', hf, ?_⟩
    have h1 := hlub.2 (show population lam' rho D.cost.power D.epsilon (lossAt w ell) (fun i z y => costAt D.cost (X i) z (Y i) y)
      (fun i => sampleLaw sigma (X i) (Y i)) ∈ upperBounds _ by
        rintro u ⟨Q, hQ, rfl⟩
        exact population_covers hlam' h.eps_pos hexp' hQ)
    have h2 : -δ < v.get [] - population lam' rho D.cost.power D.epsilon (lossAt w ell) (fun i z y => costAt D.cost (X i) z (Y i) y)
      (fun i => sampleLaw sigma (X i) (Y i)) := (abs_lt.1 hv).1
    linarith

end

/-! ### The hypotheses can be met -/

theorem sampleLaw_square (x y : Fin 1 → ℝ) (a : ℝ) :
    Integrable (fun u : (Fin 1 → ℝ) × (Fin 1 → ℝ) => (u.1 0 - a) ^ 2) (sampleLaw 1 x y) := by
  have hT : _root_.Measurable fun e : Fin 1 → ℝ => ((fun r => x r + 1 * e r, y) : (Fin 1 → ℝ) × (Fin 1 → ℝ)) :=
    (measurable_pi_lambda _ fun r => ((measurable_pi_apply r).const_mul _).const_add _).prodMk measurable_const
  have h0 : _root_.Measurable fun u : (Fin 1 → ℝ) × (Fin 1 → ℝ) => u.1 0 := (measurable_pi_apply 0).comp measurable_fst
  have h1 : _root_.Measurable fun u : (Fin 1 → ℝ) × (Fin 1 → ℝ) => (u.1 0 - a) ^ 2 := (h0.sub_const a).pow_const 2
  refine (integrable_map_measure h1.aestronglyMeasurable hT.aemeasurable).2 ?_
  have e : ((fun u : (Fin 1 → ℝ) × (Fin 1 → ℝ) => (u.1 0 - a) ^ 2) ∘ fun e : Fin 1 → ℝ => (fun r => x r + 1 * e r, y)) =
      (fun t : ℝ => (t + (x 0 - a)) ^ 2) ∘ fun e : Fin 1 → ℝ => e 0 := by
    funext e
    simp
    ring
  rw [e]
  exact (measurePreserving_eval (fun _ : Fin 1 => gaussianReal 0 1) 0).integrable_comp_of_integrable
    (((memLp_id_gaussianReal 2).add (memLp_const (x 0 - a))).integrable_sq)

theorem exCons_square_losses (i : Fin 2) : Integrable (fun u : (Fin 1 → ℝ) × (Fin 1 → ℝ) =>
    lossAt exW (fun (x y : Fin 1 → ℝ) (c : Fin 1) => (x c - y c) ^ 2) u.1 u.2) (sampleLaw 1 (exX i) (exShift i)) := by
  simp only [exCons_loss]
  have hT : _root_.Measurable fun e : Fin 1 → ℝ => ((fun r => exX i r + 1 * e r, exShift i) : (Fin 1 → ℝ) × (Fin 1 → ℝ)) :=
    (measurable_pi_lambda _ fun r => ((measurable_pi_apply r).const_mul _).const_add _).prodMk measurable_const
  have h1 : _root_.Measurable fun u : (Fin 1 → ℝ) × (Fin 1 → ℝ) => (u.1 0 - u.2 0) ^ 2 :=
    (((measurable_pi_apply 0).comp measurable_fst).sub ((measurable_pi_apply 0).comp measurable_snd)).pow_const 2
  refine (integrable_map_measure h1.aestronglyMeasurable hT.aemeasurable).2 ?_
  have h0 : _root_.Measurable fun u : (Fin 1 → ℝ) × (Fin 1 → ℝ) => u.1 0 := (measurable_pi_apply 0).comp measurable_fst
  have h2 : _root_.Measurable fun u : (Fin 1 → ℝ) × (Fin 1 → ℝ) => (u.1 0 - exShift i 0) ^ 2 := (h0.sub_const _).pow_const 2
  exact (integrable_map_measure h2.aestronglyMeasurable hT.aemeasurable).1 (sampleLaw_square (exX i) (exShift i) (exShift i 0))

example := C145_worst_case bankExt exCons_labelled rfl (by norm_num) bank_contract (c := ⟨.normCost, .fin 2, 2, .fin 0⟩)
  rfl (Or.inl ⟨rfl, Or.inr rfl⟩) (sigma := 1) one_pos rfl rfl rfl rfl rfl exCons_measurable (X := exX) (Y := exShift) rfl (by norm_num [exCons])
  exCons_square_losses
  ⟨2, by norm_num, fun i => (sampleLaw_integral (exCons_priced 2) exCons_measurable 1 exCons.epsilon i).1.2
    (temperature_integrable (gain_continuous (exCons_gain_continuous 2) 1 i) (S := 2) (fun e => (exCons_lub i).1 ⟨_, rfl⟩) exCons_labelled.eps_pos)⟩

end Skwdro
