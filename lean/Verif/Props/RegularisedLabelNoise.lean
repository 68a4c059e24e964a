import Verif.Props.LabelNoiseForward
import Verif.Props.RegularisedWorstCaseUnlabelled

/-!
# C145 with the sampler of a label cost: the adversaries move inputs and labels
-/

namespace Skwdro
open Spec Tensor MeasureTheory ProbabilityTheory InformationTheory Filter
open scoped Topology

section
variable {m d k s : ℕ} {w : WLoss} {D : DualLoss} {ell : (Fin d → ℝ) → (Fin k → ℝ) → Fin s → ℝ} {rho : ℝ}
  {X : Fin m → Fin d → ℝ} {Y : Fin m → Fin k → ℝ} {G : Type} (ext : TorchExt G)

/-- a label cost has a finite mean under normal noise on inputs and labels -/
theorem sampleLaw2_cost_integrable (hcost : GoodCost D.cost) (hDk : D.cost.kind = .normLabelCost) {kap : ℝ} (hkap : 0 ≤ kap)
    (hkappa : D.cost.kappa = .fin kap) (hw : 0 < D.cost.power) (sigma tau : ℝ) (i : Fin m) :
    Integrable (fun u => costAt D.cost (X i) u.1 (Y i) u.2) (sampleLaw2 sigma tau (X i) (Y i)) := by
  have hmeas := costAt_measurable hcost (X i) (Y i)
  have hT := (noised_continuous sigma tau (X i) (Y i)).measurable
  refine (integrable_map_measure hmeas.aestronglyMeasurable hT.aemeasurable).2 ?_
  have h1 := (noise_cost_integrable (D := D) (X := X) hcost.order hw sigma i).comp_fst (Measure.pi fun _ : Fin k => gaussianReal 0 1)
  have h2 := (noise_cost_integrable (D := D) (X := Y) hcost.order hw tau i).comp_snd (Measure.pi fun _ : Fin d => gaussianReal 0 1)
  refine (h1.add h2).mono' (hmeas.comp hT).aestronglyMeasurable (Eventually.of_forall fun e => ?_)
  have ha := pnorm_nonneg D.cost.p (fun q => X i q - (noised sigma tau (X i) (Y i) e).1 q)
  have hb := pnorm_nonneg D.cost.p (fun q => Y i q - (noised sigma tau (X i) (Y i) e).2 q)
  rw [Real.norm_eq_abs, Function.comp, (C05_point_formula D.cost hDk hcost.order _ _ _ _).1 kap hkap hkappa]
  show _ ≤ pnorm D.cost.p (fun q => X i q - (noised sigma tau (X i) (Y i) e).1 q) ^ D.cost.power +
    pnorm D.cost.p (fun q => Y i q - (noised sigma tau (X i) (Y i) e).2 q) ^ D.cost.power
  set a := pnorm D.cost.p (fun q => X i q - (noised sigma tau (X i) (Y i) e).1 q)
  set b := pnorm D.cost.p (fun q => Y i q - (noised sigma tau (X i) (Y i) e).2 q)
  rw [abs_of_nonneg (Real.rpow_nonneg (by positivity) _)]
  have hpa := Real.rpow_nonneg ha D.cost.power
  have hpb := Real.rpow_nonneg hb D.cost.power
  rcases le_total a b with hab | hab
  · have : (a + kap * b) / (1 + kap) ≤ b := by
      rw [div_le_iff₀ (by positivity)]
      linarith
    have := Real.rpow_le_rpow (by positivity) this hw.le
    linarith
  · have : (a + kap * b) / (1 + kap) ≤ a := by
      rw [div_le_iff₀ (by positivity)]
      have := mul_le_mul_of_nonneg_left hab hkap
      linarith
    have := Real.rpow_le_rpow (by positivity) this hw.le
    linarith

/-- some adversary spends less than any positive budget -/
theorem adversary2_exists (hcost : GoodCost D.cost) (hDk : D.cost.kind = .normLabelCost) {kap : ℝ} (hDkap : 0 < kap)
    (hDkappa : D.cost.kappa = .fin kap) (hw : 0 < D.cost.power) {sigma tau : ℝ} (hs : 0 < sigma) (ht : 0 < tau) {r : ℝ} (hr : 0 < r) (hm : 0 < m)
    (hl : ∀ i, Integrable (fun u => lossAt w ell u.1 u.2) (sampleLaw2 sigma tau (X i) (Y i)))
    (hc : ∀ i, Integrable (fun u => costAt D.cost (X i) u.1 (Y i) u.2) (sampleLaw2 sigma tau (X i) (Y i))) :
    ∃ Q, Adversary (fun i z y => costAt D.cost (X i) z (Y i) y) (lossAt w ell) (fun i => sampleLaw2 sigma tau (X i) (Y i)) Q r := by
  set A : Fin m → Set ((Fin d → ℝ) × (Fin k → ℝ)) := fun i => {u | costAt D.cost (X i) u.1 (Y i) u.2 < r} with hAdef
  have hA : ∀ i, MeasurableSet (A i) := fun i => measurableSet_lt (costAt_measurable hcost (X i) (Y i)) measurable_const
  have h0 : ∀ i, sampleLaw2 sigma tau (X i) (Y i) (A i) ≠ 0 := fun i => by
    have := sampleLaw2_open hs ht (X i) (Y i)
    have hc := costAt_continuous hDk hcost.order hDkap.le hDkappa hw (X i) (Y i)
    refine (IsOpen.measure_pos _ (isOpen_lt hc continuous_const) ⟨(X i, Y i), ?_⟩).ne'
    show costAt D.cost (X i) (X i) (Y i) (Y i) < r
    rw [(C05_zero_iff D.cost hDk hcost.order hDkap hDkappa hw _ _ _ _).2 ⟨rfl, rfl⟩]
    exact hr
  have hint : ∀ i (f : (Fin d → ℝ) × (Fin k → ℝ) → ℝ), Integrable f (sampleLaw2 sigma tau (X i) (Y i)) →
      Integrable f (ProbabilityTheory.cond (sampleLaw2 sigma tau (X i) (Y i)) (A i)) := by
    intro i f hf
    exact hf.restrict.smul_measure (ENNReal.inv_ne_top.2 (h0 i))
  refine ⟨fun i => ProbabilityTheory.cond (sampleLaw2 sigma tau (X i) (Y i)) (A i), ⟨fun i => cond_isProbabilityMeasure (h0 i),
    fun i => klDiv_cond (hA i) (h0 i), fun i => hint i _ (hl i), fun i => hint i _ (hc i), ?_⟩⟩
  have hle : ∀ i, ∫ u, costAt D.cost (X i) u.1 (Y i) u.2 ∂(ProbabilityTheory.cond (sampleLaw2 sigma tau (X i) (Y i)) (A i)) ≤ r := by
    intro i
    haveI := cond_isProbabilityMeasure (h0 i)
    have hae : ∀ᵐ u ∂(ProbabilityTheory.cond (sampleLaw2 sigma tau (X i) (Y i)) (A i)), u ∈ A i := by
      rw [ae_iff]
      exact (cond_apply (hA i) _ _).trans (by
        have : A i ∩ {a | a ∉ A i} = ∅ := by ext a; simp
        rw [this]; simp)
    refine (integral_mono_ae (hint i _ (hc i)) (integrable_const r) ?_).trans (by simp)
    filter_upwards [hae] with u hu
    exact le_of_lt hu
  refine (avg_mono hle).trans (le_of_eq ?_)
  have : (m : ℝ) ≠ 0 := by exact_mod_cast hm.ne'
  simp [avg, this]

/-- **C145** A labelled loss with a label cost of positive weight and normal noise, on inputs and labels, under which it is integrable: the expected losses of the adversaries that spend at most `rho^p` on
average, penalised by `epsilon` times their divergence from the noise, have a least upper bound `V`.  For some multiplier the robust loss tends to
`V` in probability as the number of samples grows; for no multiplier that keeps the objective finite does it fall below `V` by a fixed amount. -/
theorem C145_worst_case_label_noise (h : Labelled w D ell rho) (hr : D.reduction = .mean) (hm : 0 < m) {Ω : Type} [MeasurableSpace Ω] {μ : Measure Ω}
    [IsProbabilityMeasure μ] {gen : Ω → G} (hN : NormalContract2 ext μ gen) {c : CostR} (hk : c.kind = .normLabelCost) (hp : c.p = .fin 2 ∨ (c.p = .pinf ∧ c.power = 1))
    {sigma tau kappa kap : ℝ} (hs : 0 < sigma) (hkap : 0 < kappa) (hkappa : c.kappa = .fin kappa)
    (htau : (c.power = 1 ∧ tau = sigma / kappa) ∨ (c.power = 2 ∧ tau = sigma)) {T : Sampler} (hkind : T.kind = .labeledCost)
    (hgen : T.generating_cost = some c) (hsig : T.sigma = some sigma) (hseed : T.seed = none) (hD : D.sampler = some T)
    (hell : _root_.Measurable fun u : (Fin d → ℝ) × (Fin k → ℝ) => lossAt w ell u.1 u.2) (hDk : D.cost.kind = .normLabelCost)
    (hDkap : 0 < kap) (hDkappa : D.cost.kappa = .fin kap) (hw : 0 < D.cost.power)
    (hl : ∀ i, Integrable (fun u => lossAt w ell u.1 u.2) (sampleLaw2 sigma tau (X i) (Y i)))
    (hgrow : ∃ lam0, 0 ≤ lam0 ∧ ∀ i, Integrable (fun u => Real.exp ((lossAt w ell u.1 u.2 - lam0 * costAt D.cost (X i) u.1 (Y i) u.2) / D.epsilon))
      (sampleLaw2 sigma tau (X i) (Y i))) :
    ∃ V, IsLUB {v | ∃ Q, Adversary (fun i z y => costAt D.cost (X i) z (Y i) y) (lossAt w ell) (fun i => sampleLaw2 sigma tau (X i) (Y i)) Q
          (rho ^ D.cost.power) ∧
        v = avg (fun i => ∫ u, lossAt w ell u.1 u.2 ∂(Q i) - D.epsilon * (klDiv (Q i) (sampleLaw2 sigma tau (X i) (Y i))).toReal)} V ∧
      (∃ lam, 0 ≤ lam ∧ ∀ δ > 0, Tendsto (fun n => μ {ω | ¬ ∃ v D' g',
        postForward ext { D with lam := lam, nSamples := n } (mat X) (some (mat Y)) true (gen ω) = .ok (.val v, D', g') ∧
        |v.get [] - V| < δ}) atTop (𝓝 0)) ∧
      ∀ lam, 0 ≤ lam → (∀ i, Integrable (fun u => Real.exp ((lossAt w ell u.1 u.2 - lam * costAt D.cost (X i) u.1 (Y i) u.2) / D.epsilon))
          (sampleLaw2 sigma tau (X i) (Y i))) → ∀ δ > 0,
        Tendsto (fun n => μ {ω | ¬ ∃ v D' g', postForward ext { D with lam := lam, nSamples := n } (mat X) (some (mat Y)) true (gen ω) =
          .ok (.val v, D', g') ∧ V - δ < v.get []}) atTop (𝓝 0) := by
  have ht : 0 < tau := by
    rcases htau with ⟨-, rfl⟩ | ⟨-, rfl⟩
    · exact div_pos hs hkap
    · exact hs
  have hrho : 0 < rho ^ D.cost.power := Real.rpow_pos_of_pos h.rho_pos _
  have hc : ∀ i, Integrable (fun u => costAt D.cost (X i) u.1 (Y i) u.2) (sampleLaw2 sigma tau (X i) (Y i)) := fun i =>
    sampleLaw2_cost_integrable h.cost hDk hDkap.le hDkappa hw sigma tau i
  obtain ⟨Q0, hQ0⟩ := adversary2_exists (X := X) (Y := Y) h.cost hDk hDkap hDkappa hw hs ht (half_pos hrho) hm hl hc
  obtain ⟨lam, hlam, hexp, hlub⟩ := entropic_duality hm h.eps_pos hl hc (half_lt_self hrho) hQ0 hgrow
  refine ⟨_, hlub, ⟨lam, hlam, fun δ hδ => ?_⟩, fun lam' hlam' hexp' δ hδ => ?_⟩
  · exact C96_forward_label_noise ext (priced_labelled h lam) hr hm hN hk hp hs hkap hkappa htau hkind hgen hsig hseed hD hell hexp hδ
  · have hlim := C96_forward_label_noise ext (priced_labelled h lam') hr hm hN hk hp hs hkap hkappa htau hkind hgen hsig hseed hD hell hexp' hδ
    refine tendsto_of_tendsto_of_tendsto_of_le_of_le tendsto_const_nhds hlim (fun n => zero_le) fun n => measure_mono ?_
    intro ω hω hgood
    obtain ⟨v, D', g', hf, hv⟩ := hgood
    refine hω ⟨v, D', g', hf, ?_⟩
    have h1 := hlub.2 (show population lam' rho D.cost.power D.epsilon (lossAt w ell) (fun i z y => costAt D.cost (X i) z (Y i) y)
      (fun i => sampleLaw2 sigma tau (X i) (Y i)) ∈ upperBounds _ by
        rintro u ⟨Q, hQ, rfl⟩
        exact population_covers hlam' h.eps_pos hexp' hQ)
    have h2 : -δ < v.get [] - population lam' rho D.cost.power D.epsilon (lossAt w ell) (fun i z y => costAt D.cost (X i) z (Y i) y)
      (fun i => sampleLaw2 sigma tau (X i) (Y i)) := (abs_lt.1 hv).1
    linarith

end

/-! ### The hypotheses can be met -/

theorem exLN_losses (i : Fin 2) : Integrable (fun u : (Fin 1 → ℝ) × (Fin 1 → ℝ) =>
    lossAt exW (fun (x y : Fin 1 → ℝ) (c : Fin 1) => (x c - y c) ^ 2) u.1 u.2) (sampleLaw2 1 1 (exX i) (exX i)) := by
  have hc := sampleLaw2_cost_integrable (D := exLN) (X := exX) (Y := exX) exD_labelled.cost rfl (kap := 1) zero_le_one rfl (by norm_num [exLN, exD]) 1 1 i
  refine (hc.const_mul 8).mono' exLN_continuous.measurable.aestronglyMeasurable (Eventually.of_forall fun u => ?_)
  have := exLN_bound i u
  rw [Real.norm_eq_abs, exCons_loss, abs_of_nonneg (sq_nonneg _)]
  rw [exCons_loss] at this
  linarith

example := C145_worst_case_label_noise twoBankExt (X := exX) (Y := exX) exLN_labelled rfl (by norm_num) twoBank_contract
  (c := ⟨.normLabelCost, .fin 2, 2, .fin 1⟩) rfl (Or.inl rfl) (sigma := 1) (tau := 1) one_pos one_pos rfl (Or.inr ⟨rfl, rfl⟩) rfl rfl rfl rfl rfl
  exLN_continuous.measurable rfl one_pos rfl (by norm_num [exLN, exD]) exLN_losses
  ⟨8, by norm_num, fun i => temperature_integrable (exLN_continuous.sub (continuous_const.mul
    (costAt_continuous (kappa := 1) rfl exD_labelled.cost.order zero_le_one rfl (by norm_num [exLN, exD]) _ _))) (exLN_bound i) (by norm_num [exLN, exD])⟩

end Skwdro
