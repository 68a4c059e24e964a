import Verif.Lemmas.UniformTemperature
import Verif.Props.BallWorstCase

/-!
# Whatever the multiplier, small temperatures do not understate the worst case (C146)
-/

namespace Skwdro
open Spec Tensor MeasureTheory ProbabilityTheory Filter
open scoped Topology

section
variable {m d s : ℕ} {w : WLoss} {D : DualLoss} {ell : (Fin d → ℝ) → Fin s → ℝ} {rho : ℝ} {X : Fin m → Fin d → ℝ} {G : Type} (ext : TorchExt G)

/-- **C146** A continuous loss without labels that grows no faster than the transport cost, `V` being its worst expected value within transport distance `rho` of
the data.  One multiplier makes the robust loss at most `V`, up to any margin, at every temperature; and below some temperature, no multiplier
at all that keeps the objective finite makes it smaller than `V` by the given margin: with a probability that tends to one as the number of samples
grows. -/
theorem C146_uniform (h : NoLabels w D ell rho) (hr : D.reduction = .mean) (hm : 0 < m) {Ω : Type} [MeasurableSpace Ω]
    {μ : Measure Ω} {gen : Ω → G} (hN : NormalContract ext μ gen) {c : CostR} (hp : NormalSampled c) {sigma : ℝ} (hs : 0 < sigma) {T : Sampler} (hkind : T.kind = .noLabelsCost)
    (hgen : T.generating_cost = some c) (hsig : T.sigma = some sigma) (hseed : T.seed = none) (hD : D.sampler = some T)
    (hcont : Continuous (lossAt0 w ell)) (hw : 0 < D.cost.power)
    (hgrow : ∃ lam0, 0 ≤ lam0 ∧ ∀ i, BddAbove (Set.range (gain0 w { D with lam := lam0 } ell X i))) :
    ∃ V, IsLUB {v | ∃ Q : Measure (Fin d → ℝ), InBall X (fun a b => pnorm D.cost.p (fun q => a q - b q) ^ D.cost.power) (rho ^ D.cost.power) Q ∧
        Integrable (lossAt0 w ell) Q ∧ v = ∫ z, lossAt0 w ell z ∂Q} V ∧
      (∃ lam, 0 ≤ lam ∧ ∀ eps > 0, ∀ δ > 0, Tendsto (fun n => μ {ω | ¬ ∃ v D' g',
        postForward ext { D with lam := lam, epsilon := eps, nSamples := n } (mat X) none true (gen ω) = .ok (.val v, D', g') ∧ v.get [] < V + δ})
        atTop (𝓝 0)) ∧
      ∀ δ > 0, ∃ e0 > 0, ∀ eps lam : ℝ, 0 < eps → eps ≤ e0 → 0 ≤ lam →
        (∀ i, Integrable (fun z => Real.exp ((lossAt0 w ell z - lam * moveCost D X i z) / eps)) (Measure.pi fun q => gaussianReal (X i q) (sigma.toNNReal ^ 2))) →
        Tendsto (fun n => μ {ω | ¬ ∃ v D' g', postForward ext { D with lam := lam, epsilon := eps, nSamples := n } (mat X) none true (gen ω) =
          .ok (.val v, D', g') ∧ V - δ < v.get []}) atTop (𝓝 0) := by
  have hcg : ∀ lam i, Continuous fun z => lossAt0 w ell z - lam * moveCost D X i z := fun lam i =>
    hcont.sub (continuous_const.mul (moveCost_continuous h.order hw i))
  have hrho : 0 < rho ^ D.cost.power := Real.rpow_pos_of_pos h.rho_pos _
  obtain ⟨lam, hlam, hbd, hlub⟩ := transport_duality (c := moveCost D X) (l := fun _ => lossAt0 w ell) hm hrho X (fun i => moveCost_self h.order hw i)
    (fun i e => Real.rpow_nonneg (pnorm_nonneg _ _) _) hgrow
  rw [ball_losses hcont.measurable]
  refine ⟨_, hlub, ⟨lam, hlam, fun eps he δ hδ => ?_⟩, fun δ hδ => ?_⟩
  · have key := C96_forward_unlabelled ext (X := X) (tempered0 (priced h lam) he) hr hm hN hp hs hkind hgen hsig hseed hD hcont.measurable
      (fun i => temperature_integrable (hcg lam i) (fun z => le_csSup (hbd i) ⟨z, rfl⟩) he) hδ
    refine tendsto_of_tendsto_of_tendsto_of_le_of_le tendsto_const_nhds key (fun n => zero_le) fun n => measure_mono ?_
    intro ω hω hgood
    obtain ⟨v, D', g', hf, hv⟩ := hgood
    refine hω ⟨v, D', g', hf, ?_⟩
    have h1 : populationU lam rho D.cost.power eps (lossAt0 w ell) (moveCost D X) (fun i => Measure.pi fun q => gaussianReal (X i q) (sigma.toNNReal ^ 2)) ≤
        lam * rho ^ D.cost.power + avg fun i => sSup (Set.range fun e => lossAt0 w ell e - lam * moveCost D X i e) :=
      add_le_add_right (avg_mono fun i => temperature_upper (hcg lam i) (fun z => le_csSup (hbd i) ⟨z, rfl⟩) he) _
    have h2 : v.get [] - populationU lam rho D.cost.power eps (lossAt0 w ell) (moveCost D X) (fun i => Measure.pi fun q => gaussianReal (X i q) (sigma.toNNReal ^ 2)) < δ :=
      (abs_lt.1 hv).2
    linarith
  · have := fun i => noise_open hs (X i)
    obtain ⟨e0, he0, hlow⟩ := uniform_temperature (nu := fun i => Measure.pi fun q => gaussianReal (X i q) (sigma.toNNReal ^ 2)) hm (fun _ => hcont)
      (fun i => moveCost_continuous h.order hw i) X (fun i => moveCost_self h.order hw i) hrho hlub (half_pos hδ)
    refine ⟨e0, he0, fun eps lam' he hle hlam' hi => ?_⟩
    have key := C96_forward_unlabelled ext (X := X) (tempered0 (priced h lam') he) hr hm hN hp hs hkind hgen hsig hseed hD hcont.measurable hi (half_pos hδ)
    refine tendsto_of_tendsto_of_tendsto_of_le_of_le tendsto_const_nhds key (fun n => zero_le) fun n => measure_mono ?_
    intro ω hω hgood
    obtain ⟨v, D', g', hf, hv⟩ := hgood
    refine hω ⟨v, D', g', hf, ?_⟩
    have h1 := hlow eps lam' he hle hlam' hi
    have h2 : -(δ / 2) < v.get [] - (lam' * rho ^ D.cost.power + avg fun i => eps * Real.log (∫ z, Real.exp ((lossAt0 w ell z - lam' * moveCost D X i z) / eps)
      ∂(Measure.pi fun q => gaussianReal (X i q) (sigma.toNNReal ^ 2)))) := (abs_lt.1 hv).1
    linarith

end

section
variable {m d k s : ℕ} {w : WLoss} {D : DualLoss} {ell : (Fin d → ℝ) → (Fin k → ℝ) → Fin s → ℝ} {rho : ℝ}
  {X : Fin m → Fin d → ℝ} {Y : Fin m → Fin k → ℝ} {G : Type} (ext : TorchExt G)

theorem tempered_labelled (h : Labelled w D ell rho) {eps : ℝ} (he : 0 < eps) : Labelled w { D with epsilon := eps } ell rho :=
  ⟨h.primal, h.hasLabels, h.reduceSpatial, h.s_pos, h.rows, h.cost, h.rho_eq, h.rho_pos, he, h.erm, h.imp⟩

/-- a plan of displacements, in units of the noise, is a plan of destinations -/
theorem planLosses_noise {c l : Fin m → (Fin d → ℝ) → ℝ} (hc : ∀ i, _root_.Measurable (c i)) (hl : ∀ i, _root_.Measurable (l i)) {sigma : ℝ} (hs : 0 < sigma) (r : ℝ) :
    PlanLosses (fun i (e : Fin d → ℝ) => c i fun q => X i q + sigma * e q) (fun i (e : Fin d → ℝ) => l i fun q => X i q + sigma * e q) r = PlanLosses c l r := by
  have hq : ∀ q, _root_.Measurable fun p : Fin m × (Fin d → ℝ) => p.2 q := fun q => (measurable_pi_apply q).comp measurable_snd
  have hX : ∀ q, _root_.Measurable fun p : Fin m × (Fin d → ℝ) => X p.1 q := fun q => (measurable_of_finite fun i : Fin m => X i q).comp measurable_fst
  have hT : _root_.Measurable fun p : Fin m × (Fin d → ℝ) => (p.1, fun q => X p.1 q + sigma * p.2 q) := by
    exact measurable_fst.prodMk (measurable_pi_lambda _ fun q => (hX q).add ((hq q).const_mul sigma))
  have hS : _root_.Measurable fun p : Fin m × (Fin d → ℝ) => (p.1, fun q => (p.2 q - X p.1 q) / sigma) := by
    exact measurable_fst.prodMk (measurable_pi_lambda _ fun q => ((hq q).sub (hX q)).div_const sigma)
  have hf : ∀ f : Fin m → (Fin d → ℝ) → ℝ, (∀ i, _root_.Measurable (f i)) → _root_.Measurable fun p : Fin m × (Fin d → ℝ) => f p.1 p.2 := fun f h =>
    measurable_from_prod_countable_right h
  have hg : ∀ f : Fin m → (Fin d → ℝ) → ℝ, (∀ i, _root_.Measurable (f i)) →
      _root_.Measurable fun p : Fin m × (Fin d → ℝ) => f p.1 fun q => X p.1 q + sigma * p.2 q := fun f h => (hf f h).comp hT
  have hback : ∀ (i : Fin m) (z : Fin d → ℝ), (fun q => X i q + sigma * ((z q - X i q) / sigma)) = z := fun i z => by
    funext q
    field_simp
    ring
  ext v
  constructor
  · rintro ⟨π, h1, h2, h3, h4, h5, rfl⟩
    refine ⟨π.map _, Measure.isProbabilityMeasure_map hT.aemeasurable, fun i => ?_,
      (integrable_map_measure (hf c hc).aestronglyMeasurable hT.aemeasurable).2 h3,
      (integrable_map_measure (hf l hl).aestronglyMeasurable hT.aemeasurable).2 h4, ?_, ?_⟩
    · exact (map_measureReal_apply hT (s := {p | p.1 = i}) (measurable_fst (measurableSet_singleton i))).trans (h2 i)
    · rw [integral_map hT.aemeasurable (hf c hc).aestronglyMeasurable]
      exact h5
    · rw [integral_map hT.aemeasurable (hf l hl).aestronglyMeasurable]
  · rintro ⟨π, h1, h2, h3, h4, h5, rfl⟩
    refine ⟨π.map _, Measure.isProbabilityMeasure_map hS.aemeasurable, fun i => ?_,
      (integrable_map_measure (hg c hc).aestronglyMeasurable hS.aemeasurable).2 ?_,
      (integrable_map_measure (hg l hl).aestronglyMeasurable hS.aemeasurable).2 ?_, ?_, ?_⟩
    · exact (map_measureReal_apply hS (s := {p | p.1 = i}) (measurable_fst (measurableSet_singleton i))).trans (h2 i)
    · simpa only [Function.comp_def, hback] using h3
    · simpa only [Function.comp_def, hback] using h4
    · rw [integral_map hS.aemeasurable (hg c hc).aestronglyMeasurable]
      simpa only [hback] using h5
    · rw [integral_map hS.aemeasurable (hg l hl).aestronglyMeasurable]
      simp only [hback]

/-- **C146** With labels and a plain cost: the same, for the plans that move the inputs and keep every label with its data point. -/
theorem C146_uniform_labelled (h : Labelled w D ell rho) (hr : D.reduction = .mean) (hm : 0 < m) {Ω : Type} [MeasurableSpace Ω] {μ : Measure Ω}
    [IsProbabilityMeasure μ] {gen : Ω → G} (hN : NormalContract ext μ gen) {c : CostR} (hk : c.kind = .normCost) (hp : NormalSampled c) {sigma : ℝ} (hs : 0 < sigma) {T : Sampler} (hkind : T.kind = .labeledCost)
    (hgen : T.generating_cost = some c) (hsig : T.sigma = some sigma) (hseed : T.seed = none) (hD : D.sampler = some T)
    (hell : _root_.Measurable fun u : (Fin d → ℝ) × (Fin k → ℝ) => lossAt w ell u.1 u.2) (hcont : ∀ i, Continuous fun z => lossAt w ell z (Y i))
    (hplain : D.cost.kind = .normCost) (hw : 0 < D.cost.power)
    (hgrow : ∃ lam0, 0 ≤ lam0 ∧ ∀ i, BddAbove (Set.range (gain w { D with lam := lam0 } ell X Y i))) :
    ∃ V, IsLUB (PlanLosses (fun i z => pnorm D.cost.p (fun q => X i q - z q) ^ D.cost.power) (fun i z => lossAt w ell z (Y i)) (rho ^ D.cost.power)) V ∧
      (∃ lam, 0 ≤ lam ∧ ∀ eps > 0, ∀ δ > 0, Tendsto (fun n => μ {ω | ¬ ∃ v D' g',
        postForward ext { D with lam := lam, epsilon := eps, nSamples := n } (mat X) (some (mat Y)) true (gen ω) = .ok (.val v, D', g') ∧
        v.get [] < V + δ}) atTop (𝓝 0)) ∧
      ∀ δ > 0, ∃ e0 > 0, ∀ eps lam : ℝ, 0 < eps → eps ≤ e0 → 0 ≤ lam →
        (∀ i, Integrable (fun u => Real.exp ((lossAt w ell u.1 u.2 - lam * costAt D.cost (X i) u.1 (Y i) u.2) / eps)) (sampleLaw sigma (X i) (Y i))) →
        Tendsto (fun n => μ {ω | ¬ ∃ v D' g', postForward ext { D with lam := lam, epsilon := eps, nSamples := n } (mat X) (some (mat Y)) true (gen ω) =
          .ok (.val v, D', g') ∧ V - δ < v.get []}) atTop (𝓝 0) := by
  have hgain : ∀ lam i, gain w { D with lam := lam } ell X Y i = fun z => lossAt w ell z (Y i) - lam * moveCost D X i z := fun lam i => funext fun z => by
    unfold gain
    rw [C04_point_formula D.cost hplain h.cost.order]
    rfl
  have hcg : ∀ lam i, Continuous (gain w { D with lam := lam } ell X Y i) := fun lam i => by
    rw [hgain]
    exact (hcont i).sub (continuous_const.mul (moveCost_continuous h.cost.order hw i))
  have hrho : 0 < rho ^ D.cost.power := Real.rpow_pos_of_pos h.rho_pos _
  simp only [hgain] at hgrow
  obtain ⟨lam, hlam, hbd, hlub⟩ := transport_duality (c := moveCost D X) (l := fun i z => lossAt w ell z (Y i)) hm hrho X
    (fun i => moveCost_self h.cost.order hw i) (fun i e => Real.rpow_nonneg (pnorm_nonneg _ _) _) hgrow
  have hpop : ∀ lam eps, population lam rho D.cost.power eps (lossAt w ell) (fun i z y => costAt D.cost (X i) z (Y i) y) (fun i => sampleLaw sigma (X i) (Y i)) =
      lam * rho ^ D.cost.power + avg fun i => eps * Real.log (∫ e : Fin d → ℝ, Real.exp ((lossAt w ell (fun q => X i q + sigma * e q) (Y i) -
        lam * moveCost D X i (fun q => X i q + sigma * e q)) / eps) ∂(Measure.pi fun _ => gaussianReal 0 1)) := by
    intro lam eps
    unfold population
    congr 2
    funext i
    congr 2
    have := (sampleLaw_integral (X := X) (Y := Y) (priced_labelled h lam) hell sigma eps i).2
    simp only [hgain] at this
    exact this
  have hshift : ∀ f : (Fin d → ℝ) → ℝ, Continuous f → ∀ i : Fin m, Continuous fun e : Fin d → ℝ => f fun q => X i q + sigma * e q := fun f hf i =>
    hf.comp (continuous_pi fun q => continuous_const.add (continuous_const.mul (continuous_apply q)))
  refine ⟨_, hlub, ⟨lam, hlam, fun eps he δ hδ => ?_⟩, fun δ hδ => ?_⟩
  · have hint := fun i => temperature_integrable (μ := Measure.pi fun _ : Fin d => gaussianReal 0 1) (gain_continuous (hcg lam) sigma i)
      (fun e => by rw [hgain]; exact le_csSup (hbd i) ⟨_, rfl⟩) he
    have key := C96_forward ext (tempered_labelled (priced_labelled h lam) he) hr hm hN hk hp hs hkind hgen hsig hseed hD hell
      (fun i => (sampleLaw_integral (priced_labelled h lam) hell sigma eps i).1.2 (hint i)) hδ
    refine tendsto_of_tendsto_of_tendsto_of_le_of_le tendsto_const_nhds key (fun n => zero_le) fun n => measure_mono ?_
    intro ω hω hgood
    obtain ⟨v, D', g', hf, hv⟩ := hgood
    refine hω ⟨v, D', g', hf, ?_⟩
    have h1 : population lam rho D.cost.power eps (lossAt w ell) (fun i z y => costAt D.cost (X i) z (Y i) y) (fun i => sampleLaw sigma (X i) (Y i)) ≤
        lam * rho ^ D.cost.power + avg fun i => sSup (Set.range fun z => lossAt w ell z (Y i) - lam * moveCost D X i z) := by
      rw [hpop]
      refine add_le_add_right (avg_mono fun i => temperature_upper ?_ (fun e => le_csSup (hbd i) ⟨_, rfl⟩) he) _
      exact (hshift _ (hcont i) i).sub (continuous_const.mul (hshift _ (moveCost_continuous h.cost.order hw i) i))
    have h2 : v.get [] - population lam rho D.cost.power eps (lossAt w ell) (fun i z y => costAt D.cost (X i) z (Y i) y) (fun i => sampleLaw sigma (X i) (Y i)) < δ :=
      (abs_lt.1 hv).2
    linarith
  · have hlub' := hlub
    rw [← planLosses_noise (X := X) (fun i => moveCost_measurable i) (fun i => (hcont i).measurable) hs] at hlub'
    obtain ⟨e0, he0, hlow⟩ := uniform_temperature (nu := fun _ : Fin m => Measure.pi fun _ : Fin d => gaussianReal 0 1) hm
      (fun i => hshift _ (hcont i) i) (fun i => hshift _ (moveCost_continuous h.cost.order hw i) i) (fun _ => 0)
      (fun i => by
        have : (fun q => X i q + sigma * (0 : Fin d → ℝ) q) = X i := by funext q; simp
        rw [this]
        exact moveCost_self h.cost.order hw i) hrho hlub' (half_pos hδ)
    refine ⟨e0, he0, fun eps lam' he hle hlam' hi => ?_⟩
    have key := C96_forward ext (tempered_labelled (priced_labelled h lam') he) hr hm hN hk hp hs hkind hgen hsig hseed hD hell hi (half_pos hδ)
    refine tendsto_of_tendsto_of_tendsto_of_le_of_le tendsto_const_nhds key (fun n => zero_le) fun n => measure_mono ?_
    intro ω hω hgood
    obtain ⟨v, D', g', hf, hv⟩ := hgood
    refine hω ⟨v, D', g', hf, ?_⟩
    have h1 := hlow eps lam' he hle hlam' fun i => by
      have := (sampleLaw_integral (X := X) (Y := Y) (priced_labelled h lam') hell sigma eps i).1.1 (hi i)
      simpa only [hgain] using this
    rw [← hpop] at h1
    have h2 : -(δ / 2) < v.get [] - population lam' rho D.cost.power eps (lossAt w ell) (fun i z y => costAt D.cost (X i) z (Y i) y)
      (fun i => sampleLaw sigma (X i) (Y i)) := (abs_lt.1 hv).1
    linarith

end

/-! ### The hypotheses can be met -/

example := C146_uniform bankExt (X := exX) (exU_noLabels 0) rfl (by norm_num) bank_contract (c := ⟨.normCost, .fin 2, 2, .nan⟩) (Or.inl ⟨rfl, Or.inr rfl⟩)
  (sigma := 1) one_pos rfl rfl rfl rfl rfl
  (by rw [show lossAt0 exW0 (fun (x : Fin 1 → ℝ) (c : Fin 1) => x c ^ 2) = fun z => z 0 ^ 2 + 9 from funext exU_loss]; fun_prop)
  (by norm_num [exU]) ⟨2, by norm_num, fun i => ⟨2 * exX i 0 ^ 2 + 9, by rintro _ ⟨z, rfl⟩; exact exU_bound 0 i z⟩⟩

example := C146_uniform_labelled bankExt exCons_labelled rfl (by norm_num) bank_contract (c := ⟨.normCost, .fin 2, 2, .fin 0⟩)
  rfl (Or.inl ⟨rfl, Or.inr rfl⟩) (sigma := 1) one_pos rfl rfl rfl rfl rfl exCons_measurable (X := exX) (Y := exShift)
  (fun i => by simp only [exCons_loss]; fun_prop) rfl (by norm_num [exCons]) ⟨2, by norm_num, fun i => ⟨2, (exCons_lub i).1⟩⟩

end Skwdro
