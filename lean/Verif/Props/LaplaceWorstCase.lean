import Verif.Props.LaplaceForward
import Verif.Props.UniformWorstCase

/-!
# C141, C143, C146 with Laplace noise: the sampler of a cost of order 1 and power 1
-/

namespace Skwdro
open Spec Tensor MeasureTheory ProbabilityTheory Filter
open scoped Topology

instance laplace_open : laplaceLaw.IsOpenPosMeasure := by
  refine Measure.AbsolutelyContinuous.isOpenPosMeasure (μ := volume) (withDensity_absolutelyContinuous' ?_ ?_)
  · exact (by fun_prop : _root_.Measurable fun t : ℝ => ENNReal.ofReal (Real.exp (-|t|) / 2)).aemeasurable
  · refine Eventually.of_forall fun t => ?_
    simp only [ne_eq, ENNReal.ofReal_eq_zero, not_le]
    positivity

theorem noise_open_laplace {d : ℕ} {sigma : ℝ} (hs : 0 < sigma) (x : Fin d → ℝ) : (laplaceAround sigma x).IsOpenPosMeasure := by
  refine Continuous.isOpenPosMeasure_map (by fun_prop) fun z => ⟨fun r => (z r - x r) / sigma, ?_⟩
  funext r
  field_simp
  ring

section
variable {m d s : ℕ} {w : WLoss} {D : DualLoss} {ell : (Fin d → ℝ) → Fin s → ℝ} {rho : ℝ} {X : Fin m → Fin d → ℝ} {G : Type} (ext : TorchExt G)

theorem populationU_limit_laplace {sigma : ℝ} (hs : 0 < sigma) (hcont : ∀ i, Continuous (gain0 w D ell X i)) {S : Fin m → ℝ}
    (hS : ∀ i, IsLUB (Set.range (gain0 w D ell X i)) (S i)) :
    Tendsto (fun eps => populationU D.lam rho D.cost.power eps (lossAt0 w ell) (moveCost D X)
      (fun i => laplaceAround sigma (X i))) (𝓝[>] 0) (𝓝 (D.lam * rho ^ D.cost.power + avg S)) := by
  unfold populationU avg
  refine Tendsto.const_add _ (Tendsto.div_const (tendsto_finsetSum _ fun i _ => ?_) _)
  have := noise_open_laplace hs (X i)
  exact temperature_limit (hcont i) (hS i)

/-- **C141** With Laplace noise and without labels, for every order and power of the transport cost: the robust loss tends to the objective without regularisation. -/
theorem C141_limit_unlabelled_laplace (h : NoLabels w D ell rho) (hr : D.reduction = .mean) (hm : 0 < m) {Ω : Type} [MeasurableSpace Ω]
    {μ : Measure Ω} {gen : Ω → G} (hN : LaplaceContract ext μ gen) {c : CostR} (hp : c.p = .fin 1)
    (hpow : c.power = 1) {sigma : ℝ} (hs : 0 < sigma) {T : Sampler} (hkind : T.kind = .noLabelsCost)
    (hgen : T.generating_cost = some c) (hsig : T.sigma = some sigma) (hseed : T.seed = none) (hD : D.sampler = some T)
    (hell : _root_.Measurable (lossAt0 w ell)) (hcont : ∀ i, Continuous (gain0 w D ell X i)) {S : Fin m → ℝ}
    (hS : ∀ i, IsLUB (Set.range (gain0 w D ell X i)) (S i)) {δ : ℝ} (hδ : 0 < δ) :
    ∃ e0 > 0, ∀ eps, 0 < eps → eps ≤ e0 → Tendsto (fun n => μ {ω | ¬ ∃ v D' g',
      postForward ext { D with epsilon := eps, nSamples := n } (mat X) none true (gen ω) = .ok (.val v, D', g') ∧
      |v.get [] - (D.lam * rho ^ D.cost.power + avg S)| < δ}) atTop (𝓝 0) := by
  have hlim := populationU_limit_laplace (rho := rho) hs hcont hS
  rw [Metric.tendsto_nhds] at hlim
  have hev := hlim (δ / 2) (by linarith)
  rw [eventually_nhdsWithin_iff, Metric.eventually_nhds_iff] at hev
  obtain ⟨e1, he1, hev⟩ := hev
  refine ⟨e1 / 2, by positivity, fun eps he hle => ?_⟩
  have hclose := hev (y := eps) (by rw [Real.dist_eq, sub_zero, abs_of_pos he]; linarith) he
  have key := C96_forward_unlabelled_laplace ext (X := X) (D := { D with epsilon := eps }) (tempered0 h he) hr hm hN hp hpow hs hkind hgen hsig hseed hD hell
    (fun i => temperature_integrable (hcont i) (fun z => (hS i).1 (Set.mem_range_self z)) he) (δ := δ / 2) (by linarith)
  refine tendsto_of_tendsto_of_tendsto_of_le_of_le tendsto_const_nhds key (fun n => zero_le) fun n => measure_mono ?_
  intro ω hω hgood
  obtain ⟨v, D', g', hf, hv⟩ := hgood
  refine hω ⟨v, D', g', hf, ?_⟩
  rw [Real.dist_eq, abs_lt] at hclose
  rw [abs_lt] at hv ⊢
  have h1 := hv.1
  have h2 := hv.2
  have e : moveCost { D with epsilon := eps } X = moveCost D X := rfl
  rw [e] at h1 h2
  dsimp only at h1 h2
  constructor <;> linarith [hclose.1, hclose.2]

/-- **C141** With Laplace noise, at small temperatures and with many samples the robust loss covers, up to any precision, the expected loss under every distribution within
transport distance `rho` of the data, with a probability that tends to one. -/
theorem C141_covers_unlabelled_laplace (h : NoLabels w D ell rho) (hr : D.reduction = .mean) (hm : 0 < m) (hlam : 0 ≤ D.lam) {Ω : Type} [MeasurableSpace Ω]
    {μ : Measure Ω} {gen : Ω → G} (hN : LaplaceContract ext μ gen) {c : CostR} (hp : c.p = .fin 1)
    (hpow : c.power = 1) {sigma : ℝ} (hs : 0 < sigma) {T : Sampler} (hkind : T.kind = .noLabelsCost)
    (hgen : T.generating_cost = some c) (hsig : T.sigma = some sigma) (hseed : T.seed = none) (hD : D.sampler = some T)
    (hell : _root_.Measurable (lossAt0 w ell)) (hcont : ∀ i, Continuous (gain0 w D ell X i))
    (hS : ∀ i, BddAbove (Set.range (gain0 w D ell X i))) {δ : ℝ} (hδ : 0 < δ) :
    ∃ e0 > 0, ∀ eps, 0 < eps → eps ≤ e0 → Tendsto (fun n => μ {ω | ¬ ∃ v D' g',
      postForward ext { D with epsilon := eps, nSamples := n } (mat X) none true (gen ω) = .ok (.val v, D', g') ∧
      ∀ Q : Measure (Fin d → ℝ), InBall X (fun a b => pnorm D.cost.p (fun q => a q - b q) ^ D.cost.power) (rho ^ D.cost.power) Q →
        Integrable (lossAt0 w ell) Q → ∫ z, lossAt0 w ell z ∂Q < v.get [] + δ}) atTop (𝓝 0) := by
  have hlub : ∀ i, IsLUB (Set.range (gain0 w D ell X i)) (sSup (Set.range (gain0 w D ell X i))) := fun i => isLUB_csSup ⟨_, ⟨0, rfl⟩⟩ (hS i)
  set S : Fin m → ℝ := fun i => sSup (Set.range (gain0 w D ell X i)) with hSdef
  obtain ⟨e0, he0, hlim⟩ := C141_limit_unlabelled_laplace ext h hr hm hN hp hpow hs hkind hgen hsig hseed hD hell hcont hlub hδ
  refine ⟨e0, he0, fun eps he hle => ?_⟩
  refine tendsto_of_tendsto_of_tendsto_of_le_of_le tendsto_const_nhds (hlim eps he hle) (fun n => zero_le) fun n => measure_mono ?_
  intro ω hω hgood
  obtain ⟨v, D', g', hf, hv⟩ := hgood
  refine hω ⟨v, D', g', hf, ?_⟩
  rintro Q ⟨π, hπ, hmarg, rfl, hci, hcost⟩ hli
  have hli' : Integrable (fun p : Fin m × (Fin d → ℝ) => lossAt0 w ell p.2) π :=
    (integrable_map_measure hell.aestronglyMeasurable measurable_snd.aemeasurable).1 hli
  have hmap : ∫ z, lossAt0 w ell z ∂(π.map Prod.snd) = ∫ p, lossAt0 w ell p.2 ∂π := integral_map measurable_snd.aemeasurable hell.aestronglyMeasurable
  rw [hmap]
  obtain ⟨hsi, hsv⟩ := integral_fst hmarg S
  have h1 : ∫ p, lossAt0 w ell p.2 ∂π ≤ ∫ p, (D.lam * pnorm D.cost.p (fun q => X p.1 q - p.2 q) ^ D.cost.power + S p.1) ∂π := by
    refine integral_mono hli' ((hci.const_mul _).add hsi) fun p => ?_
    have := (hlub p.1).1 ⟨p.2, rfl⟩
    simp only [gain0, moveCost] at this
    dsimp only
    linarith
  rw [integral_add (hci.const_mul _) hsi, integral_const_mul, hsv] at h1
  have h2 := mul_le_mul_of_nonneg_left hcost hlam
  have h3 := (abs_lt.1 hv).1
  linarith

/-- **C143** With Laplace noise. A continuous loss without labels that grows no faster than the transport cost: the expected losses under the distributions within transport
distance `rho` of the data have a least upper bound `V`, the worst case.  For some multiplier `lam` the robust loss comes as close to `V` as one
likes, at small temperatures and with a probability that tends to one as the number of samples grows; for no multiplier that keeps the objective finite does
it fall below `V` by a fixed amount. -/
theorem C143_worst_case_laplace (h : NoLabels w D ell rho) (hr : D.reduction = .mean) (hm : 0 < m) {Ω : Type} [MeasurableSpace Ω]
    {μ : Measure Ω} {gen : Ω → G} (hN : LaplaceContract ext μ gen) {c : CostR} (hp : c.p = .fin 1)
    (hpow : c.power = 1) {sigma : ℝ} (hs : 0 < sigma) {T : Sampler} (hkind : T.kind = .noLabelsCost)
    (hgen : T.generating_cost = some c) (hsig : T.sigma = some sigma) (hseed : T.seed = none) (hD : D.sampler = some T)
    (hcont : Continuous (lossAt0 w ell)) (hw : 0 < D.cost.power)
    (hgrow : ∃ lam0, 0 ≤ lam0 ∧ ∀ i, BddAbove (Set.range (gain0 w { D with lam := lam0 } ell X i))) :
    ∃ V, IsLUB {v | ∃ Q : Measure (Fin d → ℝ), InBall X (fun a b => pnorm D.cost.p (fun q => a q - b q) ^ D.cost.power) (rho ^ D.cost.power) Q ∧
        Integrable (lossAt0 w ell) Q ∧ v = ∫ z, lossAt0 w ell z ∂Q} V ∧
      (∃ lam, 0 ≤ lam ∧ ∀ δ > 0, ∃ e0 > 0, ∀ eps, 0 < eps → eps ≤ e0 → Tendsto (fun n => μ {ω | ¬ ∃ v D' g',
        postForward ext { D with lam := lam, epsilon := eps, nSamples := n } (mat X) none true (gen ω) = .ok (.val v, D', g') ∧ |v.get [] - V| < δ})
        atTop (𝓝 0)) ∧
      ∀ lam, 0 ≤ lam → (∀ i, BddAbove (Set.range (gain0 w { D with lam := lam } ell X i))) → ∀ δ > 0, ∃ e0 > 0, ∀ eps, 0 < eps → eps ≤ e0 →
        Tendsto (fun n => μ {ω | ¬ ∃ v D' g', postForward ext { D with lam := lam, epsilon := eps, nSamples := n } (mat X) none true (gen ω) =
          .ok (.val v, D', g') ∧ V - δ < v.get []}) atTop (𝓝 0) := by
  have hcg : ∀ lam i, Continuous (gain0 w { D with lam := lam } ell X i) := fun lam i =>
    hcont.sub (continuous_const.mul (moveCost_continuous h.order hw i))
  have hrho : 0 < rho ^ D.cost.power := Real.rpow_pos_of_pos h.rho_pos _
  obtain ⟨lam, hlam, hbd, hlub⟩ := transport_duality (c := moveCost D X) (l := fun _ => lossAt0 w ell) hm hrho X (fun i => moveCost_self h.order hw i)
    (fun i e => Real.rpow_nonneg (pnorm_nonneg _ _) _) hgrow
  rw [ball_losses hcont.measurable]
  refine ⟨_, hlub, ⟨lam, hlam, fun δ hδ => ?_⟩, fun lam' hlam' hbd' δ hδ => ?_⟩
  · exact C141_limit_unlabelled_laplace ext (priced h lam) hr hm hN hp hpow hs hkind hgen hsig hseed hD hcont.measurable (hcg lam)
      (fun i => isLUB_csSup ⟨_, ⟨0, rfl⟩⟩ (hbd i)) hδ
  · obtain ⟨e0, he0, hlim⟩ := C141_limit_unlabelled_laplace ext (priced h lam') hr hm hN hp hpow hs hkind hgen hsig hseed hD hcont.measurable (hcg lam')
      (fun i => isLUB_csSup ⟨_, ⟨0, rfl⟩⟩ (hbd' i)) hδ
    refine ⟨e0, he0, fun eps he hle => ?_⟩
    refine tendsto_of_tendsto_of_tendsto_of_le_of_le tendsto_const_nhds (hlim eps he hle) (fun n => zero_le) fun n => measure_mono ?_
    intro ω hω hgood
    obtain ⟨v, D', g', hf, hv⟩ := hgood
    refine hω ⟨v, D', g', hf, ?_⟩
    have h1 := hlub.2 fun u hu => planLosses_le (S := fun i => sSup (Set.range fun e => lossAt0 w ell e - lam' * moveCost D X i e)) hlam'
      (fun i e => le_csSup (hbd' i) ⟨e, rfl⟩) hu
    have h2 : -δ < v.get [] - (lam' * rho ^ D.cost.power + avg fun i => sSup (Set.range fun e => lossAt0 w ell e - lam' * moveCost D X i e)) := (abs_lt.1 hv).1
    exact lt_of_le_of_lt (sub_le_sub_right h1 δ) (by linarith)

/-- **C146** With Laplace noise. A continuous loss without labels that grows no faster than the transport cost, `V` being its worst expected value within transport distance `rho` of
the data.  One multiplier makes the robust loss at most `V`, up to any margin, at every temperature; and below some temperature, no multiplier
at all that keeps the objective finite makes it smaller than `V` by the given margin: with a probability that tends to one as the number of samples
grows. -/
theorem C146_uniform_laplace (h : NoLabels w D ell rho) (hr : D.reduction = .mean) (hm : 0 < m) {Ω : Type} [MeasurableSpace Ω]
    {μ : Measure Ω} {gen : Ω → G} (hN : LaplaceContract ext μ gen) {c : CostR} (hp : c.p = .fin 1)
    (hpow : c.power = 1) {sigma : ℝ} (hs : 0 < sigma) {T : Sampler} (hkind : T.kind = .noLabelsCost)
    (hgen : T.generating_cost = some c) (hsig : T.sigma = some sigma) (hseed : T.seed = none) (hD : D.sampler = some T)
    (hcont : Continuous (lossAt0 w ell)) (hw : 0 < D.cost.power)
    (hgrow : ∃ lam0, 0 ≤ lam0 ∧ ∀ i, BddAbove (Set.range (gain0 w { D with lam := lam0 } ell X i))) :
    ∃ V, IsLUB {v | ∃ Q : Measure (Fin d → ℝ), InBall X (fun a b => pnorm D.cost.p (fun q => a q - b q) ^ D.cost.power) (rho ^ D.cost.power) Q ∧
        Integrable (lossAt0 w ell) Q ∧ v = ∫ z, lossAt0 w ell z ∂Q} V ∧
      (∃ lam, 0 ≤ lam ∧ ∀ eps > 0, ∀ δ > 0, Tendsto (fun n => μ {ω | ¬ ∃ v D' g',
        postForward ext { D with lam := lam, epsilon := eps, nSamples := n } (mat X) none true (gen ω) = .ok (.val v, D', g') ∧ v.get [] < V + δ})
        atTop (𝓝 0)) ∧
      ∀ δ > 0, ∃ e0 > 0, ∀ eps lam : ℝ, 0 < eps → eps ≤ e0 → 0 ≤ lam →
        (∀ i, Integrable (fun z => Real.exp ((lossAt0 w ell z - lam * moveCost D X i z) / eps)) (laplaceAround sigma (X i))) →
        Tendsto (fun n => μ {ω | ¬ ∃ v D' g', postForward ext { D with lam := lam, epsilon := eps, nSamples := n } (mat X) none true (gen ω) =
          .ok (.val v, D', g') ∧ V - δ < v.get []}) atTop (𝓝 0) := by
  have hcg : ∀ lam i, Continuous fun z => lossAt0 w ell z - lam * moveCost D X i z := fun lam i =>
    hcont.sub (continuous_const.mul (moveCost_continuous h.order hw i))
  have hrho : 0 < rho ^ D.cost.power := Real.rpow_pos_of_pos h.rho_pos _
  obtain ⟨lam, hlam, hbd, hlub⟩ := transport_duality (c := moveCost D X) (l := fun _ => lossAt0 w ell) hm hrho X (fun i => moveCost_self h.order hw i)
    (fun i e => Real.rpow_nonneg (pnorm_nonneg _ _) _) hgrow
  rw [ball_losses hcont.measurable]
  refine ⟨_, hlub, ⟨lam, hlam, fun eps he δ hδ => ?_⟩, fun δ hδ => ?_⟩
  · have key := C96_forward_unlabelled_laplace ext (X := X) (tempered0 (priced h lam) he) hr hm hN hp hpow hs hkind hgen hsig hseed hD hcont.measurable
      (fun i => temperature_integrable (hcg lam i) (fun z => le_csSup (hbd i) ⟨z, rfl⟩) he) hδ
    refine tendsto_of_tendsto_of_tendsto_of_le_of_le tendsto_const_nhds key (fun n => zero_le) fun n => measure_mono ?_
    intro ω hω hgood
    obtain ⟨v, D', g', hf, hv⟩ := hgood
    refine hω ⟨v, D', g', hf, ?_⟩
    have h1 : populationU lam rho D.cost.power eps (lossAt0 w ell) (moveCost D X) (fun i => laplaceAround sigma (X i)) ≤
        lam * rho ^ D.cost.power + avg fun i => sSup (Set.range fun e => lossAt0 w ell e - lam * moveCost D X i e) :=
      add_le_add_right (avg_mono fun i => temperature_upper (hcg lam i) (fun z => le_csSup (hbd i) ⟨z, rfl⟩) he) _
    have h2 : v.get [] - populationU lam rho D.cost.power eps (lossAt0 w ell) (moveCost D X) (fun i => laplaceAround sigma (X i)) < δ :=
      (abs_lt.1 hv).2
    linarith
  · have := fun i => noise_open_laplace hs (X i)
    obtain ⟨e0, he0, hlow⟩ := uniform_temperature (nu := fun i => laplaceAround sigma (X i)) hm (fun _ => hcont)
      (fun i => moveCost_continuous h.order hw i) X (fun i => moveCost_self h.order hw i) hrho hlub (half_pos hδ)
    refine ⟨e0, he0, fun eps lam' he hle hlam' hi => ?_⟩
    have key := C96_forward_unlabelled_laplace ext (X := X) (tempered0 (priced h lam') he) hr hm hN hp hpow hs hkind hgen hsig hseed hD hcont.measurable hi (half_pos hδ)
    refine tendsto_of_tendsto_of_tendsto_of_le_of_le tendsto_const_nhds key (fun n => zero_le) fun n => measure_mono ?_
    intro ω hω hgood
    obtain ⟨v, D', g', hf, hv⟩ := hgood
    refine hω ⟨v, D', g', hf, ?_⟩
    have h1 := hlow eps lam' he hle hlam' hi
    have h2 : -(δ / 2) < v.get [] - (lam' * rho ^ D.cost.power + avg fun i => eps * Real.log (∫ z, Real.exp ((lossAt0 w ell z - lam' * moveCost D X i z) / eps)
      ∂(laplaceAround sigma (X i)))) := (abs_lt.1 hv).1
    linarith

end

/-! ## With labels -/

section
variable {m d k s : ℕ} {w : WLoss} {D : DualLoss} {ell : (Fin d → ℝ) → (Fin k → ℝ) → Fin s → ℝ} {rho : ℝ}
  {X : Fin m → Fin d → ℝ} {Y : Fin m → Fin k → ℝ} {G : Type} (ext : TorchExt G)

theorem sampleLaw_integral_laplace (h : Labelled w D ell rho) (hell : _root_.Measurable fun u : (Fin d → ℝ) × (Fin k → ℝ) => lossAt w ell u.1 u.2) (sigma eps : ℝ) (i : Fin m) :
    (Integrable (fun u : (Fin d → ℝ) × (Fin k → ℝ) => Real.exp ((lossAt w ell u.1 u.2 - D.lam * costAt D.cost (X i) u.1 (Y i) u.2) / eps)) (sampleLawL sigma (X i) (Y i)) ↔
      Integrable (fun e : Fin d → ℝ => Real.exp (gain w D ell X Y i (fun r => X i r + sigma * e r) / eps)) (Measure.pi fun _ => laplaceLaw)) ∧
    ∫ u, Real.exp ((lossAt w ell u.1 u.2 - D.lam * costAt D.cost (X i) u.1 (Y i) u.2) / eps) ∂(sampleLawL sigma (X i) (Y i)) =
      ∫ e : Fin d → ℝ, Real.exp (gain w D ell X Y i (fun r => X i r + sigma * e r) / eps) ∂(Measure.pi fun _ => laplaceLaw) := by
  have hT : _root_.Measurable fun e : Fin d → ℝ => ((fun r => X i r + sigma * e r, Y i) : (Fin d → ℝ) × (Fin k → ℝ)) :=
    (measurable_pi_lambda _ fun r => ((measurable_pi_apply r).const_mul _).const_add _).prodMk measurable_const
  have hF : _root_.Measurable fun u : (Fin d → ℝ) × (Fin k → ℝ) => Real.exp ((lossAt w ell u.1 u.2 - D.lam * costAt D.cost (X i) u.1 (Y i) u.2) / eps) :=
    Real.measurable_exp.comp ((hell.sub ((costAt_measurable h.cost (X i) (Y i)).const_mul _)).div_const _)
  exact ⟨integrable_map_measure hF.aestronglyMeasurable hT.aemeasurable, integral_map hT.aemeasurable hF.aestronglyMeasurable⟩

theorem population_limit_laplace (h : Labelled w D ell rho) (hell : _root_.Measurable fun u : (Fin d → ℝ) × (Fin k → ℝ) => lossAt w ell u.1 u.2) {sigma : ℝ}
    (hs : 0 < sigma) (hcont : ∀ i, Continuous (gain w D ell X Y i)) {S : Fin m → ℝ} (hS : ∀ i, IsLUB (Set.range (gain w D ell X Y i)) (S i)) :
    Tendsto (fun eps => population D.lam rho D.cost.power eps (lossAt w ell) (fun i z y => costAt D.cost (X i) z (Y i) y) (fun i => sampleLawL sigma (X i) (Y i)))
      (𝓝[>] 0) (𝓝 (D.lam * rho ^ D.cost.power + avg S)) := by
  unfold population avg
  refine Tendsto.const_add _ (Tendsto.div_const (tendsto_finsetSum _ fun i _ => ?_) _)
  simp only [(sampleLaw_integral_laplace h hell sigma _ i).2]
  refine temperature_limit (gain_continuous hcont sigma i) ?_
  rw [gain_range hs]
  exact hS i

/-- **C141** With Laplace noise. Post-sampled evaluation with the unseeded sampler of a 1-norm cost on the inputs, when the loss minus `lam` times the cost is continuous and
bounded above in the inputs, with supremum `S i` at data point `i`: for every precision there is a temperature below which the robust loss with `n` samples
is that close, with a probability that tends to one, to the objective without regularisation `lam * rho^p + (1/m) sum_i S i`. -/
theorem C141_limit_laplace (h : Labelled w D ell rho) (hr : D.reduction = .mean) (hm : 0 < m) {Ω : Type} [MeasurableSpace Ω] {μ : Measure Ω}
    [IsProbabilityMeasure μ] {gen : Ω → G} (hN : LaplaceContract ext μ gen) {c : CostR} (hk : c.kind = .normCost) (hp : c.p = .fin 1)
    (hpow : c.power = 1) {sigma : ℝ} (hs : 0 < sigma) {T : Sampler} (hkind : T.kind = .labeledCost)
    (hgen : T.generating_cost = some c) (hsig : T.sigma = some sigma) (hseed : T.seed = none) (hD : D.sampler = some T)
    (hell : _root_.Measurable fun u : (Fin d → ℝ) × (Fin k → ℝ) => lossAt w ell u.1 u.2) (hcont : ∀ i, Continuous (gain w D ell X Y i)) {S : Fin m → ℝ}
    (hS : ∀ i, IsLUB (Set.range (gain w D ell X Y i)) (S i)) {δ : ℝ} (hδ : 0 < δ) :
    ∃ e0 > 0, ∀ eps, 0 < eps → eps ≤ e0 → Tendsto (fun n => μ {ω | ¬ ∃ v D' g',
      postForward ext { D with epsilon := eps, nSamples := n } (mat X) (some (mat Y)) true (gen ω) = .ok (.val v, D', g') ∧
      |v.get [] - (D.lam * rho ^ D.cost.power + avg S)| < δ}) atTop (𝓝 0) := by
  have hlim := population_limit_laplace (X := X) (Y := Y) h hell hs hcont hS
  rw [Metric.tendsto_nhds] at hlim
  have hev := hlim (δ / 2) (by linarith)
  rw [eventually_nhdsWithin_iff, Metric.eventually_nhds_iff] at hev
  obtain ⟨e1, he1, hev⟩ := hev
  refine ⟨e1 / 2, by positivity, fun eps he hle => ?_⟩
  have hclose := hev (y := eps) (by rw [Real.dist_eq, sub_zero, abs_of_pos he]; linarith) he
  have key := C96_forward_laplace ext (X := X) (Y := Y) (D := { D with epsilon := eps }) (tempered h he) hr hm hN hk hp hpow hs hkind hgen hsig hseed hD hell
    (fun i => (sampleLaw_integral_laplace h hell sigma eps i).1.2 (temperature_integrable (gain_continuous hcont sigma i)
      (fun e => (hS i).1 (Set.mem_range_self _)) he)) (δ := δ / 2) (by linarith)
  refine tendsto_of_tendsto_of_tendsto_of_le_of_le tendsto_const_nhds key (fun n => zero_le) fun n => measure_mono ?_
  intro ω hω hgood
  obtain ⟨v, D', g', hf, hv⟩ := hgood
  refine hω ⟨v, D', g', hf, ?_⟩
  rw [Real.dist_eq] at hclose
  rw [abs_lt] at hclose hv ⊢
  constructor <;> linarith [hclose.1, hclose.2, hv.1, hv.2]

/-- **C141** With Laplace noise, at small temperatures the robust loss covers, up to any precision, all the plans that move the inputs at an average cost of at most
`rho^p`, with a probability that tends to one: no regularity of the plans is needed. -/
theorem C141_covers_laplace (h : Labelled w D ell rho) (hr : D.reduction = .mean) (hm : 0 < m) (hlam : 0 ≤ D.lam) {Ω : Type} [MeasurableSpace Ω] {μ : Measure Ω}
    [IsProbabilityMeasure μ] {gen : Ω → G} (hN : LaplaceContract ext μ gen) {c : CostR} (hk : c.kind = .normCost) (hp : c.p = .fin 1)
    (hpow : c.power = 1) {sigma : ℝ} (hs : 0 < sigma) {T : Sampler} (hkind : T.kind = .labeledCost)
    (hgen : T.generating_cost = some c) (hsig : T.sigma = some sigma) (hseed : T.seed = none) (hD : D.sampler = some T)
    (hell : _root_.Measurable fun u : (Fin d → ℝ) × (Fin k → ℝ) => lossAt w ell u.1 u.2) (hcont : ∀ i, Continuous (gain w D ell X Y i))
    (hS : ∀ i, BddAbove (Set.range (gain w D ell X Y i))) {δ : ℝ} (hδ : 0 < δ) :
    ∃ e0 > 0, ∀ eps, 0 < eps → eps ≤ e0 → Tendsto (fun n => μ {ω | ¬ ∃ v D' g',
      postForward ext { D with epsilon := eps, nSamples := n } (mat X) (some (mat Y)) true (gen ω) = .ok (.val v, D', g') ∧
      ∀ π : Measure (Fin m × (Fin d → ℝ)), IsProbabilityMeasure π → (∀ i, π.real {p | p.1 = i} = 1 / m) →
        Integrable (fun p => costAt D.cost (X p.1) p.2 (Y p.1) (Y p.1)) π → Integrable (fun p => lossAt w ell p.2 (Y p.1)) π →
        ∫ p, costAt D.cost (X p.1) p.2 (Y p.1) (Y p.1) ∂π ≤ rho ^ D.cost.power → ∫ p, lossAt w ell p.2 (Y p.1) ∂π < v.get [] + δ}) atTop (𝓝 0) := by
  have hlub : ∀ i, IsLUB (Set.range (gain w D ell X Y i)) (sSup (Set.range (gain w D ell X Y i))) := fun i => isLUB_csSup ⟨_, ⟨0, rfl⟩⟩ (hS i)
  set S : Fin m → ℝ := fun i => sSup (Set.range (gain w D ell X Y i)) with hSdef
  obtain ⟨e0, he0, hlim⟩ := C141_limit_laplace ext h hr hm hN hk hp hpow hs hkind hgen hsig hseed hD hell hcont hlub hδ
  refine ⟨e0, he0, fun eps he hle => ?_⟩
  refine tendsto_of_tendsto_of_tendsto_of_le_of_le tendsto_const_nhds (hlim eps he hle) (fun n => zero_le) fun n => measure_mono ?_
  intro ω hω hgood
  obtain ⟨v, D', g', hf, hv⟩ := hgood
  refine hω ⟨v, D', g', hf, fun π hπ hmarg hci hli hcost => ?_⟩
  obtain ⟨hsi, hsv⟩ := integral_fst hmarg S
  have h1 : ∫ p, lossAt w ell p.2 (Y p.1) ∂π ≤ ∫ p, (D.lam * costAt D.cost (X p.1) p.2 (Y p.1) (Y p.1) + S p.1) ∂π := by
    refine integral_mono hli ((hci.const_mul _).add hsi) fun p => ?_
    have := (hlub p.1).1 ⟨p.2, rfl⟩
    simp only [gain] at this
    dsimp only
    linarith
  rw [integral_add (hci.const_mul _) hsi, integral_const_mul, hsv] at h1
  have h2 := mul_le_mul_of_nonneg_left hcost hlam
  have h3 := (abs_lt.1 hv).1
  linarith

/-- **C143** With Laplace noise, labels and a plain cost: the worst case is that of the plans that move the inputs and keep every label with its data point. -/
theorem C143_worst_case_labelled_laplace (h : Labelled w D ell rho) (hr : D.reduction = .mean) (hm : 0 < m) {Ω : Type} [MeasurableSpace Ω] {μ : Measure Ω}
    [IsProbabilityMeasure μ] {gen : Ω → G} (hN : LaplaceContract ext μ gen) {c : CostR} (hk : c.kind = .normCost) (hp : c.p = .fin 1)
    (hpow : c.power = 1) {sigma : ℝ} (hs : 0 < sigma) {T : Sampler} (hkind : T.kind = .labeledCost)
    (hgen : T.generating_cost = some c) (hsig : T.sigma = some sigma) (hseed : T.seed = none) (hD : D.sampler = some T)
    (hell : _root_.Measurable fun u : (Fin d → ℝ) × (Fin k → ℝ) => lossAt w ell u.1 u.2) (hcont : ∀ i, Continuous fun z => lossAt w ell z (Y i))
    (hplain : D.cost.kind = .normCost) (hw : 0 < D.cost.power)
    (hgrow : ∃ lam0, 0 ≤ lam0 ∧ ∀ i, BddAbove (Set.range (gain w { D with lam := lam0 } ell X Y i))) :
    ∃ V, IsLUB (PlanLosses (fun i z => pnorm D.cost.p (fun q => X i q - z q) ^ D.cost.power) (fun i z => lossAt w ell z (Y i)) (rho ^ D.cost.power)) V ∧
      (∃ lam, 0 ≤ lam ∧ ∀ δ > 0, ∃ e0 > 0, ∀ eps, 0 < eps → eps ≤ e0 → Tendsto (fun n => μ {ω | ¬ ∃ v D' g',
        postForward ext { D with lam := lam, epsilon := eps, nSamples := n } (mat X) (some (mat Y)) true (gen ω) = .ok (.val v, D', g') ∧
        |v.get [] - V| < δ}) atTop (𝓝 0)) ∧
      ∀ lam, 0 ≤ lam → (∀ i, BddAbove (Set.range (gain w { D with lam := lam } ell X Y i))) → ∀ δ > 0, ∃ e0 > 0, ∀ eps, 0 < eps → eps ≤ e0 →
        Tendsto (fun n => μ {ω | ¬ ∃ v D' g', postForward ext { D with lam := lam, epsilon := eps, nSamples := n } (mat X) (some (mat Y)) true (gen ω) =
          .ok (.val v, D', g') ∧ V - δ < v.get []}) atTop (𝓝 0) := by
  have hcost : ∀ i z, costAt D.cost (X i) z (Y i) (Y i) = pnorm D.cost.p (fun q => X i q - z q) ^ D.cost.power := fun i z =>
    C04_point_formula D.cost hplain h.cost.order (X i) z (Y i) (Y i)
  have hgain : ∀ lam i z, gain w { D with lam := lam } ell X Y i z = lossAt w ell z (Y i) - lam * pnorm D.cost.p (fun q => X i q - z q) ^ D.cost.power := by
    intro lam i z
    unfold gain
    rw [← hcost]
  have hgainf : ∀ lam i, gain w { D with lam := lam } ell X Y i = fun z => lossAt w ell z (Y i) - lam * moveCost D X i z := fun lam i => funext (hgain lam i)
  have hcg : ∀ lam i, Continuous (gain w { D with lam := lam } ell X Y i) := fun lam i => by
    rw [hgainf]
    exact (hcont i).sub (continuous_const.mul (moveCost_continuous h.cost.order hw i))
  have hrho : 0 < rho ^ D.cost.power := Real.rpow_pos_of_pos h.rho_pos _
  simp only [hgainf] at hgrow ⊢
  obtain ⟨lam, hlam, hbd, hlub⟩ := transport_duality (c := moveCost D X) (l := fun i z => lossAt w ell z (Y i)) hm hrho X
    (fun i => moveCost_self h.cost.order hw i) (fun i e => Real.rpow_nonneg (pnorm_nonneg _ _) _) hgrow
  refine ⟨_, hlub, ⟨lam, hlam, fun δ hδ => ?_⟩, fun lam' hlam' hbd' δ hδ => ?_⟩
  · exact C141_limit_laplace ext (priced_labelled h lam) hr hm hN hk hp hpow hs hkind hgen hsig hseed hD hell (hcg lam)
      (fun i => by rw [hgainf]; exact isLUB_csSup ⟨_, ⟨0, rfl⟩⟩ (hbd i)) hδ
  · obtain ⟨e0, he0, hlim⟩ := C141_limit_laplace ext (priced_labelled h lam') hr hm hN hk hp hpow hs hkind hgen hsig hseed hD hell (hcg lam')
      (fun i => by rw [hgainf]; exact isLUB_csSup ⟨_, ⟨0, rfl⟩⟩ (hbd' i)) hδ
    refine ⟨e0, he0, fun eps he hle => ?_⟩
    refine tendsto_of_tendsto_of_tendsto_of_le_of_le tendsto_const_nhds (hlim eps he hle) (fun n => zero_le) fun n => measure_mono ?_
    intro ω hω hgood
    obtain ⟨v, D', g', hf, hv⟩ := hgood
    refine hω ⟨v, D', g', hf, ?_⟩
    have h1 := hlub.2 fun u hu => planLosses_le hlam' (fun i e => le_csSup (hbd' i) ⟨e, rfl⟩) hu
    have h2 := (abs_lt.1 hv).1
    refine lt_of_le_of_lt (sub_le_sub_right h1 δ) ?_
    dsimp only at h2
    linarith

/-- **C146** With Laplace noise, labels and a plain cost: no multiplier understates the worst case at small temperatures, for the plans that move the inputs and keep every label with its data point. -/
theorem C146_uniform_labelled_laplace (h : Labelled w D ell rho) (hr : D.reduction = .mean) (hm : 0 < m) {Ω : Type} [MeasurableSpace Ω] {μ : Measure Ω}
    [IsProbabilityMeasure μ] {gen : Ω → G} (hN : LaplaceContract ext μ gen) {c : CostR} (hk : c.kind = .normCost) (hp : c.p = .fin 1)
    (hpow : c.power = 1) {sigma : ℝ} (hs : 0 < sigma) {T : Sampler} (hkind : T.kind = .labeledCost)
    (hgen : T.generating_cost = some c) (hsig : T.sigma = some sigma) (hseed : T.seed = none) (hD : D.sampler = some T)
    (hell : _root_.Measurable fun u : (Fin d → ℝ) × (Fin k → ℝ) => lossAt w ell u.1 u.2) (hcont : ∀ i, Continuous fun z => lossAt w ell z (Y i))
    (hplain : D.cost.kind = .normCost) (hw : 0 < D.cost.power)
    (hgrow : ∃ lam0, 0 ≤ lam0 ∧ ∀ i, BddAbove (Set.range (gain w { D with lam := lam0 } ell X Y i))) :
    ∃ V, IsLUB (PlanLosses (fun i z => pnorm D.cost.p (fun q => X i q - z q) ^ D.cost.power) (fun i z => lossAt w ell z (Y i)) (rho ^ D.cost.power)) V ∧
      (∃ lam, 0 ≤ lam ∧ ∀ eps > 0, ∀ δ > 0, Tendsto (fun n => μ {ω | ¬ ∃ v D' g',
        postForward ext { D with lam := lam, epsilon := eps, nSamples := n } (mat X) (some (mat Y)) true (gen ω) = .ok (.val v, D', g') ∧
        v.get [] < V + δ}) atTop (𝓝 0)) ∧
      ∀ δ > 0, ∃ e0 > 0, ∀ eps lam : ℝ, 0 < eps → eps ≤ e0 → 0 ≤ lam →
        (∀ i, Integrable (fun u => Real.exp ((lossAt w ell u.1 u.2 - lam * costAt D.cost (X i) u.1 (Y i) u.2) / eps)) (sampleLawL sigma (X i) (Y i))) →
        Tendsto (fun n => μ {ω | ¬ ∃ v D' g', postForward ext { D with lam := lam, epsilon := eps, nSamples := n } (mat X) (some (mat Y)) true (gen ω) =
          .ok (.val v, D', g') ∧ V - δ < v.get []}) atTop (𝓝 0) := by
  have hgain : ∀ lam i, gain w { D with lam := lam } ell X Y i = fun z => lossAt w ell z (Y i) - lam * moveCost D X i z := fun lam i => funext fun z => by
    unfold gain
    rw [C04_point_formula D.cost hplain h.cost.order]
    rfl
  have hcg : ∀ lam i, Continuous (gain w { D with lam := lam } ell X Y i) := fun lam i => by
    rw [hgain]
    exact (hcont i).sub (continuous_const.mul (moveCost_continuous h.cost.order hw i))
  have hrho : 0 < rho ^ D.cost.power := Real.rpow_pos_of_pos h.rho_pos _
  simp only [hgain] at hgrow
  obtain ⟨lam, hlam, hbd, hlub⟩ := transport_duality (c := moveCost D X) (l := fun i z => lossAt w ell z (Y i)) hm hrho X
    (fun i => moveCost_self h.cost.order hw i) (fun i e => Real.rpow_nonneg (pnorm_nonneg _ _) _) hgrow
  have hpop : ∀ lam eps, population lam rho D.cost.power eps (lossAt w ell) (fun i z y => costAt D.cost (X i) z (Y i) y) (fun i => sampleLawL sigma (X i) (Y i)) =
      lam * rho ^ D.cost.power + avg fun i => eps * Real.log (∫ e : Fin d → ℝ, Real.exp ((lossAt w ell (fun q => X i q + sigma * e q) (Y i) -
        lam * moveCost D X i (fun q => X i q + sigma * e q)) / eps) ∂(Measure.pi fun _ => laplaceLaw)) := by
    intro lam eps
    unfold population
    congr 2
    funext i
    congr 2
    have := (sampleLaw_integral_laplace (X := X) (Y := Y) (priced_labelled h lam) hell sigma eps i).2
    simp only [hgain] at this
    exact this
  have hshift : ∀ f : (Fin d → ℝ) → ℝ, Continuous f → ∀ i : Fin m, Continuous fun e : Fin d → ℝ => f fun q => X i q + sigma * e q := fun f hf i =>
    hf.comp (continuous_pi fun q => continuous_const.add (continuous_const.mul (continuous_apply q)))
  refine ⟨_, hlub, ⟨lam, hlam, fun eps he δ hδ => ?_⟩, fun δ hδ => ?_⟩
  · have hint := fun i => temperature_integrable (μ := Measure.pi fun _ : Fin d => laplaceLaw) (gain_continuous (hcg lam) sigma i)
      (fun e => by rw [hgain]; exact le_csSup (hbd i) ⟨_, rfl⟩) he
    have key := C96_forward_laplace ext (tempered_labelled (priced_labelled h lam) he) hr hm hN hk hp hpow hs hkind hgen hsig hseed hD hell
      (fun i => (sampleLaw_integral_laplace (priced_labelled h lam) hell sigma eps i).1.2 (hint i)) hδ
    refine tendsto_of_tendsto_of_tendsto_of_le_of_le tendsto_const_nhds key (fun n => zero_le) fun n => measure_mono ?_
    intro ω hω hgood
    obtain ⟨v, D', g', hf, hv⟩ := hgood
    refine hω ⟨v, D', g', hf, ?_⟩
    have h1 : population lam rho D.cost.power eps (lossAt w ell) (fun i z y => costAt D.cost (X i) z (Y i) y) (fun i => sampleLawL sigma (X i) (Y i)) ≤
        lam * rho ^ D.cost.power + avg fun i => sSup (Set.range fun z => lossAt w ell z (Y i) - lam * moveCost D X i z) := by
      rw [hpop]
      refine add_le_add_right (avg_mono fun i => temperature_upper ?_ (fun e => le_csSup (hbd i) ⟨_, rfl⟩) he) _
      exact (hshift _ (hcont i) i).sub (continuous_const.mul (hshift _ (moveCost_continuous h.cost.order hw i) i))
    have h2 : v.get [] - population lam rho D.cost.power eps (lossAt w ell) (fun i z y => costAt D.cost (X i) z (Y i) y) (fun i => sampleLawL sigma (X i) (Y i)) < δ :=
      (abs_lt.1 hv).2
    linarith
  · have hlub' := hlub
    rw [← planLosses_noise (X := X) (fun i => moveCost_measurable i) (fun i => (hcont i).measurable) hs] at hlub'
    obtain ⟨e0, he0, hlow⟩ := uniform_temperature (nu := fun _ : Fin m => Measure.pi fun _ : Fin d => laplaceLaw) hm
      (fun i => hshift _ (hcont i) i) (fun i => hshift _ (moveCost_continuous h.cost.order hw i) i) (fun _ => 0)
      (fun i => by
        have : (fun q => X i q + sigma * (0 : Fin d → ℝ) q) = X i := by funext q; simp
        rw [this]
        exact moveCost_self h.cost.order hw i) hrho hlub' (half_pos hδ)
    refine ⟨e0, he0, fun eps lam' he hle hlam' hi => ?_⟩
    have key := C96_forward_laplace ext (tempered_labelled (priced_labelled h lam') he) hr hm hN hk hp hpow hs hkind hgen hsig hseed hD hell hi (half_pos hδ)
    refine tendsto_of_tendsto_of_tendsto_of_le_of_le tendsto_const_nhds key (fun n => zero_le) fun n => measure_mono ?_
    intro ω hω hgood
    obtain ⟨v, D', g', hf, hv⟩ := hgood
    refine hω ⟨v, D', g', hf, ?_⟩
    have h1 := hlow eps lam' he hle hlam' fun i => by
      have := (sampleLaw_integral_laplace (X := X) (Y := Y) (priced_labelled h lam') hell sigma eps i).1.1 (hi i)
      simpa only [hgain] using this
    rw [← hpop] at h1
    have h2 : -(δ / 2) < v.get [] - population lam' rho D.cost.power eps (lossAt w ell) (fun i z y => costAt D.cost (X i) z (Y i) y)
      (fun i => sampleLawL sigma (X i) (Y i)) := (abs_lt.1 hv).1
    linarith

end

/-! ### The hypotheses can be met: absolute values and the 1-norm cost -/

theorem exA_continuous : Continuous (lossAt0 exWA (fun (x : Fin 1 → ℝ) (c : Fin 1) => |x c|)) := by
  rw [show lossAt0 exWA (fun (x : Fin 1 → ℝ) (c : Fin 1) => |x c|) = fun z => |z 0| from funext exA_loss]
  fun_prop

theorem exA_lub (i : Fin 2) : IsLUB (Set.range (gain0 exWA (exA 0) (fun (x : Fin 1 → ℝ) (c : Fin 1) => |x c|) exX i)) |exX i 0| := by
  refine ⟨by rintro _ ⟨z, rfl⟩; exact exA_bound 0 i z, fun b hb => hb ⟨exX i, ?_⟩⟩
  simp only [gain0, exA_loss, exA_cost]
  simp

example {δ : ℝ} (hδ : 0 < δ) := C141_limit_unlabelled_laplace lapBankExt (X := exX) (exA_noLabels 0) rfl (by norm_num) lapBank_contract
  (c := ⟨.normCost, .fin 1, 1, .nan⟩) rfl rfl (sigma := 1) one_pos rfl rfl rfl rfl rfl exA_measurable
  (fun i => exA_continuous.sub (continuous_const.mul (moveCost_continuous (D := exA 0) (exA_noLabels 0).order (by norm_num [exA]) i))) exA_lub hδ

example {δ : ℝ} (hδ : 0 < δ) := C141_covers_unlabelled_laplace lapBankExt (X := exX) (exA_noLabels 0) rfl (by norm_num) (by norm_num [exA])
  lapBank_contract (c := ⟨.normCost, .fin 1, 1, .nan⟩) rfl rfl (sigma := 1) one_pos rfl rfl rfl rfl rfl exA_measurable
  (fun i => exA_continuous.sub (continuous_const.mul (moveCost_continuous (D := exA 0) (exA_noLabels 0).order (by norm_num [exA]) i)))
  (fun i => ⟨_, (exA_lub i).1⟩) hδ

example := C143_worst_case_laplace lapBankExt (X := exX) (exA_noLabels 0) rfl (by norm_num) lapBank_contract (c := ⟨.normCost, .fin 1, 1, .nan⟩)
  rfl rfl (sigma := 1) one_pos rfl rfl rfl rfl rfl exA_continuous (by norm_num [exA]) ⟨2, by norm_num, fun i => ⟨_, (exA_lub i).1⟩⟩

example := C146_uniform_laplace lapBankExt (X := exX) (exA_noLabels 0) rfl (by norm_num) lapBank_contract (c := ⟨.normCost, .fin 1, 1, .nan⟩)
  rfl rfl (sigma := 1) one_pos rfl rfl rfl rfl rfl exA_continuous (by norm_num [exA]) ⟨2, by norm_num, fun i => ⟨_, (exA_lub i).1⟩⟩

theorem exB_gain (l : ℝ) (i : Fin 2) (z : Fin 1 → ℝ) : gain exWB { exB with lam := l } (fun (x y : Fin 1 → ℝ) (c : Fin 1) => |x c - y c|) exX exX i z =
    |z 0 - exX i 0| - l * |exX i 0 - z 0| := by
  unfold gain
  have hc : costAt { exB with lam := l }.cost (exX i) z (exX i) (exX i) = |exX i 0 - z 0| := exB_cost _ _ _ _
  rw [hc, exB_loss]

theorem exB_lub (i : Fin 2) : IsLUB (Set.range (gain exWB exB (fun (x y : Fin 1 → ℝ) (c : Fin 1) => |x c - y c|) exX exX i)) 0 := by
  constructor
  · rintro _ ⟨z, rfl⟩
    have := exB_gain 2 i z
    rw [abs_sub_comm (exX i 0)] at this
    exact this.le.trans (by linarith [abs_nonneg (z 0 - exX i 0)])
  · intro b hb
    refine hb ⟨exX i, (exB_gain 2 i (exX i)).trans ?_⟩
    simp

theorem exB_continuous (l : ℝ) (i : Fin 2) :
    Continuous (gain exWB { exB with lam := l } (fun (x y : Fin 1 → ℝ) (c : Fin 1) => |x c - y c|) exX exX i) := by
  rw [show gain exWB { exB with lam := l } (fun (x y : Fin 1 → ℝ) (c : Fin 1) => |x c - y c|) exX exX i =
    fun z => |z 0 - exX i 0| - l * |exX i 0 - z 0| from funext (exB_gain l i)]
  fun_prop

example {δ : ℝ} (hδ : 0 < δ) := C141_limit_laplace lapBankExt (X := exX) (Y := exX) exB_labelled rfl (by norm_num) lapBank_contract
  (c := ⟨.normCost, .fin 1, 1, .fin 0⟩) rfl rfl rfl (sigma := 1) one_pos rfl rfl rfl rfl rfl exB_measurable (exB_continuous 2) exB_lub hδ

example {δ : ℝ} (hδ : 0 < δ) := C141_covers_laplace lapBankExt (X := exX) (Y := exX) exB_labelled rfl (by norm_num) (by norm_num [exB]) lapBank_contract
  (c := ⟨.normCost, .fin 1, 1, .fin 0⟩) rfl rfl rfl (sigma := 1) one_pos rfl rfl rfl rfl rfl exB_measurable (exB_continuous 2)
  (fun i => ⟨_, (exB_lub i).1⟩) hδ

example := C143_worst_case_labelled_laplace lapBankExt (X := exX) (Y := exX) exB_labelled rfl (by norm_num) lapBank_contract
  (c := ⟨.normCost, .fin 1, 1, .fin 0⟩) rfl rfl rfl (sigma := 1) one_pos rfl rfl rfl rfl rfl exB_measurable
  (fun i => by simp only [exB_loss]; fun_prop) rfl (by norm_num [exB]) ⟨2, by norm_num, fun i => ⟨_, (exB_lub i).1⟩⟩

example := C146_uniform_labelled_laplace lapBankExt (X := exX) (Y := exX) exB_labelled rfl (by norm_num) lapBank_contract
  (c := ⟨.normCost, .fin 1, 1, .fin 0⟩) rfl rfl rfl (sigma := 1) one_pos rfl rfl rfl rfl rfl exB_measurable
  (fun i => by simp only [exB_loss]; fun_prop) rfl (by norm_num [exB]) ⟨2, by norm_num, fun i => ⟨_, (exB_lub i).1⟩⟩

end Skwdro
