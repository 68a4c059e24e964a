import Verif.Props.Consistency
import Verif.Lemmas.Wasserstein
import Mathlib.MeasureTheory.Measure.OpenPos

/-!
# The robust loss at a small temperature (C141)
-/

namespace Skwdro
open Spec Tensor MeasureTheory ProbabilityTheory Filter Topology

section
variable {E : Type} [TopologicalSpace E] [MeasurableSpace E] [BorelSpace E] {μ : Measure E} [IsProbabilityMeasure μ]

theorem temperature_lower [μ.IsOpenPosMeasure] {f : E → ℝ} (hf : Continuous f) {c : ℝ} (hc : ∃ x, c < f x) :
    ∃ K : ℝ, ∀ eps > 0, Integrable (fun x => Real.exp (f x / eps)) μ → c - eps * K ≤ eps * Real.log (∫ x, Real.exp (f x / eps) ∂μ) := by
  set U := {x | c < f x} with hU
  have hopen : IsOpen U := isOpen_lt continuous_const hf
  have hpos : 0 < μ.real U := by
    rw [measureReal_def, ENNReal.toReal_pos_iff]
    exact ⟨hopen.measure_pos μ hc, measure_lt_top μ U⟩
  refine ⟨-Real.log (μ.real U), fun eps he hi => ?_⟩
  have h1 : μ.real U * Real.exp (c / eps) ≤ ∫ x, Real.exp (f x / eps) ∂μ := by
    calc μ.real U * Real.exp (c / eps) = ∫ _ in U, Real.exp (c / eps) ∂μ := by simp
      _ ≤ ∫ x in U, Real.exp (f x / eps) ∂μ := by
        refine setIntegral_mono_on (integrable_const _).integrableOn hi.integrableOn hopen.measurableSet fun x hx => ?_
        exact Real.exp_le_exp.2 (div_le_div_of_nonneg_right (le_of_lt hx) he.le)
      _ ≤ ∫ x, Real.exp (f x / eps) ∂μ := setIntegral_le_integral hi (Eventually.of_forall fun x => (Real.exp_pos _).le)
  have h2 := Real.log_le_log (mul_pos hpos (Real.exp_pos _)) h1
  rw [Real.log_mul hpos.ne' (Real.exp_pos _).ne', Real.log_exp] at h2
  have h3 := mul_le_mul_of_nonneg_left h2 he.le
  rw [mul_add, mul_div_cancel₀ _ he.ne'] at h3
  linarith

theorem temperature_integrable {f : E → ℝ} (hf : Continuous f) {S : ℝ} (hS : ∀ x, f x ≤ S) {eps : ℝ} (he : 0 < eps) :
    Integrable (fun x => Real.exp (f x / eps)) μ := by
  refine Integrable.mono' (integrable_const (Real.exp (S / eps))) (Real.continuous_exp.comp (hf.div_const _)).measurable.aestronglyMeasurable ?_
  refine Eventually.of_forall fun x => ?_
  rw [Real.norm_eq_abs, abs_of_pos (Real.exp_pos _)]
  exact Real.exp_le_exp.2 (div_le_div_of_nonneg_right (hS x) he.le)

theorem temperature_upper {f : E → ℝ} (hf : Continuous f) {S : ℝ} (hS : ∀ x, f x ≤ S) {eps : ℝ} (he : 0 < eps) :
    eps * Real.log (∫ x, Real.exp (f x / eps) ∂μ) ≤ S := by
  have hi := temperature_integrable (μ := μ) hf hS he
  have h1 : ∫ x, Real.exp (f x / eps) ∂μ ≤ Real.exp (S / eps) := by
    calc ∫ x, Real.exp (f x / eps) ∂μ ≤ ∫ _, Real.exp (S / eps) ∂μ :=
          integral_mono hi (integrable_const _) fun x => Real.exp_le_exp.2 (div_le_div_of_nonneg_right (hS x) he.le)
      _ = _ := by simp
  have h0 : 0 < ∫ x, Real.exp (f x / eps) ∂μ := integral_exp_pos hi
  have h2 := mul_le_mul_of_nonneg_left (Real.log_le_log h0 h1) he.le
  rwa [Real.log_exp, mul_div_cancel₀ _ he.ne'] at h2

/-- the temperature going to zero turns the log-integral into the supremum -/
theorem temperature_limit [μ.IsOpenPosMeasure] {f : E → ℝ} (hf : Continuous f) {S : ℝ} (hS : IsLUB (Set.range f) S) :
    Tendsto (fun eps => eps * Real.log (∫ x, Real.exp (f x / eps) ∂μ)) (𝓝[>] 0) (𝓝 S) := by
  have hup : ∀ x, f x ≤ S := fun x => hS.1 ⟨x, rfl⟩
  rw [Metric.tendsto_nhds]
  intro δ hδ
  obtain ⟨_, ⟨x, rfl⟩, hx, -⟩ := hS.exists_between (by linarith : S - δ / 2 < S)
  obtain ⟨K, hK⟩ := temperature_lower (μ := μ) hf ⟨x, hx⟩
  have hsmall : ∀ᶠ eps in 𝓝[>] (0 : ℝ), eps * K < δ / 2 := by
    have : Tendsto (fun eps : ℝ => eps * K) (𝓝[>] 0) (𝓝 (0 * K)) := (Continuous.tendsto (by fun_prop) 0).mono_left nhdsWithin_le_nhds
    rw [zero_mul] at this
    exact this.eventually_lt_const (by linarith)
  filter_upwards [hsmall, self_mem_nhdsWithin] with eps h1 h2
  have h3 := hK eps h2 (temperature_integrable hf hup h2)
  have h4 := temperature_upper (μ := μ) hf hup h2
  rw [Real.dist_eq, abs_lt]
  constructor <;> linarith

theorem temperature_unbounded [μ.IsOpenPosMeasure] {f : E → ℝ} (hf : Continuous f) (hS : ¬ BddAbove (Set.range f))
    (hi : ∀ eps > 0, Integrable (fun x => Real.exp (f x / eps)) μ) :
    Tendsto (fun eps => eps * Real.log (∫ x, Real.exp (f x / eps) ∂μ)) (𝓝[>] 0) atTop := by
  rw [tendsto_atTop]
  intro B
  obtain ⟨x, hx⟩ : ∃ x, B + 1 < f x := by
    by_contra hne
    push Not at hne
    exact hS ⟨B + 1, by rintro _ ⟨x, rfl⟩; exact hne x⟩
  obtain ⟨K, hK⟩ := temperature_lower (μ := μ) hf ⟨x, hx⟩
  have hsmall : ∀ᶠ eps in 𝓝[>] (0 : ℝ), eps * K < 1 := by
    have : Tendsto (fun eps : ℝ => eps * K) (𝓝[>] 0) (𝓝 (0 * K)) := (Continuous.tendsto (by fun_prop) 0).mono_left nhdsWithin_le_nhds
    rw [zero_mul] at this
    exact this.eventually_lt_const one_pos
  filter_upwards [hsmall, self_mem_nhdsWithin] with eps h1 h2
  have := hK eps h2 (hi eps h2)
  linarith

end

instance normal_open {d : ℕ} : (Measure.pi fun _ : Fin d => gaussianReal 0 1).IsOpenPosMeasure := by
  have : (gaussianReal 0 1).IsOpenPosMeasure := (gaussianReal_absolutelyContinuous' 0 one_ne_zero).isOpenPosMeasure
  infer_instance

section
variable {m d k s : ℕ} {w : WLoss} {D : DualLoss} {ell : (Fin d → ℝ) → (Fin k → ℝ) → Fin s → ℝ} {rho : ℝ}
  {X : Fin m → Fin d → ℝ} {Y : Fin m → Fin k → ℝ} {G : Type} (ext : TorchExt G)

/-- loss minus price of a destination -/
noncomputable def gain (w : WLoss) (D : DualLoss) (ell : (Fin d → ℝ) → (Fin k → ℝ) → Fin s → ℝ) (X : Fin m → Fin d → ℝ) (Y : Fin m → Fin k → ℝ) (i : Fin m)
    (z : Fin d → ℝ) : ℝ := lossAt w ell z (Y i) - D.lam * costAt D.cost (X i) z (Y i) (Y i)

theorem sampleLaw_integral (h : Labelled w D ell rho) (hell : _root_.Measurable fun u : (Fin d → ℝ) × (Fin k → ℝ) => lossAt w ell u.1 u.2) (sigma eps : ℝ) (i : Fin m) :
    (Integrable (fun u : (Fin d → ℝ) × (Fin k → ℝ) => Real.exp ((lossAt w ell u.1 u.2 - D.lam * costAt D.cost (X i) u.1 (Y i) u.2) / eps)) (sampleLaw sigma (X i) (Y i)) ↔
      Integrable (fun e : Fin d → ℝ => Real.exp (gain w D ell X Y i (fun r => X i r + sigma * e r) / eps)) (Measure.pi fun _ => gaussianReal 0 1)) ∧
    ∫ u, Real.exp ((lossAt w ell u.1 u.2 - D.lam * costAt D.cost (X i) u.1 (Y i) u.2) / eps) ∂(sampleLaw sigma (X i) (Y i)) =
      ∫ e : Fin d → ℝ, Real.exp (gain w D ell X Y i (fun r => X i r + sigma * e r) / eps) ∂(Measure.pi fun _ => gaussianReal 0 1) := by
  have hT : _root_.Measurable fun e : Fin d → ℝ => ((fun r => X i r + sigma * e r, Y i) : (Fin d → ℝ) × (Fin k → ℝ)) :=
    (measurable_pi_lambda _ fun r => ((measurable_pi_apply r).const_mul _).const_add _).prodMk measurable_const
  have hF : _root_.Measurable fun u : (Fin d → ℝ) × (Fin k → ℝ) => Real.exp ((lossAt w ell u.1 u.2 - D.lam * costAt D.cost (X i) u.1 (Y i) u.2) / eps) :=
    Real.measurable_exp.comp ((hell.sub ((costAt_measurable h.cost (X i) (Y i)).const_mul _)).div_const _)
  exact ⟨integrable_map_measure hF.aestronglyMeasurable hT.aemeasurable, integral_map hT.aemeasurable hF.aestronglyMeasurable⟩

theorem gain_range {sigma : ℝ} (hs : 0 < sigma) (i : Fin m) :
    Set.range (fun e : Fin d → ℝ => gain w D ell X Y i (fun r => X i r + sigma * e r)) = Set.range (gain w D ell X Y i) := by
  refine (Set.range_comp_subset_range (fun e : Fin d → ℝ => fun r => X i r + sigma * e r) (gain w D ell X Y i)).antisymm ?_
  rintro _ ⟨z, rfl⟩
  refine ⟨fun r => (z r - X i r) / sigma, ?_⟩
  have : (fun r => X i r + sigma * ((z r - X i r) / sigma)) = z := by
    funext r
    field_simp
    ring
  show gain w D ell X Y i (fun r => X i r + sigma * ((z r - X i r) / sigma)) = gain w D ell X Y i z
  rw [this]

theorem gain_continuous (hcont : ∀ i, Continuous (gain w D ell X Y i)) (sigma : ℝ) (i : Fin m) :
    Continuous fun e : Fin d → ℝ => gain w D ell X Y i (fun r => X i r + sigma * e r) :=
  (hcont i).comp (continuous_pi fun r => (continuous_const.add (continuous_const.mul (continuous_apply r))))

theorem population_limit (h : Labelled w D ell rho) (hell : _root_.Measurable fun u : (Fin d → ℝ) × (Fin k → ℝ) => lossAt w ell u.1 u.2) {sigma : ℝ}
    (hs : 0 < sigma) (hcont : ∀ i, Continuous (gain w D ell X Y i)) {S : Fin m → ℝ} (hS : ∀ i, IsLUB (Set.range (gain w D ell X Y i)) (S i)) :
    Tendsto (fun eps => population D.lam rho D.cost.power eps (lossAt w ell) (fun i z y => costAt D.cost (X i) z (Y i) y) (fun i => sampleLaw sigma (X i) (Y i)))
      (𝓝[>] 0) (𝓝 (D.lam * rho ^ D.cost.power + avg S)) := by
  unfold population avg
  refine Tendsto.const_add _ (Tendsto.div_const (tendsto_finsetSum _ fun i _ => ?_) _)
  simp only [(sampleLaw_integral h hell sigma _ i).2]
  refine temperature_limit (gain_continuous hcont sigma i) ?_
  rw [gain_range hs]
  exact hS i

theorem tempered (h : Labelled w D ell rho) {eps : ℝ} (he : 0 < eps) : Labelled w { D with epsilon := eps } ell rho :=
  ⟨h.primal, h.hasLabels, h.reduceSpatial, h.s_pos, h.rows, h.cost, h.rho_eq, h.rho_pos, he, h.erm, h.imp⟩

/-- **C141** Post-sampled evaluation with the unseeded sampler of a Euclidean or max-norm cost on the inputs, when the loss minus `lam` times the cost is continuous and
bounded above in the inputs, with supremum `S i` at data point `i`: for every precision there is a temperature below which the robust loss with `n` samples
is that close, with a probability that tends to one, to the objective without regularisation `lam * rho^p + (1/m) sum_i S i`. -/
theorem C141_limit (h : Labelled w D ell rho) (hr : D.reduction = .mean) (hm : 0 < m) {Ω : Type} [MeasurableSpace Ω] {μ : Measure Ω}
    [IsProbabilityMeasure μ] {gen : Ω → G} (hN : NormalContract ext μ gen) {c : CostR} (hk : c.kind = .normCost) (hp : NormalSampled c) {sigma : ℝ} (hs : 0 < sigma) {T : Sampler} (hkind : T.kind = .labeledCost)
    (hgen : T.generating_cost = some c) (hsig : T.sigma = some sigma) (hseed : T.seed = none) (hD : D.sampler = some T)
    (hell : _root_.Measurable fun u : (Fin d → ℝ) × (Fin k → ℝ) => lossAt w ell u.1 u.2) (hcont : ∀ i, Continuous (gain w D ell X Y i)) {S : Fin m → ℝ}
    (hS : ∀ i, IsLUB (Set.range (gain w D ell X Y i)) (S i)) {δ : ℝ} (hδ : 0 < δ) :
    ∃ e0 > 0, ∀ eps, 0 < eps → eps ≤ e0 → Tendsto (fun n => μ {ω | ¬ ∃ v D' g',
      postForward ext { D with epsilon := eps, nSamples := n } (mat X) (some (mat Y)) true (gen ω) = .ok (.val v, D', g') ∧
      |v.get [] - (D.lam * rho ^ D.cost.power + avg S)| < δ}) atTop (𝓝 0) := by
  have hlim := population_limit (X := X) (Y := Y) h hell hs hcont hS
  rw [Metric.tendsto_nhds] at hlim
  have hev := hlim (δ / 2) (by linarith)
  rw [eventually_nhdsWithin_iff, Metric.eventually_nhds_iff] at hev
  obtain ⟨e1, he1, hev⟩ := hev
  refine ⟨e1 / 2, by positivity, fun eps he hle => ?_⟩
  have hclose := hev (y := eps) (by rw [Real.dist_eq, sub_zero, abs_of_pos he]; linarith) he
  have key := C96_forward ext (X := X) (Y := Y) (D := { D with epsilon := eps }) (tempered h he) hr hm hN hk hp hs hkind hgen hsig hseed hD hell
    (fun i => (sampleLaw_integral h hell sigma eps i).1.2 (temperature_integrable (gain_continuous hcont sigma i)
      (fun e => (hS i).1 (Set.mem_range_self _)) he)) (δ := δ / 2) (by linarith)
  refine tendsto_of_tendsto_of_tendsto_of_le_of_le tendsto_const_nhds key (fun n => zero_le) fun n => measure_mono ?_
  intro ω hω hgood
  obtain ⟨v, D', g', hf, hv⟩ := hgood
  refine hω ⟨v, D', g', hf, ?_⟩
  rw [Real.dist_eq] at hclose
  rw [abs_lt] at hclose hv ⊢
  constructor <;> linarith [hclose.1, hclose.2, hv.1, hv.2]

/-- **C141** If it is unbounded above at some data point (a multiplier too small for the growth of the loss), while the robust loss is defined at all
temperatures, the robust loss exceeds any number at small temperatures with many samples. -/
theorem C141_unbounded (h : Labelled w D ell rho) (hr : D.reduction = .mean) (hm : 0 < m) {Ω : Type} [MeasurableSpace Ω] {μ : Measure Ω}
    [IsProbabilityMeasure μ] {gen : Ω → G} (hN : NormalContract ext μ gen) {c : CostR} (hk : c.kind = .normCost) (hp : NormalSampled c) {sigma : ℝ} (hs : 0 < sigma) {T : Sampler} (hkind : T.kind = .labeledCost)
    (hgen : T.generating_cost = some c) (hsig : T.sigma = some sigma) (hseed : T.seed = none) (hD : D.sampler = some T)
    (hell : _root_.Measurable fun u : (Fin d → ℝ) × (Fin k → ℝ) => lossAt w ell u.1 u.2) (hcont : ∀ i, Continuous (gain w D ell X Y i))
    (hint : ∀ i, ∀ eps > 0, Integrable (fun u => Real.exp ((lossAt w ell u.1 u.2 - D.lam * costAt D.cost (X i) u.1 (Y i) u.2) / eps))
      (sampleLaw sigma (X i) (Y i)))
    (hS : ∃ i, ¬ BddAbove (Set.range (gain w D ell X Y i))) (B : ℝ) :
    ∃ e0 > 0, ∀ eps, 0 < eps → eps ≤ e0 → Tendsto (fun n => μ {ω | ¬ ∃ v D' g',
      postForward ext { D with epsilon := eps, nSamples := n } (mat X) (some (mat Y)) true (gen ω) = .ok (.val v, D', g') ∧ B < v.get []}) atTop (𝓝 0) := by
  obtain ⟨i0, hi0⟩ := hS
  set V : Fin m → ℝ → ℝ := fun i eps => eps * Real.log (∫ e : Fin d → ℝ, Real.exp (gain w D ell X Y i (fun r => X i r + sigma * e r) / eps)
    ∂(Measure.pi fun _ => gaussianReal 0 1)) with hV
  have hint' : ∀ i, ∀ eps > 0, Integrable (fun e : Fin d → ℝ => Real.exp (gain w D ell X Y i (fun r => X i r + sigma * e r) / eps))
      (Measure.pi fun _ => gaussianReal 0 1) := fun i eps he => (sampleLaw_integral h hell sigma eps i).1.1 (hint i eps he)
  have hmR : (0 : ℝ) < m := by exact_mod_cast hm
  -- every term is bounded below near zero
  have hlow : ∀ i, ∃ b, ∀ᶠ eps in 𝓝[>] (0 : ℝ), b ≤ V i eps := by
    intro i
    obtain ⟨K, hK⟩ := temperature_lower (μ := Measure.pi fun _ : Fin d => gaussianReal 0 1) (gain_continuous hcont sigma i)
      (c := gain w D ell X Y i (fun r => X i r + sigma * 0) - 1) ⟨fun _ => 0, by linarith⟩
    refine ⟨gain w D ell X Y i (fun r => X i r + sigma * 0) - 1 - |K|, ?_⟩
    filter_upwards [Ioo_mem_nhdsGT (zero_lt_one : (0 : ℝ) < 1)] with eps he
    have h1 := hK eps he.1 (hint' i eps he.1)
    have h2 : eps * K ≤ |K| := by
      have := le_abs_self K
      have := abs_nonneg K
      nlinarith [he.1, he.2]
    exact le_trans (by linarith) h1
  choose b hb using hlow
  have hbig := temperature_unbounded (μ := Measure.pi fun _ : Fin d => gaussianReal 0 1) (gain_continuous hcont sigma i0) (by rw [gain_range hs]; exact hi0)
    (hint' i0)
  have hev : ∀ᶠ eps in 𝓝[>] (0 : ℝ), B + 1 < population D.lam rho D.cost.power eps (lossAt w ell) (fun i z y => costAt D.cost (X i) z (Y i) y)
      (fun i => sampleLaw sigma (X i) (Y i)) := by
    filter_upwards [eventually_all.2 hb, (tendsto_atTop.1 hbig) ((B + 2 - D.lam * rho ^ D.cost.power) * m - ∑ i ∈ Finset.univ.erase i0, b i)] with eps h1 h2
    unfold population avg
    simp only [(sampleLaw_integral h hell sigma _ _).2]
    have h3 : ∑ i, V i eps = V i0 eps + ∑ i ∈ Finset.univ.erase i0, V i eps := (Finset.add_sum_erase _ _ (Finset.mem_univ i0)).symm
    have h4 : ∑ i ∈ Finset.univ.erase i0, b i ≤ ∑ i ∈ Finset.univ.erase i0, V i eps := Finset.sum_le_sum fun i _ => h1 i
    have h5 : (B + 2 - D.lam * rho ^ D.cost.power) * m ≤ ∑ i, V i eps := by rw [h3]; linarith
    have h6 := (le_div_iff₀ hmR).2 h5
    have : (∑ i, V i eps) / m = (∑ i, eps * Real.log (∫ e : Fin d → ℝ, Real.exp (gain w D ell X Y i (fun r => X i r + sigma * e r) / eps)
        ∂(Measure.pi fun _ => gaussianReal 0 1))) / m := rfl
    linarith
  rw [eventually_nhdsWithin_iff, Metric.eventually_nhds_iff] at hev
  obtain ⟨e1, he1, hev⟩ := hev
  refine ⟨e1 / 2, by positivity, fun eps he hle => ?_⟩
  have hclose := hev (y := eps) (by rw [Real.dist_eq, sub_zero, abs_of_pos he]; linarith) he
  have key := C96_forward ext (X := X) (Y := Y) (D := { D with epsilon := eps }) (tempered h he) hr hm hN hk hp hs hkind hgen hsig hseed hD hell
    (fun i => hint i eps he) (δ := 1) one_pos
  refine tendsto_of_tendsto_of_tendsto_of_le_of_le tendsto_const_nhds key (fun n => zero_le) fun n => measure_mono ?_
  intro ω hω hgood
  obtain ⟨v, D', g', hf, hv⟩ := hgood
  refine hω ⟨v, D', g', hf, ?_⟩
  have := (abs_lt.1 hv).1
  dsimp only at this
  linarith

/-- **C141** So at small temperatures the robust loss covers, up to any precision, all the plans that move the inputs at an average cost of at most
`rho^p`, with a probability that tends to one: no regularity of the plans is needed. -/
theorem C141_covers (h : Labelled w D ell rho) (hr : D.reduction = .mean) (hm : 0 < m) (hlam : 0 ≤ D.lam) {Ω : Type} [MeasurableSpace Ω] {μ : Measure Ω}
    [IsProbabilityMeasure μ] {gen : Ω → G} (hN : NormalContract ext μ gen) {c : CostR} (hk : c.kind = .normCost) (hp : NormalSampled c) {sigma : ℝ} (hs : 0 < sigma) {T : Sampler} (hkind : T.kind = .labeledCost)
    (hgen : T.generating_cost = some c) (hsig : T.sigma = some sigma) (hseed : T.seed = none) (hD : D.sampler = some T)
    (hell : _root_.Measurable fun u : (Fin d → ℝ) × (Fin k → ℝ) => lossAt w ell u.1 u.2) (hcont : ∀ i, Continuous (gain w D ell X Y i))
    (hS : ∀ i, BddAbove (Set.range (gain w D ell X Y i))) {δ : ℝ} (hδ : 0 < δ) :
    ∃ e0 > 0, ∀ eps, 0 < eps → eps ≤ e0 → Tendsto (fun n => μ {ω | ¬ ∃ v D' g',
      postForward ext { D with epsilon := eps, nSamples := n } (mat X) (some (mat Y)) true (gen ω) = .ok (.val v, D', g') ∧
      ∀ π : Measure (Fin m × (Fin d → ℝ)), IsProbabilityMeasure π → (∀ i, π.real {p | p.1 = i} = 1 / m) →
        Integrable (fun p => costAt D.cost (X p.1) p.2 (Y p.1) (Y p.1)) π → Integrable (fun p => lossAt w ell p.2 (Y p.1)) π →
        ∫ p, costAt D.cost (X p.1) p.2 (Y p.1) (Y p.1) ∂π ≤ rho ^ D.cost.power → ∫ p, lossAt w ell p.2 (Y p.1) ∂π < v.get [] + δ}) atTop (𝓝 0) := by
  have hlub : ∀ i, IsLUB (Set.range (gain w D ell X Y i)) (sSup (Set.range (gain w D ell X Y i))) := fun i => isLUB_csSup ⟨_, ⟨0, rfl⟩⟩ (hS i)
  set S : Fin m → ℝ := fun i => sSup (Set.range (gain w D ell X Y i)) with hSdef
  obtain ⟨e0, he0, hlim⟩ := C141_limit ext h hr hm hN hk hp hs hkind hgen hsig hseed hD hell hcont hlub hδ
  refine ⟨e0, he0, fun eps he hle => ?_⟩
  refine tendsto_of_tendsto_of_tendsto_of_le_of_le tendsto_const_nhds (hlim eps he hle) (fun n => zero_le) fun n => measure_mono ?_
  intro ω hω hgood
  obtain ⟨v, D', g', hf, hv⟩ := hgood
  refine hω ⟨v, D', g', hf, fun π hπ hmarg hci hli hcost => ?_⟩
  obtain ⟨hsi, hsv⟩ := integral_fst hmarg S
  have h1 : ∫ p, lossAt w ell p.2 (Y p.1) ∂π ≤ ∫ p, (D.lam * costAt D.cost (X p.1) p.2 (Y p.1) (Y p.1) + S p.1) ∂π := by
    refine integral_mono hli ((hci.const_mul _).add hsi) fun p => ?_
    have := (hlub p.1).1 ⟨p.2, rfl⟩
    simp only [gain] at this
    dsimp only
    linarith
  rw [integral_add (hci.const_mul _) hsi, integral_const_mul, hsv] at h1
  have h2 := mul_le_mul_of_nonneg_left hcost hlam
  have h3 := (abs_lt.1 hv).1
  linarith

end

/-! ### The hypotheses can be met -/

/-- the labels of the witnesses -/
noncomputable def exShift : Fin 2 → Fin 1 → ℝ := fun i c => exX i c + 1

theorem exCons_gain (l : ℝ) (i : Fin 2) (z : Fin 1 → ℝ) : gain exW { exCons with lam := l } (fun (x y : Fin 1 → ℝ) (c : Fin 1) => (x c - y c) ^ 2) exX exShift i z =
    (z 0 - exX i 0 - 1) ^ 2 - l * (exX i 0 - z 0) ^ 2 := by
  unfold gain
  have hc : costAt { exCons with lam := l }.cost (exX i) z (exShift i) (exShift i) = (exX i 0 - z 0) ^ 2 := exCons_cost _ _ _ _
  rw [hc]
  have hl : lossAt exW (fun (x y : Fin 1 → ℝ) (c : Fin 1) => (x c - y c) ^ 2) z (exShift i) = (z 0 - exShift i 0) ^ 2 := by
    simp [lossAt, exW, avg, ridge]
  rw [hl]
  simp only [exShift]
  ring

theorem exCons_gain_continuous (l : ℝ) (i : Fin 2) :
    Continuous (gain exW { exCons with lam := l } (fun (x y : Fin 1 → ℝ) (c : Fin 1) => (x c - y c) ^ 2) exX exShift i) := by
  have : gain exW { exCons with lam := l } (fun (x y : Fin 1 → ℝ) (c : Fin 1) => (x c - y c) ^ 2) exX exShift i =
      fun z => (z 0 - exX i 0 - 1) ^ 2 - l * (exX i 0 - z 0) ^ 2 := funext (exCons_gain l i)
  rw [this]
  fun_prop

theorem exCons_priced (l : ℝ) : Labelled (d := 1) (k := 1) (s := 1) exW { exCons with lam := l } (fun x y c => (x c - y c) ^ 2) 1 :=
  have h := exCons_labelled
  ⟨h.primal, h.hasLabels, h.reduceSpatial, h.s_pos, h.rows, h.cost, h.rho_eq, h.rho_pos, h.eps_pos, h.erm, h.imp⟩

theorem exCons_lub (i : Fin 2) :
    IsLUB (Set.range (gain exW { exCons with lam := 2 } (fun (x y : Fin 1 → ℝ) (c : Fin 1) => (x c - y c) ^ 2) exX exShift i)) 2 := by
  constructor
  · rintro _ ⟨z, rfl⟩
    rw [exCons_gain]
    nlinarith [sq_nonneg (z 0 - exX i 0 + 1)]
  · intro b hb
    have := hb ⟨fun _ => exX i 0 - 1, rfl⟩
    rw [exCons_gain] at this
    nlinarith

theorem exCons_measurable : _root_.Measurable fun u : (Fin 1 → ℝ) × (Fin 1 → ℝ) => lossAt exW (fun (x y : Fin 1 → ℝ) (c : Fin 1) => (x c - y c) ^ 2) u.1 u.2 := by
  have hl : ∀ u : (Fin 1 → ℝ) × (Fin 1 → ℝ), lossAt exW (fun (x y : Fin 1 → ℝ) (c : Fin 1) => (x c - y c) ^ 2) u.1 u.2 = (u.1 0 - u.2 0) ^ 2 := by
    intro u
    simp [lossAt, exW, avg, ridge]
  simp only [hl]
  exact (((measurable_pi_apply 0).comp measurable_fst).sub ((measurable_pi_apply 0).comp measurable_snd)).pow_const 2

/-- with the multiplier 2 the robust loss at small temperatures is close to 4 -/
example {δ : ℝ} (hδ : 0 < δ) : ∃ e0 > 0, ∀ eps, 0 < eps → eps ≤ e0 → Tendsto (fun n => bankLaw {ω | ¬ ∃ v D' g',
    postForward bankExt { exCons with lam := 2, epsilon := eps, nSamples := n } (mat exX) (some (mat exShift)) true ω = .ok (.val v, D', g') ∧
    |v.get [] - 4| < δ}) atTop (𝓝 0) := by
  have := C141_limit bankExt (exCons_priced 2) rfl (by norm_num) bank_contract (c := ⟨.normCost, .fin 2, 2, .fin 0⟩) rfl (Or.inl ⟨rfl, Or.inr rfl⟩)
    (sigma := 1) one_pos rfl rfl rfl rfl rfl exCons_measurable (exCons_gain_continuous 2) (S := fun _ => 2) exCons_lub hδ
  have e : (2 : ℝ) * 1 ^ exCons.cost.power + avg (fun _ : Fin 2 => (2 : ℝ)) = 4 := by
    simp [avg]
    norm_num
  simpa only [e, id] using this

/-- with the multiplier 1 it exceeds any number -/
example (B : ℝ) := by
  refine C141_unbounded bankExt (exCons_priced 1) rfl (by norm_num) bank_contract (c := ⟨.normCost, .fin 2, 2, .fin 0⟩) rfl (Or.inl ⟨rfl, Or.inr rfl⟩)
    (sigma := 1) one_pos rfl rfl rfl rfl rfl exCons_measurable (X := exX) (Y := exShift) (exCons_gain_continuous 1) (fun i eps he => ?_) ⟨0, ?_⟩ B
  · refine (sampleLaw_integral (exCons_priced 1) exCons_measurable 1 eps i).1.2 ?_
    have e : (fun e : Fin 1 → ℝ => Real.exp (gain exW { exCons with lam := 1 } (fun (x y : Fin 1 → ℝ) (c : Fin 1) => (x c - y c) ^ 2) exX exShift i
        (fun r => exX i r + 1 * e r) / eps)) = (fun t : ℝ => Real.exp (1 / eps) * Real.exp (-2 / eps * t)) ∘ (fun e : Fin 1 → ℝ => e 0) := by
      funext e
      rw [exCons_gain]
      simp only [Function.comp]
      rw [← Real.exp_add]
      congr 1
      field_simp
      ring
    rw [e]
    exact (measurePreserving_eval (fun _ : Fin 1 => gaussianReal 0 1) 0).integrable_comp_of_integrable ((integrable_exp_mul_gaussianReal _).const_mul _)
  · rintro ⟨b, hb⟩
    have := hb ⟨fun _ => exX 0 0 - |b|, rfl⟩
    rw [exCons_gain] at this
    have := le_abs_self b
    have := abs_nonneg b
    nlinarith

example {δ : ℝ} (hδ : 0 < δ) := C141_covers bankExt (exCons_priced 2) rfl (by norm_num) (by norm_num) bank_contract (c := ⟨.normCost, .fin 2, 2, .fin 0⟩)
  rfl (Or.inl ⟨rfl, Or.inr rfl⟩) (sigma := 1) one_pos rfl rfl rfl rfl rfl exCons_measurable (exCons_gain_continuous 2) (fun i => ⟨2, (exCons_lub i).1⟩) hδ

end Skwdro
