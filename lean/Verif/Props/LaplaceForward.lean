import Verif.Props.ConsistencyUnlabelled
import Mathlib.Analysis.SpecialFunctions.ImproperIntegrals
import Mathlib.MeasureTheory.Measure.Lebesgue.Integral

/-! # C96, C113 with Laplace noise: the sampler of a cost of order 1 and power 1 -/

namespace Skwdro
open Spec Tensor MeasureTheory ProbabilityTheory
open scoped Topology

variable {G : Type} (ext : TorchExt G)

/-- the standard Laplace law on the line, of density `exp(-|t|) / 2` -/
noncomputable def laplaceLaw : Measure ℝ := volume.withDensity fun t => ENNReal.ofReal (Real.exp (-|t|) / 2)

theorem laplace_density : ∫ t : ℝ, Real.exp (-|t|) / 2 = 1 := by
  have h := integral_comp_abs (f := fun t => Real.exp (-t) / 2)
  rw [h, integral_div, integral_exp_neg_Ioi_zero]
  norm_num

instance laplace_prob : IsProbabilityMeasure laplaceLaw := by
  constructor
  rw [laplaceLaw, withDensity_apply _ MeasurableSet.univ, Measure.restrict_univ,
    ← ofReal_integral_eq_lintegral_ofReal (integrable_of_integral_eq_one laplace_density)
      (Filter.Eventually.of_forall fun t => by positivity), laplace_density, ENNReal.ofReal_one]

/-- the law of one sample around a data point: independent Laplace noise of scale `sigma` on every coordinate -/
noncomputable def laplaceAround {d : ℕ} (sigma : ℝ) (x : Fin d → ℝ) : Measure (Fin d → ℝ) :=
  (Measure.pi fun _ : Fin d => laplaceLaw).map fun e r => x r + sigma * e r

instance {d : ℕ} (sigma : ℝ) (x : Fin d → ℝ) : IsProbabilityMeasure (laplaceAround sigma x) :=
  Measure.isProbabilityMeasure_map (measurable_pi_lambda _ fun r => ((measurable_pi_apply r).const_mul _).const_add _).aemeasurable

/-- torch's contract for Laplace draws: from a random generator state, the entries of the drawn tensor are independent standard Laplace variables -/
def LaplaceContract {Ω : Type} [MeasurableSpace Ω] (μ : Measure Ω) (gen : Ω → G) : Prop :=
  ∀ n m d : ℕ, Measurable (fun ω (j : Fin n) (i : Fin m) (k : Fin d) => (ext.stdLaplace (gen ω) [n, m, d]).1.get [j, i, k]) ∧
    μ.map (fun ω (j : Fin n) (i : Fin m) (k : Fin d) => (ext.stdLaplace (gen ω) [n, m, d]).1.get [j, i, k]) =
      Measure.pi fun _ => Measure.pi fun _ => Measure.pi fun _ => laplaceLaw

/-- the law of one sample of a data point `(x, y)`: Laplace noise of scale `sigma` around `x`, the label kept -/
noncomputable def sampleLawL {d k : ℕ} (sigma : ℝ) (x : Fin d → ℝ) (y : Fin k → ℝ) : Measure ((Fin d → ℝ) × (Fin k → ℝ)) :=
  (Measure.pi fun _ : Fin d => laplaceLaw).map (fun e => (fun r => x r + sigma * e r, y))

section
variable {m d s : ℕ} {w : WLoss} {D : DualLoss} {ell : (Fin d → ℝ) → Fin s → ℝ} {rho : ℝ} {X : Fin m → Fin d → ℝ}

/-- what the cost-based sampler draws once re-centred on the batch, for a 1-norm cost -/
theorem cost_sampler_draws0_laplace {c : CostR} (hp : c.p = .fin 1) (hpow : c.power = 1) {sigma : ℝ} (hs : 0 < sigma) {S : Sampler}
    (hkind : S.kind = .noLabelsCost) (hgen : S.generating_cost = some c) (hsig : S.sigma = some sigma) (hseed : S.seed = none)
    (X : Fin m → Fin d → ℝ) (g : G) :
    ∃ S', S.resetMean ext (mat X) none g = .ok (S', g) ∧ ∀ n,
      IsTen (S'.sample ext n g).1 (fun (j : Fin n) i r => X i r + sigma * (ext.stdLaplace g [n, m, d]).1.get [j, i, r]) ∧
      (S'.sample ext n g).2.1 = none := by
  have hd : samplerData c (mat X) (some sigma) = .ok (.laplace (mat X) (.fin sigma)) := by
    simp [samplerData, hpow, hp, defaultEps, mkLaplace, validScale, hs]
  refine ⟨_, by simp [Sampler.resetMean, hkind, hgen, hsig, hseed, mkNoLabelsCost, hd, seedGlobal]; rfl, fun n => ?_⟩
  refine ⟨⟨rfl, fun j i r => ?_⟩, rfl⟩
  show (mat X).get [(i : ℕ), (r : ℕ)] + scaleVal (.fin sigma) * _ = _
  rw [(isMat_mat X).2 i r]; rfl

/-- the law of one Laplace draw around every data point -/
noncomputable def laplaceNoise (sigma : ℝ) (X : Fin m → Fin d → ℝ) : Measure (Fin m → Fin d → ℝ) :=
  (Measure.pi fun _ : Fin m => Measure.pi fun _ : Fin d => laplaceLaw).map fun e i r => X i r + sigma * e i r

instance laplaceNoise_prob (sigma : ℝ) (X : Fin m → Fin d → ℝ) : IsProbabilityMeasure (laplaceNoise sigma X) :=
  Measure.isProbabilityMeasure_map (noise_measurable sigma X).aemeasurable

theorem laplace_marginal {sigma : ℝ} (X : Fin m → Fin d → ℝ) (i : Fin m) :
    (laplaceNoise sigma X).map (fun u => u i) = laplaceAround sigma (X i) := by
  have hphi1 : Measurable fun (e : Fin d → ℝ) r => X i r + sigma * e r :=
    measurable_pi_lambda _ fun r => ((measurable_pi_apply r).const_mul _).const_add _
  rw [laplaceNoise, Measure.map_map (measurable_pi_apply i) (noise_measurable sigma X)]
  have : (fun u : Fin m → Fin d → ℝ => u i) ∘ (fun (e : Fin m → Fin d → ℝ) i r => X i r + sigma * e i r) =
      (fun (e : Fin d → ℝ) r => X i r + sigma * e r) ∘ (fun e => e i) := rfl
  rw [this, ← Measure.map_map hphi1 (measurable_pi_apply i)]
  have he : (Measure.pi fun _ : Fin m => Measure.pi fun _ : Fin d => laplaceLaw).map (fun e => e i) =
      Measure.pi fun _ : Fin d => laplaceLaw :=
    (measurePreserving_eval (fun _ : Fin m => Measure.pi fun _ : Fin d => laplaceLaw) i).map_eq
  rw [he]
  rfl

/-- the samples drawn from a generator state -/
noncomputable def drawnL (sigma : ℝ) (X : Fin m → Fin d → ℝ) (g : G) (n : ℕ) (j : Fin n) (i : Fin m) (r : Fin d) : ℝ :=
  X i r + sigma * (ext.stdLaplace g [n, m, d]).1.get [j, i, r]

theorem drawnL_law {Ω : Type} [MeasurableSpace Ω] {μ : Measure Ω} {gen : Ω → G} (hN : LaplaceContract ext μ gen) (sigma : ℝ)
    (X : Fin m → Fin d → ℝ) (n : ℕ) :
    Measurable (fun ω => drawnL ext sigma X (gen ω) n) ∧
      μ.map (fun ω => drawnL ext sigma X (gen ω) n) = Measure.pi fun _ => laplaceNoise sigma X := by
  have hPhi : Measurable fun (e : Fin n → Fin m → Fin d → ℝ) j i r => X i r + sigma * e j i r :=
    measurable_pi_lambda _ fun j => (noise_measurable sigma X).comp (measurable_pi_apply j)
  refine ⟨hPhi.comp (hN n m d).1, ?_⟩
  have : (fun ω => drawnL ext sigma X (gen ω) n) = (fun (e : Fin n → Fin m → Fin d → ℝ) j i r => X i r + sigma * e j i r) ∘
      (fun ω (j : Fin n) (i : Fin m) (k : Fin d) => (ext.stdLaplace (gen ω) [n, m, d]).1.get [(j : ℕ), (i : ℕ), (k : ℕ)]) := rfl
  rw [this, ← Measure.map_map hPhi (hN n m d).1, (hN n m d).2]
  exact Measure.pi_map_pi (μ := fun _ : Fin n => Measure.pi fun _ : Fin m => Measure.pi fun _ : Fin d => laplaceLaw)
    (f := fun _ (e : Fin m → Fin d → ℝ) i r => X i r + sigma * e i r) fun _ => (noise_measurable sigma X).aemeasurable

/-- the value of the forward pass on the samples it draws -/
theorem forward_drawn_laplace (h : NoLabels w D ell rho) (hr : D.reduction = .mean) (hm : 0 < m) {c : CostR} (hp : c.p = .fin 1)
    (hpow : c.power = 1) {sigma : ℝ} (hs : 0 < sigma) {S : Sampler} (hkind : S.kind = .noLabelsCost)
    (hgen : S.generating_cost = some c) (hsig : S.sigma = some sigma) (hseed : S.seed = none) (hD : D.sampler = some S) (g : G)
    (hn : 0 < D.nSamples) :
    ∃ v D' g', postForward ext D (mat X) none true g = .ok (.val v, D', g') ∧
      v.get [] = num (computeDual ext D (mat X) none (ten (drawnL ext sigma X g D.nSamples)) none) := by
  obtain ⟨S', hS', hdraw⟩ := cost_sampler_draws0_laplace ext hp hpow hs hkind hgen hsig hseed X g
  obtain ⟨hz, hl⟩ := hdraw D.nSamples
  have hpl : Plain D (mat X) none (S'.sample ext D.nSamples g).1 (S'.sample ext D.nSamples g).2.1 rho
      (fun j i => lossAt0 w ell (drawnL ext sigma X g D.nSamples j i))
      (fun j i => pnorm D.cost.p (fun q => X i q - drawnL ext sigma X g D.nSamples j i q) ^ D.cost.power) := by
    rw [hl]
    exact plain_of_noLabels h hn hm (isMat_mat X) hz
  obtain ⟨v, D', hf, -, hv⟩ := C29_formula_postsampled ext hD hS' hpl hr
  refine ⟨v, D', _, hf, ?_⟩
  rw [hv.2, num_samples0 ext h hr hm hn]
  rfl

/-- **C96** Without labels, through the forward pass: with the unseeded sampler of a 1-norm cost, the value returned with `n` samples per
point tends in probability to the robust objective with exact expectations under Laplace noise. -/
theorem C96_forward_unlabelled_laplace (h : NoLabels w D ell rho) (hr : D.reduction = .mean) (hm : 0 < m) {Ω : Type} [MeasurableSpace Ω]
    {μ : Measure Ω} {gen : Ω → G} (hN : LaplaceContract ext μ gen) {c : CostR} (hp : c.p = .fin 1)
    (hpow : c.power = 1) {sigma : ℝ} (hs : 0 < sigma) {S : Sampler} (hkind : S.kind = .noLabelsCost)
    (hgen : S.generating_cost = some c) (hsig : S.sigma = some sigma) (hseed : S.seed = none) (hD : D.sampler = some S)
    (hell : Measurable (lossAt0 w ell))
    (hint : ∀ i, Integrable (fun z => Real.exp ((lossAt0 w ell z - D.lam * moveCost D X i z) / D.epsilon))
      (laplaceAround sigma (X i)))
    {δ : ℝ} (hδ : 0 < δ) :
    Filter.Tendsto (fun n => μ {ω | ¬ ∃ v D' g', postForward ext { D with nSamples := n } (mat X) none true (gen ω) = .ok (.val v, D', g') ∧
      |v.get [] - populationU D.lam rho D.cost.power D.epsilon (lossAt0 w ell) (moveCost D X)
        (fun i => laplaceAround sigma (X i))| < δ}) Filter.atTop (𝓝 0) := by
  have key := C96_in_probability_unlabelled ext (X := X) h hr hm (Ω := fun _ => Ω) (fun _ => μ) (laplaceNoise sigma X)
    (fun n ω => drawnL ext sigma X (gen ω) n) (fun n => (drawnL_law ext hN sigma X n).1) (fun n => (drawnL_law ext hN sigma X n).2) hell
    (fun i => by rw [laplace_marginal]; exact hint i) hδ
  simp only [laplace_marginal] at key
  refine key.congr' ?_
  filter_upwards [Filter.eventually_gt_atTop 0] with n hn
  congr 1
  ext ω
  simp only [Set.mem_ofPred_eq]
  have hn' : NoLabels w { D with nSamples := n } ell rho :=
    ⟨h.primal, h.hasLabels, h.reduceSpatial, h.s_pos, h.rows, h.kind, h.order, h.rho_eq, h.rho_pos, h.eps_pos, h.erm, h.imp⟩
  obtain ⟨v, D', g', hf, hv⟩ := forward_drawn_laplace ext (X := X) hn' hr hm hp hpow hs hkind hgen hsig hseed hD (gen ω) hn
  have hval : v.get [] = num (computeDual ext D (mat X) none (ten (drawnL ext sigma X (gen ω) n)) none) := by
    rw [hv, num_samples0 ext hn' hr hm hn, num_samples0 ext h hr hm hn]
    rfl
  rw [hf, ← hval]
  constructor
  · rintro hle ⟨v', D'', g'', he, hlt⟩
    simp only [Except.ok.injEq, Prod.mk.injEq, DualVal.val.injEq] at he
    rw [← he.1] at hlt
    linarith
  · intro hno
    by_contra hlt
    exact hno ⟨v, D', _, rfl, not_le.1 hlt⟩

/-- **C113** Without labels, through the forward pass: with at least `log(2 m / δ) / (2 σ^2)` samples per point the value returned is within `t`
of the exact objective with probability at least `1 - δ`. -/
theorem C113_forward_unlabelled_laplace (h : NoLabels w D ell rho) (hr : D.reduction = .mean) (hm : 0 < m) {Ω : Type} [MeasurableSpace Ω]
    {μ : Measure Ω} [IsProbabilityMeasure μ] {gen : Ω → G} (hN : LaplaceContract ext μ gen) {c : CostR} (hp : c.p = .fin 1)
    (hpow : c.power = 1) {sigma : ℝ} (hsg : 0 < sigma) {S : Sampler} (hkind : S.kind = .noLabelsCost)
    (hgen : S.generating_cost = some c) (hsig : S.sigma = some sigma) (hseed : S.seed = none) (hD : D.sampler = some S)
    (hell : Measurable (lossAt0 w ell)) (B : Fin m → ℝ)
    (hB : ∀ i, ∀ᵐ z ∂(laplaceAround sigma (X i)), lossAt0 w ell z - D.lam * moveCost D X i z ≤ B i)
    {t δ σ : ℝ} (ht : 0 < t) (hδ : 0 < δ) (hσ : 0 < σ) (hs : ∀ i, σ ≤ (1 - Real.exp (-(t / D.epsilon))) *
      ∫ z, Real.exp ((lossAt0 w ell z - D.lam * moveCost D X i z - B i) / D.epsilon)
        ∂(laplaceAround sigma (X i)))
    (hn : 0 < D.nSamples) (hbig : Real.log (2 * m / δ) / (2 * σ ^ 2) ≤ D.nSamples) :
    1 - δ ≤ μ.real {ω | ∃ v D' g', postForward ext D (mat X) none true (gen ω) = .ok (.val v, D', g') ∧
      |v.get [] - populationU D.lam rho D.cost.power D.epsilon (lossAt0 w ell) (moveCost D X)
        (fun i => laplaceAround sigma (X i))| < t} := by
  have key := C113_enough_unlabelled ext (X := X) h hr hm hn μ (laplaceNoise sigma X) (fun ω => drawnL ext sigma X (gen ω) D.nSamples)
    (drawnL_law ext hN sigma X _).1 (drawnL_law ext hN sigma X _).2 hell B (fun i => by rw [laplace_marginal]; exact hB i) ht hδ hσ
    (fun i => by rw [laplace_marginal]; exact hs i) hbig
  simp only [laplace_marginal] at key
  set A := {ω | t ≤ |num (computeDual ext D (mat X) none (ten (drawnL ext sigma X (gen ω) D.nSamples)) none) -
      populationU D.lam rho D.cost.power D.epsilon (lossAt0 w ell) (moveCost D X)
        (fun i => laplaceAround sigma (X i))|} with hA
  refine le_trans ?_ (measureReal_mono (s₁ := Aᶜ) ?_ (measure_ne_top _ _))
  · have h1 : (1 : ℝ) ≤ μ.real A + μ.real Aᶜ := by
      have := measureReal_union_le (μ := μ) A Aᶜ
      rw [Set.union_compl_self, probReal_univ] at this
      exact this
    linarith
  · intro ω hω
    simp only [hA, Set.mem_compl_iff, Set.mem_ofPred_eq, not_le] at hω ⊢
    obtain ⟨v, D', g', hf, hv⟩ := forward_drawn_laplace ext (X := X) h hr hm hp hpow hsg hkind hgen hsig hseed hD (gen ω) hn
    exact ⟨v, D', g', hf, by rw [hv]; exact hω⟩

end

/-! ## With labels -/

section
variable {m d k s : ℕ} {w : WLoss} {D : DualLoss} {ell : (Fin d → ℝ) → (Fin k → ℝ) → Fin s → ℝ} {rho : ℝ}
  {X : Fin m → Fin d → ℝ} {Y : Fin m → Fin k → ℝ}

/-- what the cost-based sampler draws once re-centred on the batch, for a 1-norm cost on the inputs only -/
theorem cost_sampler_draws_laplace {c : CostR} (hk : c.kind = .normCost) (hp : c.p = .fin 1) (hpow : c.power = 1) {sigma : ℝ}
    (hs : 0 < sigma) {S : Sampler} (hkind : S.kind = .labeledCost) (hgen : S.generating_cost = some c) (hsig : S.sigma = some sigma)
    (hseed : S.seed = none) (X : Fin m → Fin d → ℝ) (Y : Fin m → Fin k → ℝ) (g : G) :
    ∃ S', S.resetMean ext (mat X) (some (mat Y)) g = .ok (S', g) ∧ ∀ n,
      IsTen (S'.sample ext n g).1 (fun (j : Fin n) i r => X i r + sigma * (ext.stdLaplace g [n, m, d]).1.get [j, i, r]) ∧
      ∃ t, (S'.sample ext n g).2.1 = some t ∧ IsTen t (fun (_ : Fin n) i r => Y i r) := by
  have hd : samplerData c (mat X) (some sigma) = .ok (.laplace (mat X) (.fin sigma)) := by
    simp [samplerData, hpow, hp, defaultEps, mkLaplace, validScale, hs]
  have hl : samplerLabels c (some (mat Y)) (some sigma) = .ok (some (.dirac (mat Y) 1)) := by
    simp [samplerLabels, hk, samplerLabelsNC]
  refine ⟨_, by simp [Sampler.resetMean, hkind, hgen, hsig, hseed, mkLabeledCost, hd, hl, seedGlobal]; rfl, fun n => ?_⟩
  refine ⟨⟨rfl, fun j i r => ?_⟩, _, rfl, rfl, fun j i r => ?_⟩
  · show (mat X).get [(i : ℕ), (r : ℕ)] + scaleVal (.fin sigma) * _ = _
    rw [(isMat_mat X).2 i r]; rfl
  · show (mat Y).get [(i : ℕ), (r : ℕ)] = _
    exact (isMat_mat Y).2 i r

/-- **C96** Through the forward pass: with an unseeded sampler of a 1-norm cost on the inputs, the value returned with `n` samples per
point tends in probability to the robust objective with exact expectations under Laplace noise of the sampler's scale. -/
theorem C96_forward_laplace (h : Labelled w D ell rho) (hr : D.reduction = .mean) (hm : 0 < m) {Ω : Type} [MeasurableSpace Ω] {μ : Measure Ω}
    [IsProbabilityMeasure μ] {gen : Ω → G} (hN : LaplaceContract ext μ gen) {c : CostR} (hk : c.kind = .normCost) (hp : c.p = .fin 1)
    (hpow : c.power = 1) {sigma : ℝ} (hs : 0 < sigma) {S : Sampler} (hkind : S.kind = .labeledCost)
    (hgen : S.generating_cost = some c) (hsig : S.sigma = some sigma) (hseed : S.seed = none) (hD : D.sampler = some S)
    (hell : Measurable fun u : (Fin d → ℝ) × (Fin k → ℝ) => lossAt w ell u.1 u.2)
    (hint : ∀ i, Integrable (fun u => Real.exp ((lossAt w ell u.1 u.2 - D.lam * costAt D.cost (X i) u.1 (Y i) u.2) / D.epsilon))
      (sampleLawL sigma (X i) (Y i)))
    {δ : ℝ} (hδ : 0 < δ) :
    Filter.Tendsto (fun n => μ {ω | ¬ ∃ v D' g', postForward ext { D with nSamples := n } (mat X) (some (mat Y)) true (gen ω) = .ok (.val v, D', g') ∧
      |v.get [] - population D.lam rho D.cost.power D.epsilon (lossAt w ell) (fun i z y => costAt D.cost (X i) z (Y i) y)
        (fun i => sampleLawL sigma (X i) (Y i))| < δ}) Filter.atTop (𝓝 0) := by
  let phi : (Fin m → Fin d → ℝ) → Fin m → (Fin d → ℝ) × (Fin k → ℝ) := fun e i => (fun r => X i r + sigma * e i r, Y i)
  have hphi1 : ∀ i, Measurable fun e : Fin d → ℝ => ((fun r => X i r + sigma * e r, Y i) : (Fin d → ℝ) × (Fin k → ℝ)) := by
    intro i
    exact (measurable_pi_lambda _ fun r => ((measurable_pi_apply r).const_mul _).const_add _).prodMk measurable_const
  have hphi : Measurable phi := measurable_pi_lambda _ fun i => (hphi1 i).comp (measurable_pi_apply i)
  let Gm : Measure (Fin m → Fin d → ℝ) := Measure.pi fun _ => Measure.pi fun _ => laplaceLaw
  let kap := Gm.map phi
  have : IsProbabilityMeasure kap := Measure.isProbabilityMeasure_map hphi.aemeasurable
  have hmarg : ∀ i, kap.map (fun u => u i) = sampleLawL sigma (X i) (Y i) := by
    intro i
    rw [Measure.map_map (measurable_pi_apply i) hphi]
    have : (fun u : Fin m → (Fin d → ℝ) × (Fin k → ℝ) => u i) ∘ phi =
        (fun e : Fin d → ℝ => ((fun r => X i r + sigma * e r, Y i) : (Fin d → ℝ) × (Fin k → ℝ))) ∘ (fun e => e i) := rfl
    rw [this, ← Measure.map_map (hphi1 i) (measurable_pi_apply i)]
    have he : Gm.map (fun e => e i) = Measure.pi fun _ : Fin d => laplaceLaw := (measurePreserving_eval (fun _ : Fin m => Measure.pi fun _ : Fin d => laplaceLaw) i).map_eq
    rw [he]
    rfl
  let E : ∀ n, Ω → Fin n → Fin m → Fin d → ℝ := fun n ω j i r => (ext.stdLaplace (gen ω) [n, m, d]).1.get [j, i, r]
  let T : ∀ n, Ω → Fin n → Fin m → (Fin d → ℝ) × (Fin k → ℝ) := fun n ω j => phi (E n ω j)
  have hPhi : ∀ n, Measurable fun (e : Fin n → Fin m → Fin d → ℝ) j => phi (e j) :=
    fun n => measurable_pi_lambda _ fun j => hphi.comp (measurable_pi_apply j)
  have hT : ∀ n, Measurable (T n) := fun n => (hPhi n).comp (hN n m d).1
  have hlaw : ∀ n, μ.map (T n) = Measure.pi fun _ => kap := by
    intro n
    have : T n = (fun (e : Fin n → Fin m → Fin d → ℝ) j => phi (e j)) ∘ E n := rfl
    rw [this, ← Measure.map_map (hPhi n) (hN n m d).1, (hN n m d).2]
    exact Measure.pi_map_pi (fun _ => hphi.aemeasurable)
  have key := C96_in_probability ext (X := X) (Y := Y) h hr hm (Ω := fun _ => Ω) (fun _ => μ) kap T hT hlaw hell (fun i => by
    have := hint i
    rw [← hmarg i] at this
    exact this.comp_measurable (measurable_pi_apply i)) hδ
  simp only [hmarg] at key
  refine key.congr' ?_
  filter_upwards [Filter.eventually_gt_atTop 0] with n hn
  congr 1
  ext ω
  simp only [Set.mem_ofPred_eq]
  obtain ⟨S', hS', hdraw⟩ := cost_sampler_draws_laplace ext hk hp hpow hs hkind hgen hsig hseed X Y (gen ω)
  obtain ⟨hz, t, ht, hy⟩ := hdraw n
  have hpl : Plain { D with nSamples := n } (mat X) (some (mat Y)) (S'.sample ext n (gen ω)).1 (S'.sample ext n (gen ω)).2.1 rho
      (fun j i => lossAt w ell (T n ω j i).1 (T n ω j i).2) (fun j i => costAt D.cost (X i) (T n ω j i).1 (Y i) (T n ω j i).2) := by
    rw [ht]
    exact plain_of_labelled (D := { D with nSamples := n }) (w := w) (ell := ell)
      ⟨h.primal, h.hasLabels, h.reduceSpatial, h.s_pos, h.rows, h.cost, h.rho_eq, h.rho_pos, h.eps_pos, h.erm, h.imp⟩ hn hm (isMat_mat X) hz
      (isMat_mat Y) hy
  obtain ⟨v, D', hf, -, hv⟩ := C29_formula_postsampled ext (D := { D with nSamples := n }) hD hS' hpl hr
  have hval : v.get [] = num (computeDual ext D (mat X) (some (mat Y)) (ten fun j i => (T n ω j i).1) (some (ten fun j i => (T n ω j i).2))) := by
    rw [hv.2, num_samples ext h hr hm hn (T n ω)]
    rfl
  rw [hf, ← hval]
  constructor
  · rintro hle ⟨v', D'', g', he, hlt⟩
    simp only [Except.ok.injEq, Prod.mk.injEq, DualVal.val.injEq] at he
    rw [← he.1] at hlt
    linarith
  · intro hno
    by_contra hlt
    exact hno ⟨v, D', _, rfl, not_le.1 hlt⟩

end

/-! ### The hypotheses can be met: absolute values, the 1-norm cost, multiplier 2, two data points -/

/-- a generator whose state is such a bank -/
noncomputable def lapBankExt : TorchExt NormalBank where
  seed := fun _ _ _ _ _ => 0
  stdLaplace := fun g sh => (ten (g (sh.headD 0, sh.tail.headD 0, sh.tail.tail.headD 0)), g)
  stdNormal := fun g sh => (⟨sh, fun _ => 0⟩, g)
  bernoulli := fun g _ sh => (⟨sh, fun _ => true⟩, g)
  cholesky := id
  precisionToTril := id
  mvnLogDensity := fun _ _ => 0

noncomputable def lapBankLaw : Measure NormalBank :=
  Measure.infinitePi fun _ => Measure.pi fun _ => Measure.pi fun _ => Measure.pi fun _ => laplaceLaw

instance : IsProbabilityMeasure lapBankLaw := by unfold lapBankLaw; infer_instance

theorem lapBank_contract : LaplaceContract lapBankExt lapBankLaw id := by
  intro n m d
  have e : (fun (ω : NormalBank) (j : Fin n) (i : Fin m) (k : Fin d) => (lapBankExt.stdLaplace (id ω) [n, m, d]).1.get [(j : ℕ), (i : ℕ), (k : ℕ)]) =
      fun ω => ω (n, m, d) := by
    funext ω j i k
    exact (isTen_ten (ω (n, m, d))).2 j i k
  rw [e]
  exact ⟨measurable_pi_apply _, Measure.infinitePi_map_eval _ (n, m, d)⟩

/-- a user loss without labels: the absolute value of every coordinate -/
noncomputable def absLoss (x : Tensor ℝ) (_ : Option (Tensor ℝ)) : Except PyErr (Tensor ℝ) := .ok (x.map fun t => |t|)

theorem absLoss_rowWise0 {d : ℕ} : RowWise0 (d := d) absLoss (fun x c => |x c|) := by
  intro N x X hx
  exact ⟨_, rfl, hx.1, fun i k => by simp only [Tensor.map, hx.2]⟩

noncomputable def exWA : WLoss := ⟨false, true, absLoss, none, []⟩

/-- the loss `|z|` with the 1-norm cost, multiplier 2 and the sampler of that cost -/
noncomputable def exA (n : ℕ) : DualLoss :=
  { exD with
    primal := exWA.value, hasLabels := false, lam := 2, nSamples := n
    cost := ⟨.normCost, .fin 1, 1, .nan⟩
    sampler := some ⟨.noLabelsCost, none, .laplace (mat exX) (.fin 1), none, some ⟨.normCost, .fin 1, 1, .nan⟩, some 1, none⟩ }

theorem exA_noLabels (n : ℕ) : NoLabels (d := 1) (s := 1) exWA (exA n) (fun x c => |x c|) 1 :=
  ⟨rfl, rfl, rfl, by norm_num, absLoss_rowWise0, rfl, Or.inl ⟨1, by norm_num, rfl⟩, rfl, by norm_num, by norm_num [exA, exD], rfl, rfl⟩

theorem exA_loss (z : Fin 1 → ℝ) : lossAt0 exWA (fun (x : Fin 1 → ℝ) (c : Fin 1) => |x c|) z = |z 0| := by
  simp [lossAt0, avg, ridge, exWA]

theorem exA_cost (n : ℕ) (i : Fin 2) (z : Fin 1 → ℝ) : moveCost (exA n) exX i z = |exX i 0 - z 0| := by
  simp [moveCost, exA, pnorm]

theorem exA_measurable : Measurable (lossAt0 exWA (fun (x : Fin 1 → ℝ) (c : Fin 1) => |x c|)) := by
  rw [show lossAt0 exWA (fun (x : Fin 1 → ℝ) (c : Fin 1) => |x c|) = fun z => |z 0| from funext exA_loss]
  exact (measurable_pi_apply 0).norm

/-- `|z| - 2 |x - z|` is at most `|x|` -/
theorem exA_bound (n : ℕ) (i : Fin 2) (z : Fin 1 → ℝ) :
    lossAt0 exWA (fun (x : Fin 1 → ℝ) (c : Fin 1) => |x c|) z - (exA n).lam * moveCost (exA n) exX i z ≤ |exX i 0| := by
  rw [exA_loss, exA_cost]
  show |z 0| - 2 * |exX i 0 - z 0| ≤ _
  have h1 := abs_sub_abs_le_abs_sub (z 0) (exX i 0)
  rw [abs_sub_comm] at h1
  linarith [abs_nonneg (exX i 0 - z 0)]

theorem exA_exp (n : ℕ) (i : Fin 2) (nu : Measure (Fin 1 → ℝ)) [IsProbabilityMeasure nu] :
    Integrable (fun z => Real.exp ((lossAt0 exWA (fun (x : Fin 1 → ℝ) (c : Fin 1) => |x c|) z - (exA n).lam * moveCost (exA n) exX i z) /
      (exA n).epsilon)) nu := by
  refine Integrable.of_mem_Icc 0 (Real.exp |exX i 0|)
    (Real.measurable_exp.comp (exponent_measurable0 (D := exA n) (X := exX) exA_measurable i)).aemeasurable
    (Filter.Eventually.of_forall fun z => ⟨(Real.exp_pos _).le, Real.exp_le_exp.2 ?_⟩)
  have := exA_bound n i z
  rw [show (exA n).epsilon = 1 from rfl, div_one]
  exact this

example (n : ℕ) {δ : ℝ} (hδ : 0 < δ) := C96_forward_unlabelled_laplace lapBankExt (X := exX) (exA_noLabels n) rfl (by norm_num) lapBank_contract
  (c := ⟨.normCost, .fin 1, 1, .nan⟩) rfl rfl (sigma := 1) one_pos rfl rfl rfl rfl rfl exA_measurable (fun i => exA_exp n i _) hδ

/-- the whole theorem on the number of samples: some number of samples meets every hypothesis -/
example {t δ : ℝ} (ht : 0 < t) (hδ : 0 < δ) : ∃ n, 0 < n ∧ 1 - δ ≤ lapBankLaw.real {ω | ∃ v D' g', postForward lapBankExt (exA n) (mat exX) none true ω =
    .ok (.val v, D', g') ∧ |v.get [] - populationU 2 1 1 1 (lossAt0 exWA (fun (x : Fin 1 → ℝ) (c : Fin 1) => |x c|)) (moveCost (exA n) exX)
      (fun i => laplaceAround 1 (exX i))| < t} := by
  let I : Fin 2 → ℝ := fun i => ∫ z, Real.exp ((lossAt0 exWA (fun (x : Fin 1 → ℝ) (c : Fin 1) => |x c|) z -
    (exA 0).lam * moveCost (exA 0) exX i z - |exX i 0|) / (exA 0).epsilon) ∂(laplaceAround 1 (exX i))
  have hI : ∀ i, 0 < I i := by
    intro i
    refine integral_exp_pos ?_
    have := (exA_exp 0 i (laplaceAround 1 (exX i))).mul_const (Real.exp (-|exX i 0|))
    refine this.congr (Filter.Eventually.of_forall fun z => ?_)
    simp only [← Real.exp_add]
    rw [show (exA 0).epsilon = 1 from rfl]
    congr 1
    ring
  have he : 0 < 1 - Real.exp (-(t / 1)) := by
    have : Real.exp (-(t / 1)) < 1 := Real.exp_lt_one_iff.2 (by simpa using ht)
    linarith
  obtain ⟨n, hn⟩ := exists_nat_ge (Real.log (2 * ((2 : ℕ) : ℝ) / δ) / (2 * ((1 - Real.exp (-(t / 1))) * min (I 0) (I 1)) ^ 2))
  refine ⟨n + 1, Nat.succ_pos n, ?_⟩
  have hmin : 0 < min (I 0) (I 1) := lt_min (hI 0) (hI 1)
  refine C113_forward_unlabelled_laplace lapBankExt (X := exX) (exA_noLabels (n + 1)) rfl (by norm_num) lapBank_contract
    (c := ⟨.normCost, .fin 1, 1, .nan⟩) rfl rfl (sigma := 1) one_pos rfl rfl rfl rfl rfl exA_measurable (fun i => |exX i 0|)
    (fun i => Filter.Eventually.of_forall fun z => exA_bound _ i z) ht hδ (mul_pos he hmin) (fun i => ?_) (Nat.succ_pos n)
    (hn.trans (by show (n : ℝ) ≤ ((n + 1 : ℕ) : ℝ); push_cast; linarith))
  refine mul_le_mul_of_nonneg_left ?_ he.le
  fin_cases i
  · exact min_le_left _ _
  · exact min_le_right _ _

/-- a user loss with labels: the absolute error -/
noncomputable def absErr (x : Tensor ℝ) (y : Option (Tensor ℝ)) : Except PyErr (Tensor ℝ) :=
  match y with
  | some y => Tensor.zipWith (fun a b => |a - b|) x y
  | none => .error .typeError

theorem absErr_rowWise {d : ℕ} : RowWise (d := d) (k := d) absErr (fun x y c => |x c - y c|) := by
  intro N x y X Y hx hy
  obtain ⟨t, ht, hI⟩ := Is.zipWith_same (f := fun a b => |a - b|) hx.is hy.is
  refine ⟨t, ht, ?_⟩
  have := isMat_iff.1 hI
  simpa only [ix2_apply] using this

noncomputable def exWB : WLoss := ⟨true, true, absErr, none, []⟩

/-- absolute error with the 1-norm cost on the inputs and the sampler of that cost -/
noncomputable def exB : DualLoss :=
  { exD with
    primal := exWB.value, lam := 2
    cost := ⟨.normCost, .fin 1, 1, .fin 0⟩
    sampler := some ⟨.labeledCost, none, .laplace (mat exX) (.fin 1), some (.dirac (mat exX) 1), some ⟨.normCost, .fin 1, 1, .fin 0⟩, some 1, none⟩ }

theorem exB_labelled : Labelled (d := 1) (k := 1) (s := 1) exWB exB (fun x y c => |x c - y c|) 1 :=
  ⟨rfl, rfl, rfl, by norm_num, absErr_rowWise, ⟨Or.inl ⟨1, by norm_num, rfl⟩, fun h => by simp [exB] at h⟩, rfl, by norm_num,
    by norm_num [exB, exD], rfl, rfl⟩

theorem exB_loss (z y : Fin 1 → ℝ) : lossAt exWB (fun (x y : Fin 1 → ℝ) (c : Fin 1) => |x c - y c|) z y = |z 0 - y 0| := by
  simp [lossAt, avg, ridge, exWB]

theorem exB_cost (i : Fin 2) (z y y' : Fin 1 → ℝ) : costAt exB.cost (exX i) z y y' = |exX i 0 - z 0| := by
  rw [C04_point_formula exB.cost rfl (Or.inl ⟨1, by norm_num, rfl⟩)]
  simp [exB, pnorm]

theorem exB_measurable : Measurable fun u : (Fin 1 → ℝ) × (Fin 1 → ℝ) =>
    lossAt exWB (fun (x y : Fin 1 → ℝ) (c : Fin 1) => |x c - y c|) u.1 u.2 := by
  simp only [exB_loss]
  exact (((measurable_pi_apply 0).comp measurable_fst).sub ((measurable_pi_apply 0).comp measurable_snd)).norm

theorem exB_exp (i : Fin 2) : Integrable (fun u : (Fin 1 → ℝ) × (Fin 1 → ℝ) => Real.exp ((lossAt exWB (fun (x y : Fin 1 → ℝ) (c : Fin 1) =>
    |x c - y c|) u.1 u.2 - exB.lam * costAt exB.cost (exX i) u.1 (exX i) u.2) / exB.epsilon)) (sampleLawL 1 (exX i) (exX i)) := by
  have hphi : Measurable fun e : Fin 1 → ℝ => ((fun r => exX i r + 1 * e r, exX i) : (Fin 1 → ℝ) × (Fin 1 → ℝ)) :=
    (measurable_pi_lambda _ fun r => ((measurable_pi_apply r).const_mul _).const_add _).prodMk measurable_const
  have hx : Measurable fun u : (Fin 1 → ℝ) × (Fin 1 → ℝ) => |exX i 0 - u.1 0| :=
    (((measurable_pi_apply 0).comp measurable_fst).const_sub _).norm
  have hmeas : Measurable fun u : (Fin 1 → ℝ) × (Fin 1 → ℝ) => Real.exp ((lossAt exWB (fun (x y : Fin 1 → ℝ) (c : Fin 1) =>
      |x c - y c|) u.1 u.2 - exB.lam * costAt exB.cost (exX i) u.1 (exX i) u.2) / exB.epsilon) := by
    simp only [exB_cost]
    exact Real.measurable_exp.comp ((exB_measurable.sub (hx.const_mul _)).div_const _)
  rw [sampleLawL, integrable_map_measure hmeas.aestronglyMeasurable hphi.aemeasurable]
  refine Integrable.of_mem_Icc 0 (Real.exp 0) (hmeas.comp hphi).aemeasurable
    (Filter.Eventually.of_forall fun e => ⟨(Real.exp_pos _).le, Real.exp_le_exp.2 ?_⟩)
  simp only [exB_cost, exB_loss]
  rw [show exB.epsilon = 1 from rfl, show exB.lam = 2 from rfl, div_one, abs_sub_comm (exX i 0)]
  linarith [abs_nonneg (exX i 0 + 1 * e 0 - exX i 0)]

example {δ : ℝ} (hδ : 0 < δ) := C96_forward_laplace lapBankExt (X := exX) (Y := exX) exB_labelled rfl (by norm_num) lapBank_contract
  (c := ⟨.normCost, .fin 1, 1, .fin 0⟩) rfl rfl rfl (sigma := 1) one_pos rfl rfl rfl rfl rfl exB_measurable exB_exp hδ

end Skwdro
