import Verif.Props.Dual
import Verif.Spec.Population
import Mathlib.Probability.StrongLaw
import Mathlib.Probability.Distributions.Gaussian.Real
import Mathlib.Probability.Independence.InfinitePi
import Mathlib.MeasureTheory.Function.ConvergenceInMeasure

/-! # C96, C97: the sampled robust loss and the robust objective with exact expectations -/

namespace Skwdro
open Spec Tensor MeasureTheory ProbabilityTheory
open scoped Topology

variable {G : Type} (ext : TorchExt G)

theorem pnorm_measurable {d : ℕ} {p : XNum ℝ} : Measurable (pnorm (d := d) p) := by
  unfold pnorm
  cases p with
  | fin q => exact (Finset.measurable_fun_sum _ fun i _ => ((continuous_abs.measurable).comp (measurable_pi_apply i)).pow_const _).pow_const _
  | pinf => exact Measurable.iSup fun i => (continuous_abs.measurable).comp (measurable_pi_apply i)
  | nan => exact measurable_const
  | ninf => exact measurable_const

/-- a ground cost is a measurable function of the sample -/
theorem costAt_measurable {d k : ℕ} {c : CostR} (h : GoodCost c) (x : Fin d → ℝ) (y : Fin k → ℝ) :
    Measurable fun u : (Fin d → ℝ) × (Fin k → ℝ) => costAt c x u.1 y u.2 := by
  have h1 : Measurable fun u : (Fin d → ℝ) × (Fin k → ℝ) => pnorm c.p (fun i => x i - u.1 i) :=
    pnorm_measurable.comp (measurable_pi_lambda _ fun i => ((measurable_pi_apply i).comp measurable_fst).const_sub _)
  have h2 : Measurable fun u : (Fin d → ℝ) × (Fin k → ℝ) => pnorm c.p (fun i => y i - u.2 i) :=
    pnorm_measurable.comp (measurable_pi_lambda _ fun i => ((measurable_pi_apply i).comp measurable_snd).const_sub _)
  cases hk : c.kind with
  | normCost =>
    simp only [C04_point_formula c hk h.order]
    exact h1.pow_const _
  | normLabelCost =>
    rcases h.weight hk with ⟨κ, h0, e⟩ | e
    · simp only [(C05_point_formula c hk h.order _ _ _ _).1 κ h0 e]
      exact ((h1.add (h2.const_mul _)).div_const _).pow_const _
    · simp only [(C05_point_formula c hk h.order _ _ _ _).2 e]
      exact h2.pow_const _

theorem avg_range {n : ℕ} (f : ℕ → ℝ) : avg (fun j : Fin n => f j) = (∑ j ∈ Finset.range n, f j) / n := by
  rw [avg, Finset.sum_range]

section
variable {m d k s : ℕ} {w : WLoss} {D : DualLoss} {ell : (Fin d → ℝ) → (Fin k → ℝ) → Fin s → ℝ} {rho : ℝ}
  {X : Fin m → Fin d → ℝ} {Y : Fin m → Fin k → ℝ}

/-- the number the robust loss returns on `n ≥ 1` samples -/
theorem num_samples (h : Labelled w D ell rho) (hr : D.reduction = .mean) (hm : 0 < m) {n : ℕ} (hn : 0 < n)
    (U : Fin n → Fin m → (Fin d → ℝ) × (Fin k → ℝ)) :
    num (computeDual ext D (mat X) (some (mat Y)) (ten fun j i => (U j i).1) (some (ten fun j i => (U j i).2))) =
      D.lam * rho ^ D.cost.power + avg (fun i => D.epsilon * Real.log (avg fun j =>
        Real.exp ((lossAt w ell (U j i).1 (U j i).2 - D.lam * costAt D.cost (X i) (U j i).1 (Y i) (U j i).2) / D.epsilon))) :=
  num_plain ext (plain_of_labelled h hn hm (isMat_mat X) (isTen_ten _) (isMat_mat Y) (isTen_ten _)) hr

/-- **C96** Almost surely, the robust loss on `n` independent samples per data point tends to the robust objective with exact expectations,
as the number of samples grows, as soon as those expectations are finite. -/
theorem C96_almost_sure (h : Labelled w D ell rho) (hr : D.reduction = .mean) (hm : 0 < m) {Ω : Type} [MeasurableSpace Ω] {μ : Measure Ω}
    [IsProbabilityMeasure μ] (U : ℕ → Fin m → Ω → (Fin d → ℝ) × (Fin k → ℝ)) (nu : Fin m → Measure ((Fin d → ℝ) × (Fin k → ℝ)))
    (hU : ∀ j i, Measurable (U j i)) (hlaw : ∀ j i, μ.map (U j i) = nu i)
    (hind : ∀ i, Pairwise fun j j' => IndepFun (U j i) (U j' i) μ)
    (hell : Measurable fun u : (Fin d → ℝ) × (Fin k → ℝ) => lossAt w ell u.1 u.2)
    (hint : ∀ i, Integrable (fun u => Real.exp ((lossAt w ell u.1 u.2 - D.lam * costAt D.cost (X i) u.1 (Y i) u.2) / D.epsilon)) (nu i)) :
    ∀ᵐ ω ∂μ, Filter.Tendsto (fun n => num (computeDual ext D (mat X) (some (mat Y)) (ten fun (j : Fin n) i => (U j i ω).1)
        (some (ten fun (j : Fin n) i => (U j i ω).2)))) Filter.atTop
      (𝓝 (population D.lam rho D.cost.power D.epsilon (lossAt w ell) (fun i z y => costAt D.cost (X i) z (Y i) y) nu)) := by
  have hc : ∀ i, Measurable fun u : (Fin d → ℝ) × (Fin k → ℝ) => costAt D.cost (X i) u.1 (Y i) u.2 :=
    fun i => costAt_measurable h.cost (X i) (Y i)
  set f : Fin m → (Fin d → ℝ) × (Fin k → ℝ) → ℝ :=
    fun i u => Real.exp ((lossAt w ell u.1 u.2 - D.lam * costAt D.cost (X i) u.1 (Y i) u.2) / D.epsilon) with hf
  have hfm : ∀ i, Measurable (f i) := fun i => Real.measurable_exp.comp ((hell.sub ((hc i).const_mul _)).div_const _)
  have key : ∀ i, ∀ᵐ ω ∂μ, Filter.Tendsto (fun n : ℕ => (∑ j ∈ Finset.range n, f i (U j i ω)) / n) Filter.atTop (𝓝 (∫ u, f i u ∂(nu i))) := by
    intro i
    have hlaw0 : ∫ u, f i u ∂(nu i) = ∫ ω, f i (U 0 i ω) ∂μ := by
      rw [← hlaw 0 i, integral_map (hU 0 i).aemeasurable (hfm i).aestronglyMeasurable]
    rw [hlaw0]
    refine strong_law_ae_real (fun j ω => f i (U j i ω)) ?_ ?_ ?_
    · have := hint i
      rw [← hlaw 0 i] at this
      exact this.comp_measurable (hU 0 i)
    · intro j j' hj
      exact (hind i hj).comp (hfm i) (hfm i)
    · intro j
      have : IdentDistrib (U j i) (U 0 i) μ μ := ⟨(hU j i).aemeasurable, (hU 0 i).aemeasurable, by rw [hlaw, hlaw]⟩
      exact this.comp (hfm i)
  filter_upwards [ae_all_iff.2 key] with ω hω
  have hpos : ∀ i, 0 < ∫ u, f i u ∂(nu i) := by
    intro i
    have : IsProbabilityMeasure (nu i) := by rw [← hlaw 0 i]; exact Measure.isProbabilityMeasure_map (hU 0 i).aemeasurable
    exact integral_exp_pos (hint i)
  have hlim : Filter.Tendsto (fun n : ℕ => D.lam * rho ^ D.cost.power +
      avg (fun i => D.epsilon * Real.log ((∑ j ∈ Finset.range n, f i (U j i ω)) / n))) Filter.atTop
      (𝓝 (population D.lam rho D.cost.power D.epsilon (lossAt w ell) (fun i z y => costAt D.cost (X i) z (Y i) y) nu)) := by
    unfold population avg
    refine Filter.Tendsto.const_add _ (Filter.Tendsto.div_const (tendsto_finsetSum _ fun i _ => ?_) _)
    exact ((hω i).log (hpos i).ne').const_mul _
  refine hlim.congr' ?_
  filter_upwards [Filter.eventually_gt_atTop 0] with n hn
  rw [num_samples ext h hr hm hn (fun j i => U j i ω)]
  congr 2
  funext i
  rw [← avg_range (fun j => f i (U j i ω))]

/-- **C96** The same in probability, when for each number `n` of samples the samples are drawn afresh: whatever the tolerance, the
probability that the robust loss misses the exact objective by more tends to zero. -/
theorem C96_in_probability (h : Labelled w D ell rho) (hr : D.reduction = .mean) (hm : 0 < m) {Ω : ℕ → Type} [∀ n, MeasurableSpace (Ω n)]
    (μ : ∀ n, Measure (Ω n)) (kap : Measure (Fin m → (Fin d → ℝ) × (Fin k → ℝ))) [IsProbabilityMeasure kap]
    (T : ∀ n, Ω n → Fin n → Fin m → (Fin d → ℝ) × (Fin k → ℝ)) (hT : ∀ n, Measurable (T n))
    (hlaw : ∀ n, (μ n).map (T n) = Measure.pi fun _ => kap)
    (hell : Measurable fun u : (Fin d → ℝ) × (Fin k → ℝ) => lossAt w ell u.1 u.2)
    (hint : ∀ i, Integrable (fun u : Fin m → (Fin d → ℝ) × (Fin k → ℝ) =>
      Real.exp ((lossAt w ell (u i).1 (u i).2 - D.lam * costAt D.cost (X i) (u i).1 (Y i) (u i).2) / D.epsilon)) kap)
    {δ : ℝ} (hδ : 0 < δ) :
    Filter.Tendsto (fun n => μ n {ω | δ ≤ |num (computeDual ext D (mat X) (some (mat Y)) (ten fun j i => (T n ω j i).1)
        (some (ten fun j i => (T n ω j i).2))) -
      population D.lam rho D.cost.power D.epsilon (lossAt w ell) (fun i z y => costAt D.cost (X i) z (Y i) y) (fun i => kap.map fun u => u i)|})
      Filter.atTop (𝓝 0) := by
  have hc : ∀ i, Measurable fun u : (Fin d → ℝ) × (Fin k → ℝ) => costAt D.cost (X i) u.1 (Y i) u.2 :=
    fun i => costAt_measurable h.cost (X i) (Y i)
  set P := population D.lam rho D.cost.power D.epsilon (lossAt w ell) (fun i z y => costAt D.cost (X i) z (Y i) y) (fun i => kap.map fun u => u i)
  -- the value as a measurable function of the samples
  let V : ∀ n, (Fin n → Fin m → (Fin d → ℝ) × (Fin k → ℝ)) → ℝ := fun n U =>
    D.lam * rho ^ D.cost.power + avg (fun i => D.epsilon * Real.log (avg fun j =>
        Real.exp ((lossAt w ell (U j i).1 (U j i).2 - D.lam * costAt D.cost (X i) (U j i).1 (Y i) (U j i).2) / D.epsilon)))
  have hV : ∀ n, Measurable (V n) := by
    intro n
    have hji : ∀ (j : Fin n) (i : Fin m), Measurable fun U : Fin n → Fin m → (Fin d → ℝ) × (Fin k → ℝ) =>
        Real.exp ((lossAt w ell (U j i).1 (U j i).2 - D.lam * costAt D.cost (X i) (U j i).1 (Y i) (U j i).2) / D.epsilon) := by
      intro j i
      have he : Measurable fun U : Fin n → Fin m → (Fin d → ℝ) × (Fin k → ℝ) => U j i := (measurable_pi_apply i).comp (measurable_pi_apply j)
      exact Real.measurable_exp.comp (((hell.comp he).sub (((hc i).comp he).const_mul _)).div_const _)
    refine Measurable.const_add ?_ _
    unfold avg
    refine Measurable.div_const (Finset.measurable_fun_sum _ fun i _ => ?_) _
    exact (Real.measurable_log.comp ((Finset.measurable_fun_sum _ fun j _ => hji j i).div_const _)).const_mul _
  -- the canonical sequence of samples
  let Q : Measure (ℕ → Fin m → (Fin d → ℝ) × (Fin k → ℝ)) := Measure.infinitePi fun _ => kap
  have hind : iIndepFun (fun (j : ℕ) (ω : ℕ → Fin m → (Fin d → ℝ) × (Fin k → ℝ)) => ω j) Q :=
    iIndepFun_infinitePi (X := fun _ u => u) (fun _ => measurable_id)
  have has := C96_almost_sure ext (X := X) (Y := Y) h hr hm (μ := Q) (fun j i ω => ω j i) (fun i => kap.map fun u => u i)
    (fun j i => (measurable_pi_apply i).comp (measurable_pi_apply j)) (fun j i => by
      have : Q.map (fun ω => ω j) = kap := Measure.infinitePi_map_eval _ j
      rw [← this, Measure.map_map (measurable_pi_apply i) (measurable_pi_apply j)]; rfl)
    (fun i j j' hj => (hind.indepFun hj).comp (measurable_pi_apply i) (measurable_pi_apply i)) hell (fun i => by
      rw [integrable_map_measure]
      · exact hint i
      · exact (Real.measurable_exp.comp ((hell.sub ((hc i).const_mul _)).div_const _)).aestronglyMeasurable
      · exact (measurable_pi_apply i).aemeasurable)
  have hlim : ∀ᵐ ω ∂Q, Filter.Tendsto (fun n => V n fun j => ω j) Filter.atTop (𝓝 P) := by
    filter_upwards [has] with ω hω
    refine hω.congr' ?_
    filter_upwards [Filter.eventually_gt_atTop 0] with n hn
    exact num_samples ext h hr hm hn (fun j i => ω j i)
  have hres : ∀ n, Measurable fun (ω : ℕ → Fin m → (Fin d → ℝ) × (Fin k → ℝ)) (j : Fin n) => ω j :=
    fun n => measurable_pi_lambda _ fun j => measurable_pi_apply _
  have hmeas := tendstoInMeasure_of_tendsto_ae (fun n => ((hV n).comp (hres n)).aestronglyMeasurable) hlim
  have hto := hmeas (ENNReal.ofReal δ) (by simpa using hδ)
  refine hto.congr' ?_
  filter_upwards [Filter.eventually_gt_atTop 0] with n hn
  have hS : MeasurableSet {U : Fin n → Fin m → (Fin d → ℝ) × (Fin k → ℝ) | δ ≤ |V n U - P|} :=
    measurableSet_le measurable_const (continuous_abs.measurable.comp ((hV n).sub_const P))
  have e1 : {ω | ENNReal.ofReal δ ≤ edist (((fun U => V n U) ∘ fun (ω : ℕ → Fin m → (Fin d → ℝ) × (Fin k → ℝ)) (j : Fin n) => ω j) ω) P} =
      (fun (ω : ℕ → Fin m → (Fin d → ℝ) × (Fin k → ℝ)) (j : Fin n) => ω j) ⁻¹' {U | δ ≤ |V n U - P|} := by
    ext ω
    simp only [Function.comp, Set.mem_ofPred_eq, Set.mem_preimage, edist_dist, Real.dist_eq]
    rw [ENNReal.ofReal_le_ofReal_iff (abs_nonneg _)]
  have e2 : {ω | δ ≤ |num (computeDual ext D (mat X) (some (mat Y)) (ten fun j i => (T n ω j i).1) (some (ten fun j i => (T n ω j i).2))) - P|} =
      T n ⁻¹' {U | δ ≤ |V n U - P|} := by
    ext ω
    simp only [Set.mem_ofPred_eq, Set.mem_preimage]
    rw [num_samples ext h hr hm hn (T n ω)]
  have e3 : Q.map (fun (ω : ℕ → Fin m → (Fin d → ℝ) × (Fin k → ℝ)) (j : Fin n) => ω j) = Measure.pi fun _ => kap := by
    have := Measure.map_infinitePi_infinitePi_of_inj (P := fun _ : ℕ => kap) (f := fun j : Fin n => (j : ℕ)) Fin.val_injective
    rw [show (Measure.pi fun _ : Fin n => kap) = Measure.infinitePi fun _ => kap from (Measure.infinitePi_eq_pi _).symm]
    exact this
  have e4 : Q {ω | ENNReal.ofReal δ ≤ edist (((fun U => V n U) ∘ fun (ω : ℕ → Fin m → (Fin d → ℝ) × (Fin k → ℝ)) (j : Fin n) => ω j) ω) P} =
      μ n {ω | δ ≤ |num (computeDual ext D (mat X) (some (mat Y)) (ten fun j i => (T n ω j i).1) (some (ten fun j i => (T n ω j i).2))) - P|} := by
    rw [e1, e2, ← Measure.map_apply (hres n) hS, ← Measure.map_apply (hT n) hS, e3, hlaw]
  exact e4

end

/-! ## Through the forward pass, with the noise drawn by the library's sampler -/

/-- torch's contract for normal draws: from a random generator state, the entries of the drawn tensor are independent standard normals -/
def NormalContract {Ω : Type} [MeasurableSpace Ω] (μ : Measure Ω) (gen : Ω → G) : Prop :=
  ∀ n m d : ℕ, Measurable (fun ω (j : Fin n) (i : Fin m) (k : Fin d) => (ext.stdNormal (gen ω) [n, m, d]).1.get [j, i, k]) ∧
    μ.map (fun ω (j : Fin n) (i : Fin m) (k : Fin d) => (ext.stdNormal (gen ω) [n, m, d]).1.get [j, i, k]) =
      Measure.pi fun _ => Measure.pi fun _ => Measure.pi fun _ => gaussianReal 0 1

/-- the law of one sample of a data point `(x, y)`: normal noise of standard deviation `sigma` around `x`, the label kept -/
noncomputable def sampleLaw {d k : ℕ} (sigma : ℝ) (x : Fin d → ℝ) (y : Fin k → ℝ) : Measure ((Fin d → ℝ) × (Fin k → ℝ)) :=
  (Measure.pi fun _ : Fin d => gaussianReal 0 1).map (fun e => (fun r => x r + sigma * e r, y))

section
variable {m d k s : ℕ} {w : WLoss} {D : DualLoss} {ell : (Fin d → ℝ) → (Fin k → ℝ) → Fin s → ℝ} {rho : ℝ}
  {X : Fin m → Fin d → ℝ} {Y : Fin m → Fin k → ℝ}

/-- the costs whose sampler adds normal noise: the Euclidean cost of power 1 or 2, and the max-norm cost of power 1 -/
def NormalSampled (c : CostR) : Prop :=
  (c.p = .fin 2 ∧ (c.power = 1 ∨ c.power = 2)) ∨ (c.p = .pinf ∧ c.power = 1)

/-- what the cost-based sampler draws once re-centred on the batch, for a Euclidean or max-norm cost on the inputs only -/
theorem cost_sampler_draws {c : CostR} (hk : c.kind = .normCost) (hp : NormalSampled c) {sigma : ℝ}
    (hs : 0 < sigma) {S : Sampler} (hkind : S.kind = .labeledCost) (hgen : S.generating_cost = some c) (hsig : S.sigma = some sigma)
    (hseed : S.seed = none) (X : Fin m → Fin d → ℝ) (Y : Fin m → Fin k → ℝ) (g : G) :
    ∃ S', S.resetMean ext (mat X) (some (mat Y)) g = .ok (S', g) ∧ ∀ n,
      IsTen (S'.sample ext n g).1 (fun (j : Fin n) i r => X i r + sigma * (ext.stdNormal g [n, m, d]).1.get [j, i, r]) ∧
      ∃ t, (S'.sample ext n g).2.1 = some t ∧ IsTen t (fun (_ : Fin n) i r => Y i r) := by
  have hd : samplerData c (mat X) (some sigma) = .ok (.normal (mat X) (.fin sigma)) := by
    rcases hp with ⟨h1, h | h⟩ | ⟨h1, h⟩ <;> simp [samplerData, h, h1, defaultEps, mkNormal, validScale, hs]
  have hl : samplerLabels c (some (mat Y)) (some sigma) = .ok (some (.dirac (mat Y) 1)) := by
    simp [samplerLabels, hk, samplerLabelsNC]
  refine ⟨_, by simp [Sampler.resetMean, hkind, hgen, hsig, hseed, mkLabeledCost, hd, hl, seedGlobal]; rfl, fun n => ?_⟩
  refine ⟨⟨rfl, fun j i r => ?_⟩, _, rfl, rfl, fun j i r => ?_⟩
  · show (mat X).get [(i : ℕ), (r : ℕ)] + scaleVal (.fin sigma) * _ = _
    rw [(isMat_mat X).2 i r]; rfl
  · show (mat Y).get [(i : ℕ), (r : ℕ)] = _
    exact (isMat_mat Y).2 i r

/-- **C96** Through the forward pass: with an unseeded sampler of a Euclidean or max-norm cost on the inputs, the value returned with `n` samples per
point tends in probability to the robust objective with exact expectations under normal noise of the sampler's standard deviation. -/
theorem C96_forward (h : Labelled w D ell rho) (hr : D.reduction = .mean) (hm : 0 < m) {Ω : Type} [MeasurableSpace Ω] {μ : Measure Ω}
    [IsProbabilityMeasure μ] {gen : Ω → G} (hN : NormalContract ext μ gen) {c : CostR} (hk : c.kind = .normCost) (hp : NormalSampled c) {sigma : ℝ} (hs : 0 < sigma) {S : Sampler} (hkind : S.kind = .labeledCost)
    (hgen : S.generating_cost = some c) (hsig : S.sigma = some sigma) (hseed : S.seed = none) (hD : D.sampler = some S)
    (hell : Measurable fun u : (Fin d → ℝ) × (Fin k → ℝ) => lossAt w ell u.1 u.2)
    (hint : ∀ i, Integrable (fun u => Real.exp ((lossAt w ell u.1 u.2 - D.lam * costAt D.cost (X i) u.1 (Y i) u.2) / D.epsilon))
      (sampleLaw sigma (X i) (Y i)))
    {δ : ℝ} (hδ : 0 < δ) :
    Filter.Tendsto (fun n => μ {ω | ¬ ∃ v D' g', postForward ext { D with nSamples := n } (mat X) (some (mat Y)) true (gen ω) = .ok (.val v, D', g') ∧
      |v.get [] - population D.lam rho D.cost.power D.epsilon (lossAt w ell) (fun i z y => costAt D.cost (X i) z (Y i) y)
        (fun i => sampleLaw sigma (X i) (Y i))| < δ}) Filter.atTop (𝓝 0) := by
  let phi : (Fin m → Fin d → ℝ) → Fin m → (Fin d → ℝ) × (Fin k → ℝ) := fun e i => (fun r => X i r + sigma * e i r, Y i)
  have hphi1 : ∀ i, Measurable fun e : Fin d → ℝ => ((fun r => X i r + sigma * e r, Y i) : (Fin d → ℝ) × (Fin k → ℝ)) := by
    intro i
    exact (measurable_pi_lambda _ fun r => ((measurable_pi_apply r).const_mul _).const_add _).prodMk measurable_const
  have hphi : Measurable phi := measurable_pi_lambda _ fun i => (hphi1 i).comp (measurable_pi_apply i)
  let Gm : Measure (Fin m → Fin d → ℝ) := Measure.pi fun _ => Measure.pi fun _ => gaussianReal 0 1
  let kap := Gm.map phi
  have : IsProbabilityMeasure kap := Measure.isProbabilityMeasure_map hphi.aemeasurable
  have hmarg : ∀ i, kap.map (fun u => u i) = sampleLaw sigma (X i) (Y i) := by
    intro i
    rw [Measure.map_map (measurable_pi_apply i) hphi]
    have : (fun u : Fin m → (Fin d → ℝ) × (Fin k → ℝ) => u i) ∘ phi =
        (fun e : Fin d → ℝ => ((fun r => X i r + sigma * e r, Y i) : (Fin d → ℝ) × (Fin k → ℝ))) ∘ (fun e => e i) := rfl
    rw [this, ← Measure.map_map (hphi1 i) (measurable_pi_apply i)]
    have he : Gm.map (fun e => e i) = Measure.pi fun _ : Fin d => gaussianReal 0 1 := (measurePreserving_eval (fun _ : Fin m => Measure.pi fun _ : Fin d => gaussianReal 0 1) i).map_eq
    rw [he]
    rfl
  let E : ∀ n, Ω → Fin n → Fin m → Fin d → ℝ := fun n ω j i r => (ext.stdNormal (gen ω) [n, m, d]).1.get [j, i, r]
  let T : ∀ n, Ω → Fin n → Fin m → (Fin d → ℝ) × (Fin k → ℝ) := fun n ω j => phi (E n ω j)
  have hPhi : ∀ n, Measurable fun (e : Fin n → Fin m → Fin d → ℝ) j => phi (e j) :=
    fun n => measurable_pi_lambda _ fun j => hphi.comp (measurable_pi_apply j)
  have hT : ∀ n, Measurable (T n) := fun n => (hPhi n).comp (hN n m d).1
  have hlaw : ∀ n, μ.map (T n) = Measure.pi fun _ => kap := by
    intro n
    have : T n = (fun (e : Fin n → Fin m → Fin d → ℝ) j => phi (e j)) ∘ E n := rfl
    rw [this, ← Measure.map_map (hPhi n) (hN n m d).1, (hN n m d).2]
    exact Measure.pi_map_pi (fun _ => hphi.aemeasurable)
  have key := C96_in_probability ext (X := X) (Y := Y) h hr hm (Ω := fun _ => Ω) (fun _ => μ) kap T hT hlaw hell (fun i => by
    have := hint i
    rw [← hmarg i] at this
    exact this.comp_measurable (measurable_pi_apply i)) hδ
  simp only [hmarg] at key
  refine key.congr' ?_
  filter_upwards [Filter.eventually_gt_atTop 0] with n hn
  congr 1
  ext ω
  simp only [Set.mem_ofPred_eq]
  obtain ⟨S', hS', hdraw⟩ := cost_sampler_draws ext hk hp hs hkind hgen hsig hseed X Y (gen ω)
  obtain ⟨hz, t, ht, hy⟩ := hdraw n
  have hpl : Plain { D with nSamples := n } (mat X) (some (mat Y)) (S'.sample ext n (gen ω)).1 (S'.sample ext n (gen ω)).2.1 rho
      (fun j i => lossAt w ell (T n ω j i).1 (T n ω j i).2) (fun j i => costAt D.cost (X i) (T n ω j i).1 (Y i) (T n ω j i).2) := by
    rw [ht]
    exact plain_of_labelled (D := { D with nSamples := n }) (w := w) (ell := ell)
      ⟨h.primal, h.hasLabels, h.reduceSpatial, h.s_pos, h.rows, h.cost, h.rho_eq, h.rho_pos, h.eps_pos, h.erm, h.imp⟩ hn hm (isMat_mat X) hz
      (isMat_mat Y) hy
  obtain ⟨v, D', hf, -, hv⟩ := C29_formula_postsampled ext (D := { D with nSamples := n }) hD hS' hpl hr
  have hval : v.get [] = num (computeDual ext D (mat X) (some (mat Y)) (ten fun j i => (T n ω j i).1) (some (ten fun j i => (T n ω j i).2))) := by
    rw [hv.2, num_samples ext h hr hm hn (T n ω)]
    rfl
  rw [hf, ← hval]
  constructor
  · rintro hle ⟨v', D'', g', he, hlt⟩
    simp only [Except.ok.injEq, Prod.mk.injEq, DualVal.val.injEq] at he
    rw [← he.1] at hlt
    linarith
  · intro hno
    by_contra hlt
    exact hno ⟨v, D', _, rfl, not_le.1 hlt⟩

end

/-! ### The hypotheses of `C96_forward` can be met -/

/-- one independent array of standard normals for every shape -/
abbrev NormalBank : Type := ∀ q : ℕ × ℕ × ℕ, Fin q.1 → Fin q.2.1 → Fin q.2.2 → ℝ

/-- a generator whose state is such a bank -/
noncomputable def bankExt : TorchExt NormalBank where
  seed := fun _ _ _ _ _ => 0
  stdNormal := fun g sh => (ten (g (sh.headD 0, sh.tail.headD 0, sh.tail.tail.headD 0)), g)
  stdLaplace := fun g sh => (⟨sh, fun _ => 0⟩, g)
  bernoulli := fun g _ sh => (⟨sh, fun _ => true⟩, g)
  cholesky := id
  precisionToTril := id
  mvnLogDensity := fun _ _ => 0

noncomputable def bankLaw : Measure NormalBank :=
  Measure.infinitePi fun _ => Measure.pi fun _ => Measure.pi fun _ => Measure.pi fun _ => gaussianReal 0 1

instance : IsProbabilityMeasure bankLaw := by unfold bankLaw; infer_instance

theorem bank_contract : NormalContract bankExt bankLaw id := by
  intro n m d
  have e : (fun (ω : NormalBank) (j : Fin n) (i : Fin m) (k : Fin d) => (bankExt.stdNormal (id ω) [n, m, d]).1.get [(j : ℕ), (i : ℕ), (k : ℕ)]) =
      fun ω => ω (n, m, d) := by
    funext ω j i k
    exact (isTen_ten (ω (n, m, d))).2 j i k
  rw [e]
  exact ⟨measurable_pi_apply _, Measure.infinitePi_map_eval _ (n, m, d)⟩

/-- squared error with the Euclidean cost on the inputs and the sampler of that cost -/
noncomputable def exCons : DualLoss :=
  { exD with
    cost := ⟨.normCost, .fin 2, 2, .fin 0⟩
    sampler := some ⟨.labeledCost, none, .normal (mat exX) (.fin 1), some (.dirac (mat exX) 1), some ⟨.normCost, .fin 2, 2, .fin 0⟩, some 1, none⟩ }

theorem exCons_labelled : Labelled (d := 1) (k := 1) (s := 1) exW exCons (fun x y c => (x c - y c) ^ 2) 1 :=
  ⟨rfl, rfl, rfl, by norm_num, sqErr_rowWise, ⟨Or.inl ⟨2, by norm_num, rfl⟩, fun h => by simp [exCons] at h⟩, rfl, by norm_num,
    by norm_num [exCons, exD], rfl, rfl⟩

theorem exCons_cost (x z y y' : Fin 1 → ℝ) : costAt exCons.cost x z y y' = (x 0 - z 0) ^ 2 := by
  rw [C04_point_formula exCons.cost rfl (Or.inl ⟨2, by norm_num, rfl⟩)]
  simp only [exCons, pnorm, Fin.sum_univ_one, Fin.isValue]
  rw [← Real.rpow_mul (abs_nonneg _)]
  norm_num

/-- the labels differ from the inputs by one, so that the squared error and the cost do not cancel -/
example {δ : ℝ} (hδ : 0 < δ) :
    Filter.Tendsto (fun n => bankLaw {ω | ¬ ∃ v D' g', postForward bankExt { exCons with nSamples := n } (mat exX) (some (mat fun i c => exX i c + 1))
      true ω = .ok (.val v, D', g') ∧
      |v.get [] - population 1 1 2 1 (lossAt exW fun (x y : Fin 1 → ℝ) (c : Fin 1) => (x c - y c) ^ 2)
        (fun i z y => costAt exCons.cost (exX i) z (fun c => exX i c + 1) y) (fun i => sampleLaw 1 (exX i) fun c => exX i c + 1)| < δ})
      Filter.atTop (𝓝 0) := by
  have hloss : ∀ x y : Fin 1 → ℝ, lossAt exW (fun (x y : Fin 1 → ℝ) (c : Fin 1) => (x c - y c) ^ 2) x y = (x 0 - y 0) ^ 2 := by
    intro x y; simp [lossAt, avg, ridge, exW]
  refine C96_forward bankExt exCons_labelled rfl (by norm_num) bank_contract (c := ⟨.normCost, .fin 2, 2, .fin 0⟩) rfl (Or.inl ⟨rfl, Or.inr rfl⟩)
    (sigma := 1) one_pos rfl rfl rfl rfl rfl ?_ (fun i => ?_) hδ
  · simp only [hloss]
    exact (((measurable_pi_apply 0).comp measurable_fst).sub ((measurable_pi_apply 0).comp measurable_snd)).pow_const 2
  · have hm0 : Measurable fun e : Fin 1 → ℝ => ((fun r => exX i r + 1 * e r, fun c => exX i c + 1) : (Fin 1 → ℝ) × (Fin 1 → ℝ)) :=
      (measurable_pi_lambda _ fun r => ((measurable_pi_apply r).const_mul _).const_add _).prodMk measurable_const
    have hmeas : Measurable fun u : (Fin 1 → ℝ) × (Fin 1 → ℝ) => Real.exp (((u.1 0 - u.2 0) ^ 2 - 1 * (exX i 0 - u.1 0) ^ 2) / 1) := by
      have h1 : Measurable fun u : (Fin 1 → ℝ) × (Fin 1 → ℝ) => u.1 0 := (measurable_pi_apply 0).comp measurable_fst
      have h2 : Measurable fun u : (Fin 1 → ℝ) × (Fin 1 → ℝ) => u.2 0 := (measurable_pi_apply 0).comp measurable_snd
      exact Real.measurable_exp.comp (((((h1.sub h2).pow_const 2)).sub (((h1.const_sub _).pow_const 2).const_mul _)).div_const _)
    have : (fun u : (Fin 1 → ℝ) × (Fin 1 → ℝ) => Real.exp ((lossAt exW (fun (x y : Fin 1 → ℝ) (c : Fin 1) => (x c - y c) ^ 2) u.1 u.2 -
        exCons.lam * costAt exCons.cost (exX i) u.1 (fun c => exX i c + 1) u.2) / exCons.epsilon)) =
        fun u => Real.exp (((u.1 0 - u.2 0) ^ 2 - 1 * (exX i 0 - u.1 0) ^ 2) / 1) := by
      funext u
      rw [hloss, exCons_cost]
      rfl
    rw [this, sampleLaw, integrable_map_measure hmeas.aestronglyMeasurable hm0.aemeasurable]
    have e : ((fun u : (Fin 1 → ℝ) × (Fin 1 → ℝ) => Real.exp (((u.1 0 - u.2 0) ^ 2 - 1 * (exX i 0 - u.1 0) ^ 2) / 1)) ∘
        fun e : Fin 1 → ℝ => (fun r => exX i r + 1 * e r, fun c => exX i c + 1)) =
        (fun t : ℝ => Real.exp 1 * Real.exp (-2 * t)) ∘ (fun e : Fin 1 → ℝ => e 0) := by
      funext e
      simp only [Function.comp]
      rw [← Real.exp_add]
      congr 1
      ring
    rw [e]
    exact ((measurePreserving_eval (fun _ : Fin 1 => gaussianReal 0 1) 0).integrable_comp
      ((Real.measurable_exp.comp (measurable_id.const_mul _)).const_mul _).aestronglyMeasurable).2 ((integrable_exp_mul_gaussianReal (-2)).const_mul _)

end Skwdro
