import Verif.Props.Consistency
import Verif.Props.ImpSamp
import Mathlib.MeasureTheory.Integral.Pi
import Mathlib.MeasureTheory.Group.Integral

/-! # C99: importance sampling and the value that is estimated -/

namespace Skwdro
open Spec Tensor MeasureTheory ProbabilityTheory
open scoped Topology

variable {G : Type} (ext : TorchExt G)

/-! ## Laws and densities -/

/-- independent normal coordinates have the product density -/
theorem normal_law {d : ℕ} {s : ℝ} (hs : 0 < s) (c : Fin d → ℝ) :
    (Measure.pi fun k => gaussianReal (c k) (s.toNNReal ^ 2)) =
      volume.withDensity (fun z => ENNReal.ofReal (normalDensity s.toNNReal c z)) := by
  have hv : s.toNNReal ^ 2 ≠ 0 := pow_ne_zero _ (by simpa using hs)
  refine Measure.pi_eq fun S hS => ?_
  have hbox : MeasurableSet (Set.univ.pi S) := MeasurableSet.univ_pi hS
  rw [withDensity_apply _ hbox]
  have hI : ∀ k, Integrable ((S k).indicator (gaussianPDFReal (c k) (s.toNNReal ^ 2))) :=
    fun k => (integrable_gaussianPDFReal _ _).indicator (hS k)
  have e1 : ∀ z : Fin d → ℝ, (Set.univ.pi S).indicator (fun z => normalDensity s.toNNReal c z) z =
      ∏ k, (S k).indicator (gaussianPDFReal (c k) (s.toNNReal ^ 2)) (z k) := by
    intro z
    by_cases hz : z ∈ Set.univ.pi S
    · rw [Set.indicator_of_mem hz]
      exact Finset.prod_congr rfl fun k _ => (Set.indicator_of_mem (hz k (Set.mem_univ k)) _).symm
    · rw [Set.indicator_of_notMem hz]
      simp only [Set.mem_univ_pi, not_forall] at hz
      obtain ⟨k, hk⟩ := hz
      exact (Finset.prod_eq_zero (Finset.mem_univ k) (Set.indicator_of_notMem hk _)).symm
  have hint : Integrable ((Set.univ.pi S).indicator (fun z => normalDensity s.toNNReal c z)) := by
    simp only [funext e1]
    exact Integrable.fintype_prod hI
  have h0 : ∀ z, 0 ≤ (Set.univ.pi S).indicator (fun z => normalDensity s.toNNReal c z) z := by
    intro z
    refine Set.indicator_nonneg (fun z _ => Finset.prod_nonneg fun k _ => gaussianPDFReal_nonneg _ _ _) z
  rw [← lintegral_indicator hbox]
  have e2 : (Set.univ.pi S).indicator (fun z => ENNReal.ofReal (normalDensity s.toNNReal c z)) =
      fun z => ENNReal.ofReal ((Set.univ.pi S).indicator (fun z => normalDensity s.toNNReal c z) z) := by
    funext z
    by_cases hz : z ∈ Set.univ.pi S <;> simp [hz]
  rw [e2, ← ofReal_integral_eq_lintegral_ofReal hint (Filter.Eventually.of_forall h0)]
  simp only [e1]
  rw [integral_fintype_prod_volume_eq_prod (fun k => (S k).indicator (gaussianPDFReal (c k) (s.toNNReal ^ 2))),
    ENNReal.ofReal_prod_of_nonneg]
  · refine Finset.prod_congr rfl fun k _ => ?_
    rw [gaussianReal_apply _ hv, integral_indicator (hS k)]
    rw [ofReal_integral_eq_lintegral_ofReal (integrable_gaussianPDFReal _ _).integrableOn
      (Filter.Eventually.of_forall fun x => gaussianPDFReal_nonneg _ _ _)]
    rfl
  · intro k _
    exact integral_nonneg fun x => Set.indicator_nonneg (fun x _ => gaussianPDFReal_nonneg _ _ _) x

/-- scaled and shifted standard normal noise -/
theorem noise_law {d : ℕ} {s : ℝ} (hs : 0 < s) (c : Fin d → ℝ) :
    (Measure.pi fun _ : Fin d => gaussianReal 0 1).map (fun e k => c k + s * e k) =
      Measure.pi fun k => gaussianReal (c k) (s.toNNReal ^ 2) := by
  have h := Measure.pi_map_pi (μ := fun _ : Fin d => gaussianReal 0 1) (f := fun k (e : ℝ) => c k + s * e)
    (fun k => ((measurable_id.const_mul s).const_add (c k)).aemeasurable)
  rw [h]
  congr 1
  funext k
  have e : (fun e : ℝ => c k + s * e) = (fun x => c k + x) ∘ (fun e => s * e) := rfl
  rw [e, ← Measure.map_map (measurable_const_add _) (measurable_const_mul _), gaussianReal_map_const_mul,
    gaussianReal_map_const_add]
  congr 1
  · ring
  · ext; simp [hs.le]

/-- moving the centre and the point together does not change the density -/
theorem densityAt_shift {d : ℕ} (l : Dist) (c z a : Fin d → ℝ) :
    densityAt ext l (fun k => c k + a k) (fun k => z k + a k) = densityAt ext l c z := by
  unfold densityAt
  split
  · simp only [normalDensity, gaussianPDFReal, add_sub_add_right_eq_sub]
  · simp only [laplaceDensity, add_sub_add_right_eq_sub]
  · simp only [add_sub_add_right_eq_sub]
  · rfl

/-- re-weighting displaced samples by the density ratio keeps expectations -/
theorem reweight {d : ℕ} {p F : (Fin d → ℝ) → ℝ} (hp : ∀ z, 0 < p z) (hpm : Measurable p) (a : Fin d → ℝ) :
    (∫ z, p (z + a) / p z * F (z + a) ∂(volume.withDensity fun z => ENNReal.ofReal (p z)) =
      ∫ z, F z ∂(volume.withDensity fun z => ENNReal.ofReal (p z))) ∧
    (Integrable F (volume.withDensity fun z => ENNReal.ofReal (p z)) →
      Integrable (fun z => p (z + a) / p z * F (z + a)) (volume.withDensity fun z => ENNReal.ofReal (p z))) := by
  have hm : Measurable fun z => (p z).toNNReal := hpm.real_toNNReal
  have key : ∀ z (r : ℝ), (p z).toNNReal • r = p z * r := by
    intro z r
    rw [NNReal.smul_def, Real.coe_toNNReal _ (hp z).le, smul_eq_mul]
  have e : ∀ z, p z * (p (z + a) / p z * F (z + a)) = p (z + a) * F (z + a) := by
    intro z
    have := (hp z).ne'
    field_simp
  constructor
  · have h1 := integral_withDensity_eq_integral_smul (μ := volume) hm (fun z => p (z + a) / p z * F (z + a))
    have h2 := integral_withDensity_eq_integral_smul (μ := volume) hm F
    simp only [key, e] at h1 h2
    refine h1.trans (Eq.trans ?_ h2.symm)
    exact integral_add_right_eq_self (μ := volume) (fun z => p z * F z) a
  · intro h
    refine (integrable_withDensity_iff_integrable_smul (μ := volume) hm).2 ?_
    have h2 := (integrable_withDensity_iff_integrable_smul (μ := volume) hm).1 h
    simp only [key] at h2
    refine (h2.comp_add_right a).congr (Filter.Eventually.of_forall fun z => ?_)
    simp only [key, e]

/-- averages inside the logarithms tend to expectations -/
theorem log_avg_limit {α Ω : Type} [MeasurableSpace α] [MeasurableSpace Ω] {μ : Measure Ω} [IsProbabilityMeasure μ] {m : ℕ}
    (F : Fin m → α → ℝ) (hF : ∀ i, Measurable (F i)) (nu : Fin m → Measure α) (U : ℕ → Fin m → Ω → α) (hU : ∀ j i, Measurable (U j i))
    (hlaw : ∀ j i, μ.map (U j i) = nu i) (hind : ∀ i, Pairwise fun j j' => IndepFun (U j i) (U j' i) μ)
    (hint : ∀ i, Integrable (F i) (nu i)) (hpos : ∀ i, 0 < ∫ u, F i u ∂(nu i)) (a eps : ℝ) :
    ∀ᵐ ω ∂μ, Filter.Tendsto (fun n => a + avg (fun i => eps * Real.log (avg fun j : Fin n => F i (U j i ω)))) Filter.atTop
      (𝓝 (a + avg (fun i => eps * Real.log (∫ u, F i u ∂(nu i))))) := by
  have key : ∀ i, ∀ᵐ ω ∂μ, Filter.Tendsto (fun n : ℕ => (∑ j ∈ Finset.range n, F i (U j i ω)) / n) Filter.atTop (𝓝 (∫ u, F i u ∂(nu i))) := by
    intro i
    have hlaw0 : ∫ u, F i u ∂(nu i) = ∫ ω, F i (U 0 i ω) ∂μ := by
      rw [← hlaw 0 i, integral_map (hU 0 i).aemeasurable (hF i).aestronglyMeasurable]
    rw [hlaw0]
    refine strong_law_ae_real (fun j ω => F i (U j i ω)) ?_ ?_ ?_
    · have := hint i
      rw [← hlaw 0 i] at this
      exact this.comp_measurable (hU 0 i)
    · intro j j' hj
      exact (hind i hj).comp (hF i) (hF i)
    · intro j
      have : IdentDistrib (U j i) (U 0 i) μ μ := ⟨(hU j i).aemeasurable, (hU 0 i).aemeasurable, by rw [hlaw, hlaw]⟩
      exact this.comp (hF i)
  filter_upwards [ae_all_iff.2 key] with ω hω
  have e : ∀ n : ℕ, ∀ i, (avg fun j : Fin n => F i (U j i ω)) = (∑ j ∈ Finset.range n, F i (U j i ω)) / n :=
    fun n i => avg_range (fun j => F i (U j i ω))
  simp only [e]
  unfold avg
  refine Filter.Tendsto.const_add _ (Filter.Tendsto.div_const (tendsto_finsetSum _ fun i _ => ?_) _)
  exact ((hω i).log (hpos i).ne').const_mul _

/-- the same in probability, for samples drawn afresh for each number of samples -/
theorem log_avg_limit_prob {α : Type} [MeasurableSpace α] {m : ℕ} {Ω : ℕ → Type} [∀ n, MeasurableSpace (Ω n)] (μ : ∀ n, Measure (Ω n))
    (F : Fin m → α → ℝ) (hF : ∀ i, Measurable (F i)) (kap : Measure (Fin m → α)) [IsProbabilityMeasure kap] (nu : Fin m → Measure α)
    (hmarg : ∀ i, kap.map (fun u => u i) = nu i) (T : ∀ n, Ω n → Fin n → Fin m → α) (hT : ∀ n, Measurable (T n))
    (hlaw : ∀ n, (μ n).map (T n) = Measure.pi fun _ => kap) (hint : ∀ i, Integrable (F i) (nu i)) (hpos : ∀ i, 0 < ∫ u, F i u ∂(nu i))
    (a eps : ℝ) {δ : ℝ} (hδ : 0 < δ) :
    Filter.Tendsto (fun n => μ n {ω | δ ≤ |(a + avg (fun i => eps * Real.log (avg fun j : Fin n => F i (T n ω j i)))) -
      (a + avg (fun i => eps * Real.log (∫ u, F i u ∂(nu i))))|}) Filter.atTop (𝓝 0) := by
  set P := a + avg (fun i => eps * Real.log (∫ u, F i u ∂(nu i)))
  let V : ∀ n, (Fin n → Fin m → α) → ℝ := fun n U => a + avg (fun i => eps * Real.log (avg fun j : Fin n => F i (U j i)))
  have hV : ∀ n, Measurable (V n) := by
    intro n
    refine Measurable.const_add ?_ _
    unfold avg
    refine Measurable.div_const (Finset.measurable_fun_sum _ fun i _ => ?_) _
    exact (Real.measurable_log.comp ((Finset.measurable_fun_sum _ fun j _ =>
      (hF i).comp ((measurable_pi_apply i).comp (measurable_pi_apply j))).div_const _)).const_mul _
  let Q : Measure (ℕ → Fin m → α) := Measure.infinitePi fun _ => kap
  have hind : iIndepFun (fun (j : ℕ) (ω : ℕ → Fin m → α) => ω j) Q :=
    iIndepFun_infinitePi (X := fun _ u => u) (fun _ => measurable_id)
  have hlim : ∀ᵐ ω ∂Q, Filter.Tendsto (fun n => V n fun j => ω j) Filter.atTop (𝓝 P) :=
    log_avg_limit (μ := Q) F hF nu (fun j i ω => ω j i) (fun j i => (measurable_pi_apply i).comp (measurable_pi_apply j)) (fun j i => by
      have : Q.map (fun ω => ω j) = kap := Measure.infinitePi_map_eval _ j
      rw [← hmarg i, ← this, Measure.map_map (measurable_pi_apply i) (measurable_pi_apply j)]; rfl)
      (fun i j j' hj => (hind.indepFun hj).comp (measurable_pi_apply i) (measurable_pi_apply i)) hint hpos a eps
  have hres : ∀ n, Measurable fun (ω : ℕ → Fin m → α) (j : Fin n) => ω j :=
    fun n => measurable_pi_lambda _ fun j => measurable_pi_apply _
  have hto := tendstoInMeasure_of_tendsto_ae (fun n => ((hV n).comp (hres n)).aestronglyMeasurable) hlim (ENNReal.ofReal δ) (by simpa using hδ)
  refine hto.congr fun n => ?_
  have hS : MeasurableSet {U : Fin n → Fin m → α | δ ≤ |V n U - P|} :=
    measurableSet_le measurable_const (continuous_abs.measurable.comp ((hV n).sub_const P))
  have e1 : {ω | ENNReal.ofReal δ ≤ edist ((V n ∘ fun (ω : ℕ → Fin m → α) (j : Fin n) => ω j) ω) P} =
      (fun (ω : ℕ → Fin m → α) (j : Fin n) => ω j) ⁻¹' {U | δ ≤ |V n U - P|} := by
    ext ω
    simp only [Function.comp, Set.mem_ofPred_eq, Set.mem_preimage, edist_dist, Real.dist_eq]
    rw [ENNReal.ofReal_le_ofReal_iff (abs_nonneg _)]
  have e3 : Q.map (fun (ω : ℕ → Fin m → α) (j : Fin n) => ω j) = Measure.pi fun _ => kap := by
    have := Measure.map_infinitePi_infinitePi_of_inj (P := fun _ : ℕ => kap) (f := fun j : Fin n => (j : ℕ)) Fin.val_injective
    rw [show (Measure.pi fun _ : Fin n => kap) = Measure.infinitePi fun _ => kap from (Measure.infinitePi_eq_pi _).symm]
    exact this
  have e4 : Q {ω | ENNReal.ofReal δ ≤ edist ((V n ∘ fun (ω : ℕ → Fin m → α) (j : Fin n) => ω j) ω) P} = μ n (T n ⁻¹' {U | δ ≤ |V n U - P|}) := by
    rw [e1, ← Measure.map_apply (hres n) hS, ← Measure.map_apply (hT n) hS, e3, hlaw]
  exact e4

/-! ## Without labels: the same limit with and without importance sampling -/

section
variable {m d : ℕ} {D : DualLoss} {X g : Fin m → Fin d → ℝ} {ell : (Fin d → ℝ) → ℝ} {rho : ℝ}

/-- the value without importance sampling -/
theorem plain_value (h : EuclidLoss D X g ell rho) (himp : D.impSamp = false) {n : ℕ} (hn : 0 < n) {z : Tensor ℝ}
    {Z : Fin n → Fin m → Fin d → ℝ} (hz : IsTen z Z) :
    ReturnsVal (computeDual ext D (mat X) none z none) fun t => t.get [] =
      D.lam * rho ^ D.cost.power + avg (fun i => D.epsilon * Real.log (avg fun j =>
      Real.exp ((ell (Z j i) - D.lam * norm2 (fun k => X i k - Z j i k) ^ 2) / D.epsilon))) := by
  have hpl : Plain D (mat X) none z none rho (fun j i => ell (Z j i)) (fun j i => norm2 (fun k => X i k - Z j i k) ^ 2) := by
    refine ⟨h.rho_eq, h.rho_pos, h.eps_pos, h.erm, himp, hn, h.m_pos, by simp [size0, hz.1], h.loss n _ _ hz, ?_⟩
    obtain ⟨ct, hc1, hc2⟩ := C04_formula D.cost h.kind (by rw [h.order]; exact two_order) (isTen_unsqueeze (isMat_mat X)) hz none none
    refine ⟨ct, hc1, ?_⟩
    convert hc2 using 5
    rw [h.order, h.power]
    norm_num [norm2]
  obtain ⟨t, ht, hv⟩ := C29_formula ext hpl h.reduction
  exact ⟨t, ht, hv.2⟩

/-- the value with importance sampling, on the displaced samples -/
theorem imp_value (h : EuclidLoss D X g ell rho) (himp : D.impSamp = true) {s : Sampler} (hs : D.sampler = some s) (hsl : s.labels_s = none)
    (hl : HasDensity s.data_s) (hc : IsMat s.data_s.mean X) {n : ℕ} (hn : 0 < n) {z : Tensor ℝ} {Z : Fin n → Fin m → Fin d → ℝ}
    (hz : IsTen z Z) :
    ReturnsVal (computeDual ext D (mat X) none z none) fun t => t.get [] = D.lam * rho ^ D.cost.power + avg (fun i => D.epsilon * Real.log (avg fun j =>
      densityAt ext s.data_s (X i) (Z j i + moved (Regular D.lam g) D.lam g i) / densityAt ext s.data_s (X i) (Z j i) *
      Real.exp ((ell (Z j i + moved (Regular D.lam g) D.lam g i) -
        D.lam * norm2 (fun k => X i k - (Z j i + moved (Regular D.lam g) D.lam g i) k) ^ 2) / D.epsilon))) := by
  have hu : Unlabelled D (mat X) z X Z g :=
    ⟨h.m_pos, h.d_pos, h.order, h.power, isMat_mat X, hz, h.grads⟩
  obtain ⟨x', z', X', Z', h1, h2, h3, t, ht, hv⟩ := C19_value ext hu h.kind h.rho_eq h.rho_pos h.erm himp hn h.reduction hs hsl hl hc (h.loss n)
  obtain ⟨x'', z'', e1, e2, e3⟩ := unlab hu
  rw [h1] at e1
  simp only [Except.ok.injEq, Prod.mk.injEq, true_and] at e1
  obtain ⟨rfl, rfl, -⟩ := e1
  have eX : ∀ i, X' i = fun k => X i k + moved (Regular D.lam g) D.lam g i k := fun i => funext fun k => (h2.2 0 i k).symm.trans (e2.2 0 i k)
  have eZ : ∀ j i, Z' j i = fun k => Z j i k + moved (Regular D.lam g) D.lam g i k := fun j i => funext fun k => (h3.2 j i k).symm.trans (e3.2 j i k)
  refine ⟨t, ht, ?_⟩
  show t.get [] = _
  rw [hv.2]
  unfold avg
  congr 1
  congr 1
  refine Finset.sum_congr rfl fun i _ => ?_
  congr 3
  refine Finset.sum_congr rfl fun j _ => ?_
  rw [eX, eZ, densityAt_shift]
  rfl

variable {Ω : Type} [MeasurableSpace Ω] {μ : Measure Ω} [IsProbabilityMeasure μ]

/-- **C99** Without importance sampling (no labels, squared Euclidean cost), the robust loss on `n` independent samples per data point tends
almost surely to the robust objective with exact expectations. -/
theorem C99_plain_limit (h : EuclidLoss D X g ell rho) (himp : D.impSamp = false) (Z : ℕ → Fin m → Ω → Fin d → ℝ)
    (nu : Fin m → Measure (Fin d → ℝ)) (hZ : ∀ j i, Measurable (Z j i)) (hlaw : ∀ j i, μ.map (Z j i) = nu i)
    (hind : ∀ i, Pairwise fun j j' => IndepFun (Z j i) (Z j' i) μ) (hell : Measurable ell)
    (hint : ∀ i, Integrable (fun z => Real.exp ((ell z - D.lam * norm2 (fun k => X i k - z k) ^ 2) / D.epsilon)) (nu i)) :
    ∀ᵐ ω ∂μ, Filter.Tendsto (fun n => num (computeDual ext D (mat X) none (ten fun (j : Fin n) i => Z j i ω) none)) Filter.atTop
      (𝓝 (populationU D.lam rho D.cost.power D.epsilon ell (fun i z => norm2 (fun k => X i k - z k) ^ 2) nu)) := by
  have hc : ∀ i, Measurable fun z : Fin d → ℝ => norm2 (fun k => X i k - z k) := fun i =>
    pnorm_measurable.comp (measurable_pi_lambda _ fun k => (measurable_pi_apply k).const_sub _)
  have hF : ∀ i, Measurable fun z => Real.exp ((ell z - D.lam * norm2 (fun k => X i k - z k) ^ 2) / D.epsilon) :=
    fun i => Real.measurable_exp.comp ((hell.sub (((hc i).pow_const 2).const_mul _)).div_const _)
  have hpos : ∀ i, 0 < ∫ z, Real.exp ((ell z - D.lam * norm2 (fun k => X i k - z k) ^ 2) / D.epsilon) ∂(nu i) := by
    intro i
    have : IsProbabilityMeasure (nu i) := by rw [← hlaw 0 i]; exact Measure.isProbabilityMeasure_map (hZ 0 i).aemeasurable
    exact integral_exp_pos (hint i)
  filter_upwards [log_avg_limit _ hF nu Z hZ hlaw hind hint hpos (D.lam * rho ^ D.cost.power) D.epsilon] with ω hω
  refine hω.congr' ?_
  filter_upwards [Filter.eventually_gt_atTop 0] with n hn
  obtain ⟨t, ht, hv⟩ := plain_value ext h himp hn (isTen_ten fun (j : Fin n) i => Z j i ω)
  rw [ht, ← hv]; rfl

/-- **C99** With importance sampling the robust loss tends to the same value: the limit is the robust objective with expectations under the
law of the sampler, centred at the data, whatever the gradients and the multiplier. -/
theorem C99_same_limit (h : EuclidLoss D X g ell rho) (himp : D.impSamp = true) {s : Sampler} (hs : D.sampler = some s)
    (hsl : s.labels_s = none) (hl : HasDensity s.data_s) (hc : IsMat s.data_s.mean X)
    (hpm : ∀ i, Measurable fun z => densityAt ext s.data_s (X i) z) (Z : ℕ → Fin m → Ω → Fin d → ℝ)
    (hZ : ∀ j i, Measurable (Z j i))
    (hlaw : ∀ j i, μ.map (Z j i) = volume.withDensity fun z => ENNReal.ofReal (densityAt ext s.data_s (X i) z))
    (hind : ∀ i, Pairwise fun j j' => IndepFun (Z j i) (Z j' i) μ) (hell : Measurable ell)
    (hint : ∀ i, Integrable (fun z => Real.exp ((ell z - D.lam * norm2 (fun k => X i k - z k) ^ 2) / D.epsilon))
      (volume.withDensity fun z => ENNReal.ofReal (densityAt ext s.data_s (X i) z))) :
    ∀ᵐ ω ∂μ, Filter.Tendsto (fun n => num (computeDual ext D (mat X) none (ten fun (j : Fin n) i => Z j i ω) none)) Filter.atTop
      (𝓝 (populationU D.lam rho D.cost.power D.epsilon ell (fun i z => norm2 (fun k => X i k - z k) ^ 2)
        (fun i => volume.withDensity fun z => ENNReal.ofReal (densityAt ext s.data_s (X i) z)))) := by
  have hcm : ∀ i, Measurable fun z : Fin d → ℝ => norm2 (fun k => X i k - z k) := fun i =>
    pnorm_measurable.comp (measurable_pi_lambda _ fun k => (measurable_pi_apply k).const_sub _)
  let E : Fin m → (Fin d → ℝ) → ℝ := fun i z => Real.exp ((ell z - D.lam * norm2 (fun k => X i k - z k) ^ 2) / D.epsilon)
  have hE : ∀ i, Measurable (E i) :=
    fun i => Real.measurable_exp.comp ((hell.sub (((hcm i).pow_const 2).const_mul _)).div_const _)
  let a : Fin m → Fin d → ℝ := moved (Regular D.lam g) D.lam g
  let F : Fin m → (Fin d → ℝ) → ℝ := fun i z =>
    densityAt ext s.data_s (X i) (z + a i) / densityAt ext s.data_s (X i) z * E i (z + a i)
  have hF : ∀ i, Measurable (F i) := fun i =>
    (((hpm i).comp (measurable_add_const (a i))).div (hpm i)).mul ((hE i).comp (measurable_add_const (a i)))
  have hrw := fun i => reweight (F := E i) (fun z => densityAt_pos ext hl (X i) z) (hpm i) (a i)
  have hpos : ∀ i, 0 < ∫ z, E i z ∂(volume.withDensity fun z => ENNReal.ofReal (densityAt ext s.data_s (X i) z)) := by
    intro i
    have : IsProbabilityMeasure (volume.withDensity fun z => ENNReal.ofReal (densityAt ext s.data_s (X i) z)) := by
      rw [← hlaw 0 i]; exact Measure.isProbabilityMeasure_map (hZ 0 i).aemeasurable
    exact integral_exp_pos (hint i)
  have key := log_avg_limit F hF _ Z hZ hlaw hind (fun i => (hrw i).2 (hint i)) (fun i => by rw [(hrw i).1]; exact hpos i)
    (D.lam * rho ^ D.cost.power) D.epsilon
  simp only [F, (hrw _).1] at key
  filter_upwards [key] with ω hω
  refine hω.congr' ?_
  filter_upwards [Filter.eventually_gt_atTop 0] with n hn
  obtain ⟨t, ht, hv⟩ := imp_value ext h himp hs hsl hl hc hn (isTen_ten fun (j : Fin n) i => Z j i ω)
  rw [ht]
  exact hv.symm

omit [IsProbabilityMeasure μ] in
/-- **C99** Through the forward pass: with the unseeded sampler of a Euclidean or max-norm cost, the value returned with `n` samples per point tends in
probability to the robust objective with exact expectations under normal noise around the data, and this holds with importance sampling
as well as without it. -/
theorem C99_forward (h : EuclidLoss D X g ell rho) {gen : Ω → G} (hN : NormalContract ext μ gen) {c : CostR} (hp : NormalSampled c) {sigma : ℝ} (hs : 0 < sigma) {S : Sampler} (hkind : S.kind = .noLabelsCost)
    (hgen : S.generating_cost = some c) (hsig : S.sigma = some sigma) (hseed : S.seed = none) (hD : D.sampler = some S) (hell : Measurable ell)
    (hint : ∀ i, Integrable (fun z => Real.exp ((ell z - D.lam * norm2 (fun k => X i k - z k) ^ 2) / D.epsilon))
      (Measure.pi fun k => gaussianReal (X i k) (sigma.toNNReal ^ 2)))
    {δ : ℝ} (hδ : 0 < δ) :
    Filter.Tendsto (fun n => μ {ω | ¬ ∃ v D' g', postForward ext { D with nSamples := n } (mat X) none true (gen ω) = .ok (.val v, D', g') ∧
      |v.get [] - populationU D.lam rho D.cost.power D.epsilon ell (fun i z => norm2 (fun k => X i k - z k) ^ 2)
        (fun i => Measure.pi fun k => gaussianReal (X i k) (sigma.toNNReal ^ 2))| < δ}) Filter.atTop (𝓝 0) := by
  let nu : Fin m → Measure (Fin d → ℝ) := fun i => Measure.pi fun k => gaussianReal (X i k) (sigma.toNNReal ^ 2)
  let S' : Sampler := ⟨.noLabelsCost, none, .normal (mat X) (.fin sigma), none, some c, some sigma, none⟩
  have hreset : ∀ g', S.resetMean ext (mat X) none g' = .ok (S', g') := by
    intro g'
    have hd : samplerData c (mat X) (some sigma) = .ok (.normal (mat X) (.fin sigma)) := by
      rcases hp with ⟨h1, h | h⟩ | ⟨h1, h⟩ <;> simp [samplerData, h, h1, defaultEps, mkNormal, validScale, hs]
    simp [Sampler.resetMean, hkind, hgen, hsig, hseed, mkNoLabelsCost, hd, seedGlobal, S']
  -- the noise
  let phi : (Fin m → Fin d → ℝ) → Fin m → Fin d → ℝ := fun e i r => X i r + sigma * e i r
  have hphi1 : ∀ i, Measurable fun (e : Fin d → ℝ) r => X i r + sigma * e r := fun i =>
    measurable_pi_lambda _ fun r => ((measurable_pi_apply r).const_mul _).const_add _
  have hphi : Measurable phi := measurable_pi_lambda _ fun i => (hphi1 i).comp (measurable_pi_apply i)
  let Gm : Measure (Fin m → Fin d → ℝ) := Measure.pi fun _ => Measure.pi fun _ => gaussianReal 0 1
  let kap := Gm.map phi
  have : IsProbabilityMeasure kap := Measure.isProbabilityMeasure_map hphi.aemeasurable
  have hmarg : ∀ i, kap.map (fun u => u i) = nu i := by
    intro i
    rw [Measure.map_map (measurable_pi_apply i) hphi]
    have : (fun u : Fin m → Fin d → ℝ => u i) ∘ phi = (fun (e : Fin d → ℝ) r => X i r + sigma * e r) ∘ (fun e => e i) := rfl
    rw [this, ← Measure.map_map (hphi1 i) (measurable_pi_apply i)]
    have he : Gm.map (fun e => e i) = Measure.pi fun _ : Fin d => gaussianReal 0 1 :=
      (measurePreserving_eval (fun _ : Fin m => Measure.pi fun _ : Fin d => gaussianReal 0 1) i).map_eq
    rw [he, noise_law hs]
  let E : ∀ n, Ω → Fin n → Fin m → Fin d → ℝ := fun n ω j i r => (ext.stdNormal (gen ω) [n, m, d]).1.get [j, i, r]
  let T : ∀ n, Ω → Fin n → Fin m → Fin d → ℝ := fun n ω j => phi (E n ω j)
  have hPhi : ∀ n, Measurable fun (e : Fin n → Fin m → Fin d → ℝ) j => phi (e j) :=
    fun n => measurable_pi_lambda _ fun j => hphi.comp (measurable_pi_apply j)
  have hT : ∀ n, Measurable (T n) := fun n => (hPhi n).comp (hN n m d).1
  have hlaw : ∀ n, μ.map (T n) = Measure.pi fun _ => kap := by
    intro n
    have : T n = (fun (e : Fin n → Fin m → Fin d → ℝ) j => phi (e j)) ∘ E n := rfl
    rw [this, ← Measure.map_map (hPhi n) (hN n m d).1, (hN n m d).2]
    exact Measure.pi_map_pi (fun _ => hphi.aemeasurable)
  -- the terms that are averaged
  let E0 : Fin m → (Fin d → ℝ) → ℝ := fun i z => Real.exp ((ell z - D.lam * norm2 (fun k => X i k - z k) ^ 2) / D.epsilon)
  have hcm : ∀ i, Measurable fun z : Fin d → ℝ => norm2 (fun k => X i k - z k) := fun i =>
    pnorm_measurable.comp (measurable_pi_lambda _ fun k => (measurable_pi_apply k).const_sub _)
  have hE0 : ∀ i, Measurable (E0 i) :=
    fun i => Real.measurable_exp.comp ((hell.sub (((hcm i).pow_const 2).const_mul _)).div_const _)
  have hpos0 : ∀ i, 0 < ∫ z, E0 i z ∂(nu i) := fun i => integral_exp_pos (hint i)
  have hdens : HasDensity S'.data_s := ⟨sigma, hs, rfl⟩
  have hnu : ∀ i, nu i = volume.withDensity fun z => ENNReal.ofReal (densityAt ext S'.data_s (X i) z) := fun i => normal_law hs (X i)
  have hpm : ∀ i, Measurable fun z => densityAt ext S'.data_s (X i) z := fun i =>
    show Measurable fun z : Fin d → ℝ => ∏ k, gaussianPDFReal (X i k) (sigma.toNNReal ^ 2) (z k) from
    Finset.measurable_fun_prod _ fun k _ => (measurable_gaussianPDFReal _ _).comp (measurable_pi_apply k)
  obtain ⟨F, hF, hintF, hIF, hval⟩ : ∃ F : Fin m → (Fin d → ℝ) → ℝ, (∀ i, Measurable (F i)) ∧ (∀ i, Integrable (F i) (nu i)) ∧
      (∀ i, ∫ z, F i z ∂(nu i) = ∫ z, E0 i z ∂(nu i)) ∧ ∀ (n : ℕ) (z : Tensor ℝ) (Z : Fin n → Fin m → Fin d → ℝ), 0 < n → IsTen z Z →
      ReturnsVal (computeDual ext { D with sampler := some S', nSamples := n } (mat X) none z none) fun t =>
        t.get [] = D.lam * rho ^ D.cost.power + avg (fun i => D.epsilon * Real.log (avg fun j => F i (Z j i))) := by
    have h' : ∀ n, EuclidLoss { D with sampler := some S', nSamples := n } X g ell rho := fun n =>
      ⟨h.m_pos, h.d_pos, h.kind, h.order, h.power, h.rho_eq, h.rho_pos, h.eps_pos, h.erm, h.reduction, h.loss, h.grads⟩
    rcases Bool.eq_false_or_eq_true D.impSamp with himp | himp
    · let a : Fin m → Fin d → ℝ := moved (Regular D.lam g) D.lam g
      have hrw := fun i => reweight (F := E0 i) (fun z => densityAt_pos ext hdens (X i) z) (hpm i) (a i)
      simp only [← hnu] at hrw
      exact ⟨fun i z => densityAt ext S'.data_s (X i) (z + a i) / densityAt ext S'.data_s (X i) z * E0 i (z + a i),
        fun i => (((hpm i).comp (measurable_add_const (a i))).div (hpm i)).mul ((hE0 i).comp (measurable_add_const (a i))),
        fun i => (hrw i).2 (hint i), fun i => (hrw i).1,
        fun n z Z hn hz => imp_value ext (h' n) himp rfl rfl hdens (isMat_mat X) hn hz⟩
    · exact ⟨E0, hE0, hint, fun i => rfl, fun n z Z hn hz => plain_value ext (h' n) himp hn hz⟩
  have key := log_avg_limit_prob (fun _ => μ) F hF kap nu hmarg T hT hlaw hintF (fun i => by rw [hIF]; exact hpos0 i)
    (D.lam * rho ^ D.cost.power) D.epsilon hδ
  simp only [hIF] at key
  refine key.congr' ?_
  filter_upwards [Filter.eventually_gt_atTop 0] with n hn
  congr 1
  ext ω
  simp only [Set.mem_ofPred_eq]
  have hz : IsTen (S'.sample ext n (gen ω)).1 (T n ω) := by
    refine ⟨rfl, fun j i r => ?_⟩
    show (mat X).get [(i : ℕ), (r : ℕ)] + scaleVal (.fin sigma) * _ = _
    rw [(isMat_mat X).2 i r]; rfl
  obtain ⟨t, ht, hv⟩ := hval n _ _ hn hz
  have hf : postForward ext { D with nSamples := n } (mat X) none true (gen ω) =
      .ok (.val t, { D with sampler := some S', nSamples := n }, (S'.sample ext n (gen ω)).2.2) := by
    have e2 : (S'.sample ext n (gen ω)).2.1 = none := rfl
    simp only [h.rho_eq] at ht
    simp only [postForward, hD, if_true, hreset, ok_bind, h.rho_eq, not_lt.2 h.rho_pos.le, h.rho_pos.ne', if_false, e2, ht]
  rw [hf]
  have hv' := hv.symm
  rw [hv']
  constructor
  · rintro hle ⟨v', D'', g', he, hlt⟩
    simp only [Except.ok.injEq, Prod.mk.injEq, DualVal.val.injEq] at he
    rw [← he.1] at hlt
    exact absurd hlt (not_lt.2 hle)
  · intro hno
    by_contra hlt
    exact hno ⟨t, _, _, rfl, not_le.1 hlt⟩

end

/-! ## Example: loss `x^2 / 2`, one data point, importance sampling on -/

/-- the unseeded sampler of the squared Euclidean cost -/
noncomputable def exImpSampler : Sampler :=
  ⟨.noLabelsCost, none, .normal (mat fun (_ _ : Fin 1) => (1 : ℝ)) (.fin 1), none, some ⟨.normCost, .fin 2, 2, .fin 0⟩, some 1, none⟩

theorem exImp_euclid (s : Option Sampler) : EuclidLoss (exImp .normCost (.fin 0) 1 s) (fun (_ _ : Fin 1) => (1 : ℝ)) (fun _ _ => 1)
    (fun x => x 0 ^ 2 / 2) 1 :=
  ⟨one_pos, one_pos, rfl, rfl, rfl, rfl, one_pos, one_pos, rfl, rfl, fun n z Z hz => ⟨_, rfl, hz.1, fun j i c => by
    have := hz.2 j i c
    rw [Subsingleton.elim c 0] at this ⊢
    show (z.get _) ^ 2 / 2 = _
    rw [this]⟩, ⟨_, rfl, isTen_unsqueeze (isMat_mat _)⟩⟩

theorem exImp_bounded {nu : Measure (Fin 1 → ℝ)} [IsProbabilityMeasure nu] :
    Integrable (fun z : Fin 1 → ℝ => Real.exp ((z 0 ^ 2 / 2 - 1 * norm2 (fun k : Fin 1 => 1 - z k) ^ 2) / 1)) nu := by
  have e : ∀ z : Fin 1 → ℝ, norm2 (fun k : Fin 1 => 1 - z k) ^ 2 = (1 - z 0) ^ 2 := by
    intro z
    simp only [norm2, pnorm, Fin.sum_univ_one, Fin.isValue]
    rw [← Real.rpow_mul (abs_nonneg _)]
    norm_num
  simp only [e]
  refine Integrable.of_bound (C := Real.exp 1) ?_ (Filter.Eventually.of_forall fun z => ?_)
  · have h : Measurable fun z : Fin 1 → ℝ => z 0 := measurable_pi_apply 0
    exact (Real.measurable_exp.comp ((((h.pow_const 2).div_const 2).sub (((h.const_sub 1).pow_const 2).const_mul 1)).div_const 1)).aestronglyMeasurable
  · rw [Real.norm_eq_abs, abs_of_pos (Real.exp_pos _)]
    refine Real.exp_le_exp.2 ?_
    nlinarith [sq_nonneg (z 0 - 2)]

/-- independent normal samples meet the hypotheses of `C99_same_limit`, and of `C99_plain_limit` once importance sampling is off -/
example :
    let D := exImp .normCost (.fin 0) 1 (some exImpSampler)
    let nu : Measure (Fin 1 → ℝ) := Measure.pi fun _ => gaussianReal 1 ((1 : ℝ).toNNReal ^ 2)
    (∀ᵐ ω ∂(Measure.infinitePi fun _ : ℕ => nu), Filter.Tendsto (fun n => num (computeDual ext D (mat fun (_ _ : Fin 1) => (1 : ℝ)) none
      (ten fun (j : Fin n) (_ : Fin 1) => ω j) none)) Filter.atTop
      (𝓝 (populationU 1 1 2 1 (fun x : Fin 1 → ℝ => x 0 ^ 2 / 2) (fun (_ : Fin 1) z => norm2 (fun k : Fin 1 => 1 - z k) ^ 2) fun _ => nu))) ∧
    (∀ᵐ ω ∂(Measure.infinitePi fun _ : ℕ => nu), Filter.Tendsto (fun n => num (computeDual ext { D with impSamp := false }
      (mat fun (_ _ : Fin 1) => (1 : ℝ)) none (ten fun (j : Fin n) (_ : Fin 1) => ω j) none)) Filter.atTop
      (𝓝 (populationU 1 1 2 1 (fun x : Fin 1 → ℝ => x 0 ^ 2 / 2) (fun (_ : Fin 1) z => norm2 (fun k : Fin 1 => 1 - z k) ^ 2) fun _ => nu))) := by
  intro D nu
  have hell : Measurable fun x : Fin 1 → ℝ => x 0 ^ 2 / 2 := ((measurable_pi_apply 0).pow_const 2).div_const 2
  have hlaw : ∀ j : ℕ, (Measure.infinitePi fun _ : ℕ => nu).map (fun ω => ω j) = nu := fun j => Measure.infinitePi_map_eval _ j
  have hind : Pairwise fun j j' : ℕ => IndepFun (fun ω : ℕ → Fin 1 → ℝ => ω j) (fun ω => ω j') (Measure.infinitePi fun _ => nu) := fun j j' hj =>
    (iIndepFun_infinitePi (P := fun _ : ℕ => nu) (X := fun _ u => u) fun _ => measurable_id).indepFun hj
  have hden : volume.withDensity (fun z => ENNReal.ofReal (densityAt ext exImpSampler.data_s (fun _ : Fin 1 => (1 : ℝ)) z)) = nu :=
    (normal_law one_pos fun _ : Fin 1 => (1 : ℝ)).symm
  have hdm : Measurable fun z => densityAt ext exImpSampler.data_s (fun _ : Fin 1 => (1 : ℝ)) z := by
    show Measurable fun z : Fin 1 → ℝ => normalDensity (1 : ℝ).toNNReal (fun _ : Fin 1 => (1 : ℝ)) z
    unfold normalDensity
    exact Finset.measurable_fun_prod _ fun k _ => (measurable_gaussianPDFReal _ _).comp (measurable_pi_apply k)
  constructor
  · have := C99_same_limit ext (μ := Measure.infinitePi fun _ : ℕ => nu) (exImp_euclid (some exImpSampler)) rfl rfl rfl ⟨1, one_pos, rfl⟩ (isMat_mat _)
      (fun _ => hdm) (fun j _ ω => ω j) (fun j _ => measurable_pi_apply j)
      (fun j _ => (hlaw j).trans hden.symm) (fun _ => hind) hell (fun _ => by rw [hden]; exact exImp_bounded)
    simp only [hden] at this
    exact this
  · exact C99_plain_limit ext (D := { D with impSamp := false }) (μ := Measure.infinitePi fun _ : ℕ => nu)
      (show EuclidLoss { D with impSamp := false } (fun (_ _ : Fin 1) => (1 : ℝ)) (fun _ _ => 1) (fun x => x 0 ^ 2 / 2) 1 from
        ⟨one_pos, one_pos, rfl, rfl, rfl, rfl, one_pos, one_pos, rfl, rfl, (exImp_euclid none).loss, (exImp_euclid none).grads⟩) rfl
      (fun j _ ω => ω j) (fun _ => nu) (fun j _ => measurable_pi_apply j) (fun j _ => hlaw j) (fun _ => hind) hell (fun _ => exImp_bounded)

example {δ : ℝ} (hδ : 0 < δ) :
    Filter.Tendsto (fun n => bankLaw {ω | ¬ ∃ v D' g', postForward bankExt { exImp .normCost (.fin 0) 1 (some exImpSampler) with nSamples := n }
      (mat fun (_ _ : Fin 1) => (1 : ℝ)) none true ω = .ok (.val v, D', g') ∧
      |v.get [] - populationU 1 1 2 1 (fun x : Fin 1 → ℝ => x 0 ^ 2 / 2) (fun (_ : Fin 1) z => norm2 (fun k : Fin 1 => 1 - z k) ^ 2)
        (fun _ => Measure.pi fun _ => gaussianReal 1 ((1 : ℝ).toNNReal ^ 2))| < δ}) Filter.atTop (𝓝 0) :=
  C99_forward bankExt (exImp_euclid _) bank_contract (c := ⟨.normCost, .fin 2, 2, .fin 0⟩) (Or.inl ⟨rfl, Or.inr rfl⟩) one_pos rfl rfl rfl rfl rfl
    (((measurable_pi_apply 0).pow_const 2).div_const 2) (fun _ => exImp_bounded) hδ

end Skwdro
