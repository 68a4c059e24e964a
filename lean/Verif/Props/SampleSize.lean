import Verif.Props.Consistency
import Mathlib.Probability.Moments.SubGaussian

/-!
# How many samples are enough (C113)
-/

namespace Skwdro
open Spec Tensor MeasureTheory ProbabilityTheory

variable {G : Type} (ext : TorchExt G)

/-- numbers close to `q` in proportion have logarithms close to `log q` -/
theorem log_close {q M t : ℝ} (hq : 0 < q) (h : |M - q| < q * (1 - Real.exp (-t))) : 0 < M ∧ |Real.log M - Real.log q| < t := by
  have he := Real.exp_pos (-t)
  obtain ⟨h1, h2⟩ := abs_lt.1 h
  have hM : q * Real.exp (-t) < M := by nlinarith
  have hM0 : 0 < M := lt_trans (by positivity) hM
  have hM2 : M < q * Real.exp t := by
    have hmul : Real.exp t * Real.exp (-t) = 1 := by rw [← Real.exp_add]; simp
    have : 2 - Real.exp (-t) ≤ Real.exp t := by nlinarith [sq_nonneg (Real.exp t - 1), sq_nonneg (Real.exp (-t) - 1), Real.exp_pos t]
    nlinarith
  refine ⟨hM0, abs_lt.2 ⟨?_, ?_⟩⟩
  · have := Real.log_lt_log (by positivity) hM
    rw [Real.log_mul hq.ne' he.ne', Real.log_exp] at this
    linarith
  · have := Real.log_lt_log hM0 hM2
    rw [Real.log_mul hq.ne' (Real.exp_pos _).ne', Real.log_exp] at this
    linarith

/-- Hoeffding's inequality for averages of independent numbers between 0 and 1 -/
theorem avg_tail {Ω : Type} [MeasurableSpace Ω] {μ : Measure Ω} [IsProbabilityMeasure μ] {n : ℕ} (hn : 0 < n) {V : Fin n → Ω → ℝ}
    (hV : ∀ j, Measurable (V j)) (hI : ∀ j, ∀ᵐ ω ∂μ, V j ω ∈ Set.Icc (0 : ℝ) 1) (hind : iIndepFun V μ) {q s : ℝ} (hq : ∀ j, ∫ ω, V j ω ∂μ = q)
    (hs : 0 ≤ s) : μ.real {ω | s ≤ |avg (fun j => V j ω) - q|} ≤ 2 * Real.exp (-(2 * n * s ^ 2)) := by
  have hn' : (0 : ℝ) < n := by exact_mod_cast hn
  have hsub : ∀ j, HasSubgaussianMGF (fun ω => V j ω - q) ((‖(1 : ℝ) - 0‖₊ / 2) ^ 2) μ := by
    intro j
    rw [← hq j]
    exact hasSubgaussianMGF_of_mem_Icc (hV j).aemeasurable (hI j)
  have hneg : ∀ j, HasSubgaussianMGF (fun ω => -(V j ω - q)) ((‖(1 : ℝ) - 0‖₊ / 2) ^ 2) μ := fun j => (hsub j).neg
  have hi1 : iIndepFun (fun j ω => V j ω - q) μ := hind.comp (fun _ x => x - q) fun _ => measurable_id.sub_const q
  have hi2 : iIndepFun (fun j ω => -(V j ω - q)) μ := hind.comp (fun _ x => -(x - q)) fun _ => (measurable_id.sub_const q).neg
  have e : -(n * s) ^ 2 / (2 * ((∑ _j : Fin n, (‖(1 : ℝ) - 0‖₊ / 2) ^ 2 : NNReal) : ℝ)) = -(2 * n * s ^ 2) := by
    simp
    field_simp
  have h1 := HasSubgaussianMGF.measure_sum_ge_le_of_iIndepFun hi1 (s := Finset.univ) (fun j _ => hsub j) (ε := n * s) (by positivity)
  have h2 := HasSubgaussianMGF.measure_sum_ge_le_of_iIndepFun hi2 (s := Finset.univ) (fun j _ => hneg j) (ε := n * s) (by positivity)
  rw [e] at h1 h2
  refine le_trans (measureReal_mono (s₂ := {ω | n * s ≤ ∑ j, (V j ω - q)} ∪ {ω | n * s ≤ ∑ j, -(V j ω - q)}) ?_ (measure_ne_top _ _))
    (le_trans (measureReal_union_le _ _) (by linarith))
  intro ω hω
  simp only [Set.mem_ofPred_eq, avg, Set.mem_union] at hω ⊢
  have hsum : (∑ j, V j ω) / n - q = (∑ j, (V j ω - q)) / n := by
    simp only [Finset.sum_sub_distrib, Finset.sum_const, Finset.card_univ, Fintype.card_fin, nsmul_eq_mul]
    field_simp
  rw [hsum, abs_div, abs_of_pos hn', le_div_iff₀ hn', mul_comm] at hω
  rw [Finset.sum_neg_distrib]
  exact le_abs.1 hω

section
variable {n m d k s : ℕ} {w : WLoss} {D : DualLoss} {ell : (Fin d → ℝ) → (Fin k → ℝ) → Fin s → ℝ} {rho : ℝ}
  {X : Fin m → Fin d → ℝ} {Y : Fin m → Fin k → ℝ}

/-- **C113** Let the penalised losses `loss - lam*cost` of the samples of data point `i` be at most `B i`, and `q i > 0` be the mean of
`exp((loss - lam*cost - B i)/eps)`.  With `n` independent samples per data point, the probability that the robust loss misses the exact objective
by `t` or more is at most the sum over the data points of `2 exp(-2 n (q i (1 - exp(-t/eps)))^2)`. -/
theorem C113_tail (h : Labelled w D ell rho) (hr : D.reduction = .mean) (hm : 0 < m) (hn : 0 < n) {Ω : Type} [MeasurableSpace Ω]
    (μ : Measure Ω) [IsProbabilityMeasure μ] (kap : Measure (Fin m → (Fin d → ℝ) × (Fin k → ℝ))) [IsProbabilityMeasure kap]
    (T : Ω → Fin n → Fin m → (Fin d → ℝ) × (Fin k → ℝ)) (hT : Measurable T) (hlaw : μ.map T = Measure.pi fun _ => kap)
    (hell : Measurable fun u : (Fin d → ℝ) × (Fin k → ℝ) => lossAt w ell u.1 u.2) (B : Fin m → ℝ)
    (hB : ∀ i, ∀ᵐ u ∂(kap.map fun u => u i), lossAt w ell u.1 u.2 - D.lam * costAt D.cost (X i) u.1 (Y i) u.2 ≤ B i) {q : Fin m → ℝ}
    (hq : ∀ i, q i = ∫ u, Real.exp ((lossAt w ell u.1 u.2 - D.lam * costAt D.cost (X i) u.1 (Y i) u.2 - B i) / D.epsilon) ∂(kap.map fun u => u i))
    {t : ℝ} (ht : 0 < t) :
    (∀ i, 0 < q i) ∧
    μ.real {ω | t ≤ |num (computeDual ext D (mat X) (some (mat Y)) (ten fun j i => (T ω j i).1) (some (ten fun j i => (T ω j i).2))) -
      population D.lam rho D.cost.power D.epsilon (lossAt w ell) (fun i z y => costAt D.cost (X i) z (Y i) y) (fun i => kap.map fun u => u i)|} ≤
      ∑ i, 2 * Real.exp (-(2 * n * (q i * (1 - Real.exp (-(t / D.epsilon)))) ^ 2)) := by
  have he := h.eps_pos
  have hc : ∀ i, Measurable fun u : (Fin d → ℝ) × (Fin k → ℝ) => costAt D.cost (X i) u.1 (Y i) u.2 :=
    fun i => costAt_measurable h.cost (X i) (Y i)
  let p : Fin m → (Fin d → ℝ) × (Fin k → ℝ) → ℝ := fun i u => lossAt w ell u.1 u.2 - D.lam * costAt D.cost (X i) u.1 (Y i) u.2
  have hp : ∀ i, Measurable (p i) := fun i => hell.sub ((hc i).const_mul _)
  let f : Fin m → (Fin d → ℝ) × (Fin k → ℝ) → ℝ := fun i u => Real.exp ((p i u - B i) / D.epsilon)
  have hf : ∀ i, Measurable (f i) := fun i => Real.measurable_exp.comp (((hp i).sub_const _).div_const _)
  have hprob : ∀ i, IsProbabilityMeasure (kap.map fun u => u i) := fun i => Measure.isProbabilityMeasure_map (measurable_pi_apply i).aemeasurable
  have hf01 : ∀ i, ∀ᵐ u ∂(kap.map fun u => u i), f i u ∈ Set.Icc (0 : ℝ) 1 := by
    intro i
    filter_upwards [hB i] with u hu
    refine ⟨(Real.exp_pos _).le, Real.exp_le_one_iff.2 (div_nonpos_of_nonpos_of_nonneg ?_ he.le)⟩
    show lossAt w ell u.1 u.2 - D.lam * costAt D.cost (X i) u.1 (Y i) u.2 - B i ≤ 0
    linarith
  have hfint : ∀ i, Integrable (f i) (kap.map fun u => u i) := fun i => Integrable.of_mem_Icc 0 1 (hf i).aemeasurable (hf01 i)
  have hq' : ∀ i, q i = ∫ u, f i u ∂(kap.map fun u => u i) := hq
  have hqpos : ∀ i, 0 < q i := by
    intro i
    rw [hq' i]
    refine integral_exp_pos (hfint i)
  refine ⟨hqpos, ?_⟩
  -- the samples of one data point are independent with law `kap` at that point
  have hmarg : ∀ j, μ.map (fun ω => T ω j) = kap := by
    intro j
    have : (fun ω => T ω j) = (fun U : Fin n → Fin m → (Fin d → ℝ) × (Fin k → ℝ) => U j) ∘ T := rfl
    rw [this, ← Measure.map_map (measurable_pi_apply j) hT, hlaw]
    exact (measurePreserving_eval (fun _ : Fin n => kap) j).map_eq
  have hTj : ∀ j, Measurable fun ω => T ω j := fun j => (measurable_pi_apply j).comp hT
  have hind : iIndepFun (fun j ω => T ω j) μ := by
    rw [iIndepFun_iff_map_fun_eq_pi_map fun j => (hTj j).aemeasurable]
    simp only [hmarg]
    exact hlaw
  have hTji : ∀ j i, Measurable fun ω => T ω j i := fun j i => (measurable_pi_apply i).comp (hTj j)
  have hmarg2 : ∀ j i, μ.map (fun ω => T ω j i) = kap.map fun u => u i := by
    intro j i
    rw [← hmarg j, Measure.map_map (measurable_pi_apply i) (hTj j)]
    rfl
  let V : Fin m → Fin n → Ω → ℝ := fun i j ω => f i (T ω j i)
  have htail : ∀ i, μ.real {ω | q i * (1 - Real.exp (-(t / D.epsilon))) ≤ |avg (fun j => V i j ω) - q i|} ≤
      2 * Real.exp (-(2 * n * (q i * (1 - Real.exp (-(t / D.epsilon)))) ^ 2)) := by
    intro i
    refine avg_tail hn (fun j => (hf i).comp (hTji j i)) (fun j => ?_) (hind.comp (fun _ u => f i (u i)) fun _ => (hf i).comp (measurable_pi_apply i))
      (fun j => ?_) (mul_nonneg (hqpos i).le ?_)
    · have := hf01 i
      rw [← hmarg2 j i] at this
      exact ae_of_ae_map (hTji j i).aemeasurable this
    · rw [hq' i, ← hmarg2 j i, integral_map (hTji j i).aemeasurable (hf i).aestronglyMeasurable]
      rfl
    · have : Real.exp (-(t / D.epsilon)) ≤ 1 := Real.exp_le_one_iff.2 (by have := div_pos ht he; linarith)
      linarith
  refine le_trans (measureReal_mono (s₂ := ⋃ i, {ω | q i * (1 - Real.exp (-(t / D.epsilon))) ≤ |avg (fun j => V i j ω) - q i|}) ?_ (measure_ne_top _ _))
    (le_trans (measureReal_iUnion_fintype_le _) (Finset.sum_le_sum fun i _ => htail i))
  intro ω hω
  simp only [Set.mem_ofPred_eq, Set.mem_iUnion] at hω ⊢
  by_contra hno
  push Not at hno
  have hcl := fun i => log_close (hqpos i) (hno i)
  rw [num_samples ext h hr hm hn (T ω)] at hω
  simp only [population, add_sub_add_left_eq_sub] at hω
  -- both sides in terms of the bounded quantities
  have e1 : ∀ i, D.epsilon * Real.log (avg fun j => Real.exp ((lossAt w ell (T ω j i).1 (T ω j i).2 -
      D.lam * costAt D.cost (X i) (T ω j i).1 (Y i) (T ω j i).2) / D.epsilon)) = D.epsilon * Real.log (avg fun j => V i j ω) + B i := by
    intro i
    have : (fun j => Real.exp ((lossAt w ell (T ω j i).1 (T ω j i).2 - D.lam * costAt D.cost (X i) (T ω j i).1 (Y i) (T ω j i).2) / D.epsilon)) =
        fun j => Real.exp (B i / D.epsilon) * V i j ω := by
      funext j
      simp only [V, f, p]
      rw [← Real.exp_add]; congr 1; ring
    have hav : avg (fun j => Real.exp (B i / D.epsilon) * V i j ω) = Real.exp (B i / D.epsilon) * avg (fun j => V i j ω) := by
      simp only [avg, ← Finset.mul_sum, mul_div_assoc]
    rw [this, hav, Real.log_mul (Real.exp_pos _).ne' (hcl i).1.ne', Real.log_exp]
    field_simp
    ring
  have e2 : ∀ i, D.epsilon * Real.log (∫ u, Real.exp ((lossAt w ell u.1 u.2 - D.lam * costAt D.cost (X i) u.1 (Y i) u.2) / D.epsilon)
      ∂(kap.map fun u => u i)) = D.epsilon * Real.log (q i) + B i := by
    intro i
    have : (fun u : (Fin d → ℝ) × (Fin k → ℝ) => Real.exp ((lossAt w ell u.1 u.2 - D.lam * costAt D.cost (X i) u.1 (Y i) u.2) / D.epsilon)) =
        fun u => Real.exp (B i / D.epsilon) * f i u := by
      funext u
      simp only [f, p]
      rw [← Real.exp_add]; congr 1; ring
    rw [this, integral_const_mul, ← hq' i, Real.log_mul (Real.exp_pos _).ne' (hqpos i).ne', Real.log_exp]
    field_simp
    ring
  simp only [e1, e2] at hω
  simp only [avg, ← sub_div, ← Finset.sum_sub_distrib, add_sub_add_right_eq_sub] at hω
  have hm' : (0 : ℝ) < m := by exact_mod_cast hm
  rw [abs_div, abs_of_pos hm', le_div_iff₀ hm'] at hω
  have hlt : |∑ i, (D.epsilon * Real.log ((∑ j, V i j ω) / n) - D.epsilon * Real.log (q i))| < t * m := by
    refine lt_of_le_of_lt (Finset.abs_sum_le_sum_abs _ _) ?_
    have : ∑ i : Fin m, |D.epsilon * Real.log ((∑ j, V i j ω) / n) - D.epsilon * Real.log (q i)| < ∑ _i : Fin m, t := by
      refine Finset.sum_lt_sum_of_nonempty ⟨⟨0, hm⟩, Finset.mem_univ _⟩ fun i _ => ?_
      rw [← mul_sub, abs_mul, abs_of_pos he]
      have := (hcl i).2
      rw [lt_div_iff₀ he] at this
      rw [mul_comm]
      exact this
    simpa [mul_comm] using this
  linarith

/-- **C113** Hence a number of samples that suffices: for a tolerance `t` and a probability of failure `δ`, with `s` at most every
`q i (1 - exp(-t/eps))`, any `n ≥ log(2 m / δ) / (2 s^2)` will do. -/
theorem C113_enough (h : Labelled w D ell rho) (hr : D.reduction = .mean) (hm : 0 < m) (hn : 0 < n) {Ω : Type} [MeasurableSpace Ω]
    (μ : Measure Ω) [IsProbabilityMeasure μ] (kap : Measure (Fin m → (Fin d → ℝ) × (Fin k → ℝ))) [IsProbabilityMeasure kap]
    (T : Ω → Fin n → Fin m → (Fin d → ℝ) × (Fin k → ℝ)) (hT : Measurable T) (hlaw : μ.map T = Measure.pi fun _ => kap)
    (hell : Measurable fun u : (Fin d → ℝ) × (Fin k → ℝ) => lossAt w ell u.1 u.2) (B : Fin m → ℝ)
    (hB : ∀ i, ∀ᵐ u ∂(kap.map fun u => u i), lossAt w ell u.1 u.2 - D.lam * costAt D.cost (X i) u.1 (Y i) u.2 ≤ B i) {t δ σ : ℝ} (ht : 0 < t)
    (hδ : 0 < δ) (hσ : 0 < σ) (hs : ∀ i, σ ≤ (1 - Real.exp (-(t / D.epsilon))) *
      ∫ u, Real.exp ((lossAt w ell u.1 u.2 - D.lam * costAt D.cost (X i) u.1 (Y i) u.2 - B i) / D.epsilon) ∂(kap.map fun u => u i))
    (hN : Real.log (2 * m / δ) / (2 * σ ^ 2) ≤ n) :
    μ.real {ω | t ≤ |num (computeDual ext D (mat X) (some (mat Y)) (ten fun j i => (T ω j i).1) (some (ten fun j i => (T ω j i).2))) -
      population D.lam rho D.cost.power D.epsilon (lossAt w ell) (fun i z y => costAt D.cost (X i) z (Y i) y) (fun i => kap.map fun u => u i)|} ≤ δ := by
  have hm' : (0 : ℝ) < m := by exact_mod_cast hm
  refine le_trans (C113_tail ext h hr hm hn μ kap T hT hlaw hell B hB (fun i => rfl) ht).2 ?_
  have hle : ∀ i : Fin m, 2 * Real.exp (-(2 * n * ((∫ u, Real.exp ((lossAt w ell u.1 u.2 - D.lam * costAt D.cost (X i) u.1 (Y i) u.2 - B i) /
      D.epsilon) ∂(kap.map fun u => u i)) * (1 - Real.exp (-(t / D.epsilon)))) ^ 2)) ≤ δ / m := by
    intro i
    have h1 : σ ^ 2 ≤ ((∫ u, Real.exp ((lossAt w ell u.1 u.2 - D.lam * costAt D.cost (X i) u.1 (Y i) u.2 - B i) /
        D.epsilon) ∂(kap.map fun u => u i)) * (1 - Real.exp (-(t / D.epsilon)))) ^ 2 := by
      have := hs i
      rw [mul_comm] at this
      exact pow_le_pow_left₀ hσ.le this 2
    have h2 : Real.log (2 * m / δ) ≤ 2 * n * σ ^ 2 := by
      rw [div_le_iff₀ (by positivity)] at hN
      linarith
    have h3 : Real.log (2 * m / δ) ≤ 2 * n * ((∫ u, Real.exp ((lossAt w ell u.1 u.2 - D.lam * costAt D.cost (X i) u.1 (Y i) u.2 - B i) /
        D.epsilon) ∂(kap.map fun u => u i)) * (1 - Real.exp (-(t / D.epsilon)))) ^ 2 := by
      have : (0 : ℝ) ≤ 2 * n := by positivity
      nlinarith
    have h4 := Real.exp_le_exp.2 (neg_le_neg h3)
    rw [Real.exp_neg (Real.log _), Real.exp_log (by positivity), inv_div] at h4
    calc _ ≤ 2 * (δ / (2 * m)) := by linarith
      _ = δ / m := by field_simp
  calc _ ≤ ∑ _i : Fin m, δ / m := Finset.sum_le_sum fun i _ => hle i
    _ = δ := by simp; field_simp

end

/-! Through the forward pass, with the noise of the library's sampler -/

section
variable {m d k s : ℕ} {w : WLoss} {D : DualLoss} {ell : (Fin d → ℝ) → (Fin k → ℝ) → Fin s → ℝ} {rho : ℝ}
  {X : Fin m → Fin d → ℝ} {Y : Fin m → Fin k → ℝ}

/-- **C113** The same for one forward pass of the post-sampled loss: from a random generator, with the sampler of a Euclidean or max-norm cost of standard
deviation `sigma` and `n_samples ≥ log(2 m / δ) / (2 s^2)`, the value returned is within `t` of the exact objective with probability at least `1 - δ`. -/
theorem C113_forward (h : Labelled w D ell rho) (hr : D.reduction = .mean) (hm : 0 < m) {Ω : Type} [MeasurableSpace Ω] {μ : Measure Ω}
    [IsProbabilityMeasure μ] {gen : Ω → G} (hN : NormalContract ext μ gen) {c : CostR} (hk : c.kind = .normCost) (hp : NormalSampled c) {sigma : ℝ} (hsg : 0 < sigma) {S : Sampler} (hkind : S.kind = .labeledCost)
    (hgen : S.generating_cost = some c) (hsig : S.sigma = some sigma) (hseed : S.seed = none) (hD : D.sampler = some S)
    (hell : Measurable fun u : (Fin d → ℝ) × (Fin k → ℝ) => lossAt w ell u.1 u.2) (B : Fin m → ℝ)
    (hB : ∀ i, ∀ᵐ u ∂(sampleLaw sigma (X i) (Y i)), lossAt w ell u.1 u.2 - D.lam * costAt D.cost (X i) u.1 (Y i) u.2 ≤ B i) {t δ σ : ℝ}
    (ht : 0 < t) (hδ : 0 < δ) (hσ : 0 < σ) (hs : ∀ i, σ ≤ (1 - Real.exp (-(t / D.epsilon))) *
      ∫ u, Real.exp ((lossAt w ell u.1 u.2 - D.lam * costAt D.cost (X i) u.1 (Y i) u.2 - B i) / D.epsilon) ∂(sampleLaw sigma (X i) (Y i)))
    (hn : 0 < D.nSamples) (hbig : Real.log (2 * m / δ) / (2 * σ ^ 2) ≤ D.nSamples) :
    1 - δ ≤ μ.real {ω | ∃ v D' g', postForward ext D (mat X) (some (mat Y)) true (gen ω) = .ok (.val v, D', g') ∧
      |v.get [] - population D.lam rho D.cost.power D.epsilon (lossAt w ell) (fun i z y => costAt D.cost (X i) z (Y i) y)
        (fun i => sampleLaw sigma (X i) (Y i))| < t} := by
  let phi : (Fin m → Fin d → ℝ) → Fin m → (Fin d → ℝ) × (Fin k → ℝ) := fun e i => (fun r => X i r + sigma * e i r, Y i)
  have hphi1 : ∀ i, Measurable fun e : Fin d → ℝ => ((fun r => X i r + sigma * e r, Y i) : (Fin d → ℝ) × (Fin k → ℝ)) := by
    intro i
    exact (measurable_pi_lambda _ fun r => ((measurable_pi_apply r).const_mul _).const_add _).prodMk measurable_const
  have hphi : Measurable phi := measurable_pi_lambda _ fun i => (hphi1 i).comp (measurable_pi_apply i)
  let Gm : Measure (Fin m → Fin d → ℝ) := Measure.pi fun _ => Measure.pi fun _ => gaussianReal 0 1
  let kap := Gm.map phi
  have : IsProbabilityMeasure kap := Measure.isProbabilityMeasure_map hphi.aemeasurable
  have hmarg : ∀ i, kap.map (fun u => u i) = sampleLaw sigma (X i) (Y i) := by
    intro i
    rw [Measure.map_map (measurable_pi_apply i) hphi]
    have : (fun u : Fin m → (Fin d → ℝ) × (Fin k → ℝ) => u i) ∘ phi =
        (fun e : Fin d → ℝ => ((fun r => X i r + sigma * e r, Y i) : (Fin d → ℝ) × (Fin k → ℝ))) ∘ (fun e => e i) := rfl
    rw [this, ← Measure.map_map (hphi1 i) (measurable_pi_apply i)]
    have he : Gm.map (fun e => e i) = Measure.pi fun _ : Fin d => gaussianReal 0 1 :=
      (measurePreserving_eval (fun _ : Fin m => Measure.pi fun _ : Fin d => gaussianReal 0 1) i).map_eq
    rw [he]
    rfl
  let n := D.nSamples
  let E : Ω → Fin n → Fin m → Fin d → ℝ := fun ω j i r => (ext.stdNormal (gen ω) [n, m, d]).1.get [j, i, r]
  let T : Ω → Fin n → Fin m → (Fin d → ℝ) × (Fin k → ℝ) := fun ω j => phi (E ω j)
  have hPhi : Measurable fun (e : Fin n → Fin m → Fin d → ℝ) j => phi (e j) :=
    measurable_pi_lambda _ fun j => hphi.comp (measurable_pi_apply j)
  have hT : Measurable T := hPhi.comp (hN n m d).1
  have hlaw : μ.map T = Measure.pi fun _ => kap := by
    have : T = (fun (e : Fin n → Fin m → Fin d → ℝ) j => phi (e j)) ∘ E := rfl
    rw [this, ← Measure.map_map hPhi (hN n m d).1, (hN n m d).2]
    exact Measure.pi_map_pi (fun _ => hphi.aemeasurable)
  have key := C113_enough ext (X := X) (Y := Y) (n := n) h hr hm hn μ kap T hT hlaw hell B (fun i => by rw [hmarg]; exact hB i) ht hδ hσ
    (fun i => by rw [hmarg]; exact hs i) hbig
  simp only [hmarg] at key
  set A := {ω | t ≤ |num (computeDual ext D (mat X) (some (mat Y)) (ten fun j i => (T ω j i).1) (some (ten fun j i => (T ω j i).2))) -
      population D.lam rho D.cost.power D.epsilon (lossAt w ell) (fun i z y => costAt D.cost (X i) z (Y i) y)
        (fun i => sampleLaw sigma (X i) (Y i))|} with hA
  have hsub : Aᶜ ⊆ {ω | ∃ v D' g', postForward ext D (mat X) (some (mat Y)) true (gen ω) = .ok (.val v, D', g') ∧
      |v.get [] - population D.lam rho D.cost.power D.epsilon (lossAt w ell) (fun i z y => costAt D.cost (X i) z (Y i) y)
        (fun i => sampleLaw sigma (X i) (Y i))| < t} := by
    intro ω hω
    simp only [hA, Set.mem_compl_iff, Set.mem_ofPred_eq, not_le] at hω ⊢
    obtain ⟨S', hS', hdraw⟩ := cost_sampler_draws ext hk hp hsg hkind hgen hsig hseed X Y (gen ω)
    obtain ⟨hz, y, hy, hY⟩ := hdraw n
    have hpl : Plain D (mat X) (some (mat Y)) (S'.sample ext D.nSamples (gen ω)).1 (S'.sample ext D.nSamples (gen ω)).2.1 rho
        (fun j i => lossAt w ell (T ω j i).1 (T ω j i).2) (fun j i => costAt D.cost (X i) (T ω j i).1 (Y i) (T ω j i).2) := by
      show Plain D (mat X) (some (mat Y)) (S'.sample ext n (gen ω)).1 (S'.sample ext n (gen ω)).2.1 rho _ _
      rw [hy]
      exact plain_of_labelled h hn hm (isMat_mat X) hz (isMat_mat Y) hY
    obtain ⟨v, D', hf, -, hv⟩ := C29_formula_postsampled ext hD hS' hpl hr
    have hval : v.get [] = num (computeDual ext D (mat X) (some (mat Y)) (ten fun j i => (T ω j i).1) (some (ten fun j i => (T ω j i).2))) := by
      rw [hv.2, num_samples ext h hr hm hn (T ω)]
      rfl
    exact ⟨v, D', _, hf, by rw [hval]; exact hω⟩
  refine le_trans ?_ (measureReal_mono hsub (measure_ne_top _ _))
  have h1 : (1 : ℝ) ≤ μ.real A + μ.real Aᶜ := by
    have := measureReal_union_le (μ := μ) A Aᶜ
    rw [Set.union_compl_self, probReal_univ] at this
    exact this
  linarith

end

/-! ### The hypotheses can be met: squared error, quadratic cost, multiplier 2 -/

theorem exSize_loss (x y : Fin 1 → ℝ) : lossAt exW (fun (x y : Fin 1 → ℝ) (c : Fin 1) => (x c - y c) ^ 2) x y = (x 0 - y 0) ^ 2 := by
  simp [lossAt, avg, ridge, exW]

/-- for every tolerance and probability of failure, some number of samples is large enough for a forward pass, and so are all larger ones -/
example {t δ : ℝ} (ht : 0 < t) (hδ : 0 < δ) : ∃ N : ℕ, ∀ n, N ≤ n →
    1 - δ ≤ bankLaw.real {ω | ∃ v D' g', postForward bankExt { exCons with lam := 2, nSamples := n } (mat exX) (some (mat fun i c => exX i c + 1))
      true ω = .ok (.val v, D', g') ∧
      |v.get [] - population 2 1 2 1 (lossAt exW fun (x y : Fin 1 → ℝ) (c : Fin 1) => (x c - y c) ^ 2)
        (fun i z y => costAt exCons.cost (exX i) z (fun c => exX i c + 1) y) (fun i => sampleLaw 1 (exX i) fun c => exX i c + 1)| < t} := by
  have hell : Measurable fun u : (Fin 1 → ℝ) × (Fin 1 → ℝ) => lossAt exW (fun (x y : Fin 1 → ℝ) (c : Fin 1) => (x c - y c) ^ 2) u.1 u.2 := by
    simp only [exSize_loss]
    exact (((measurable_pi_apply 0).comp measurable_fst).sub ((measurable_pi_apply 0).comp measurable_snd)).pow_const 2
  have hm0 : ∀ i, Measurable fun e : Fin 1 → ℝ => ((fun r => exX i r + 1 * e r, fun c => exX i c + 1) : (Fin 1 → ℝ) × (Fin 1 → ℝ)) := fun i =>
    (measurable_pi_lambda _ fun r => ((measurable_pi_apply r).const_mul _).const_add _).prodMk measurable_const
  have hpr : ∀ i, IsProbabilityMeasure (sampleLaw 1 (exX i) fun c => exX i c + 1) := fun i =>
    Measure.isProbabilityMeasure_map (hm0 i).aemeasurable
  have hc : ∀ i, Measurable fun u : (Fin 1 → ℝ) × (Fin 1 → ℝ) => costAt exCons.cost (exX i) u.1 (fun c => exX i c + 1) u.2 :=
    fun i => costAt_measurable exCons_labelled.cost _ _
  have hB : ∀ i, ∀ᵐ u ∂(sampleLaw 1 (exX i) fun c => exX i c + 1), lossAt exW (fun (x y : Fin 1 → ℝ) (c : Fin 1) => (x c - y c) ^ 2) u.1 u.2 -
      2 * costAt exCons.cost (exX i) u.1 (fun c => exX i c + 1) u.2 ≤ 2 := by
    intro i
    refine (ae_map_iff (hm0 i).aemeasurable (measurableSet_le (hell.sub ((hc i).const_mul _)) measurable_const)).2
      (Filter.Eventually.of_forall fun e => ?_)
    simp only [exSize_loss, exCons_cost, Pi.sub_apply]
    nlinarith [sq_nonneg (e 0 + 1)]
  let q : Fin 2 → ℝ := fun i => ∫ u, Real.exp ((lossAt exW (fun (x y : Fin 1 → ℝ) (c : Fin 1) => (x c - y c) ^ 2) u.1 u.2 -
      2 * costAt exCons.cost (exX i) u.1 (fun c => exX i c + 1) u.2 - 2) / 1) ∂(sampleLaw 1 (exX i) fun c => exX i c + 1)
  have hq : ∀ i, 0 < q i := by
    intro i
    refine integral_exp_pos (Integrable.of_mem_Icc 0 1 ?_ ?_)
    · exact (Real.measurable_exp.comp (((hell.sub ((hc i).const_mul _)).sub_const _).div_const _)).aemeasurable
    · filter_upwards [hB i] with u hu
      exact ⟨(Real.exp_pos _).le, Real.exp_le_one_iff.2 (by linarith)⟩
  have h1e : 0 < 1 - Real.exp (-(t / 1)) := by
    have : Real.exp (-(t / 1)) < 1 := Real.exp_lt_one_iff.2 (by linarith)
    linarith
  let σ := (1 - Real.exp (-(t / 1))) * min (q 0) (q 1)
  have hσ : 0 < σ := mul_pos h1e (lt_min (hq 0) (hq 1))
  have hσq : ∀ i, σ ≤ (1 - Real.exp (-(t / 1))) * q i := by
    intro i
    refine mul_le_mul_of_nonneg_left ?_ h1e.le
    fin_cases i
    · exact min_le_left _ _
    · exact min_le_right _ _
  refine ⟨max 1 ⌈Real.log (2 * (2 : ℕ) / δ) / (2 * σ ^ 2)⌉₊, fun n hn => ?_⟩
  exact C113_forward bankExt (D := { exCons with lam := 2, nSamples := n }) (w := exW) (ell := fun x y c => (x c - y c) ^ 2) (rho := 1)
    ⟨rfl, rfl, rfl, by norm_num, sqErr_rowWise, exCons_labelled.cost, rfl, by norm_num, by norm_num [exCons, exD], rfl, rfl⟩ rfl (by norm_num)
    bank_contract (c := ⟨.normCost, .fin 2, 2, .fin 0⟩) rfl (Or.inl ⟨rfl, Or.inr rfl⟩) (sigma := 1) one_pos rfl rfl rfl rfl rfl hell (fun _ => 2) hB ht hδ hσ
    hσq (lt_of_lt_of_le Nat.one_pos (le_trans (le_max_left _ _) hn)) (le_trans (Nat.le_ceil _) (by exact_mod_cast le_trans (le_max_right _ _) hn))

end Skwdro
