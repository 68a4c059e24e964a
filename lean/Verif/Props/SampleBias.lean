import Verif.Props.Consistency

/-! # C97: how the number of samples biases the robust loss -/

namespace Skwdro
open Spec Tensor MeasureTheory ProbabilityTheory

variable {G : Type} (ext : TorchExt G)

/-- Jensen's inequality for the logarithm -/
theorem integral_log_le {Ω : Type} [MeasurableSpace Ω] {μ : Measure Ω} [IsProbabilityMeasure μ] {A : Ω → ℝ} (hpos : ∀ ω, 0 < A ω)
    (hA : Integrable A μ) (hl : Integrable (fun ω => Real.log (A ω)) μ) : ∫ ω, Real.log (A ω) ∂μ ≤ Real.log (∫ ω, A ω ∂μ) := by
  set M := ∫ ω, A ω ∂μ with hM
  have hMpos : 0 < M := by
    rw [hM, integral_pos_iff_support_of_nonneg (fun ω => (hpos ω).le) hA]
    have : Function.support A = Set.univ := by ext ω; simp [(hpos ω).ne']
    rw [this]; simp
  have h1 : ∀ ω, Real.log (A ω) ≤ Real.log M + (A ω / M - 1) := by
    intro ω
    have := Real.log_le_sub_one_of_pos (div_pos (hpos ω) hMpos)
    rw [Real.log_div (hpos ω).ne' hMpos.ne'] at this
    linarith
  have h2 := integral_mono hl ((integrable_const _).add ((hA.div_const M).sub (integrable_const 1))) h1
  refine h2.trans (le_of_eq ?_)
  rw [integral_add' (integrable_const _) ((hA.div_const M).sub (integrable_const 1)), integral_sub' (hA.div_const M) (integrable_const 1),
    integral_div, ← hM, div_self hMpos.ne']
  simp

/-- the average of exponentials of integrable variables has an integrable logarithm -/
theorem integrable_log_avg_exp {Ω : Type} [MeasurableSpace Ω] {μ : Measure Ω} [IsProbabilityMeasure μ] {n : ℕ} (hn : 0 < n)
    {g : Fin n → Ω → ℝ} (hm : ∀ j, Measurable (g j)) (hg : ∀ j, Integrable (g j) μ) (he : ∀ j, Integrable (fun ω => Real.exp (g j ω)) μ) :
    Integrable (fun ω => Real.log (avg fun j => Real.exp (g j ω))) μ := by
  have hne : Nonempty (Fin n) := ⟨⟨0, hn⟩⟩
  have hnR : (0 : ℝ) < n := by exact_mod_cast hn
  have hA : Integrable (fun ω => avg fun j => Real.exp (g j ω)) μ := by
    unfold avg; exact (integrable_finsetSum _ fun j _ => he j).div_const _
  have hB : Integrable (fun ω => avg fun j => g j ω) μ := by
    unfold avg; exact (integrable_finsetSum _ fun j _ => hg j).div_const _
  have hmeas : Measurable fun ω => Real.log (avg fun j => Real.exp (g j ω)) := by
    unfold avg
    exact Real.measurable_log.comp ((Finset.measurable_fun_sum _ fun j _ => Real.measurable_exp.comp (hm j)).div_const _)
  refine (hA.abs.add hB.abs).mono' hmeas.aestronglyMeasurable (Filter.Eventually.of_forall fun ω => ?_)
  have hpos : 0 < avg fun j => Real.exp (g j ω) := by
    unfold avg; exact div_pos (Finset.sum_pos (fun j _ => Real.exp_pos _) Finset.univ_nonempty) hnR
  have hup : Real.log (avg fun j => Real.exp (g j ω)) ≤ avg fun j => Real.exp (g j ω) := by
    have := Real.log_le_sub_one_of_pos hpos; linarith
  have hlow : (avg fun j => g j ω) ≤ Real.log (avg fun j => Real.exp (g j ω)) := by
    have := avg_le_softmax hn one_pos (fun j => g j ω)
    simpa [softmax] using this
  simp only [Pi.add_apply, Real.norm_eq_abs]
  rw [abs_le]
  have := le_abs_self (avg fun j => Real.exp (g j ω))
  have := neg_abs_le (avg fun j => g j ω)
  have := abs_nonneg (avg fun j => g j ω)
  have := abs_nonneg (avg fun j => Real.exp (g j ω))
  constructor <;> linarith

/-- leaving one term out of an average, and averaging over the term left out, gives the average back; the logarithm is concave -/
theorem avg_log_leave_one_out {n : ℕ} (hn : 0 < n) {a : Fin (n + 1) → ℝ} (ha : ∀ j, 0 < a j) :
    avg (fun r : Fin (n + 1) => Real.log (avg fun j : Fin n => a (r.succAbove j))) ≤ Real.log (avg a) := by
  have hnR : (0 : ℝ) < n := by exact_mod_cast hn
  have hne : Nonempty (Fin n) := ⟨⟨0, hn⟩⟩
  have hpos : ∀ r : Fin (n + 1), 0 < avg fun j : Fin n => a (r.succAbove j) := fun r => by
    unfold avg; exact div_pos (Finset.sum_pos (fun j _ => ha _) Finset.univ_nonempty) hnR
  have h1 := avg_le_softmax (n := n + 1) (by omega) one_pos (fun r => Real.log (avg fun j : Fin n => a (r.succAbove j)))
  refine h1.trans (le_of_eq ?_)
  simp only [softmax, one_mul, div_one]
  congr 1
  simp only [Real.exp_log (hpos _)]
  have : ∀ r : Fin (n + 1), (avg fun j : Fin n => a (r.succAbove j)) = ((∑ j, a j) - a r) / n := by
    intro r
    rw [avg, Fin.sum_univ_succAbove a r]; ring
  simp only [this]
  unfold avg
  rw [← Finset.sum_div, Finset.sum_sub_distrib]
  simp
  field_simp
  ring

section
variable {m d k s : ℕ} {w : WLoss} {D : DualLoss} {ell : (Fin d → ℝ) → (Fin k → ℝ) → Fin s → ℝ} {rho : ℝ}
  {X : Fin m → Fin d → ℝ} {Y : Fin m → Fin k → ℝ}

/-- the expected value of the robust loss over `n` independent samples of law `kap` (one sample per data point at a time) -/
noncomputable def expectedLoss (D : DualLoss) (X : Fin m → Fin d → ℝ) (Y : Fin m → Fin k → ℝ)
    (kap : Measure (Fin m → (Fin d → ℝ) × (Fin k → ℝ))) (n : ℕ) : ℝ :=
  ∫ U : Fin n → Fin m → (Fin d → ℝ) × (Fin k → ℝ), num (computeDual ext D (mat X) (some (mat Y)) (ten fun j i => (U j i).1)
    (some (ten fun j i => (U j i).2))) ∂(Measure.pi fun _ => kap)

/-- the exponent of data point `i` -/
noncomputable def exponent (w : WLoss) (D : DualLoss) (ell : (Fin d → ℝ) → (Fin k → ℝ) → Fin s → ℝ) (X : Fin m → Fin d → ℝ)
    (Y : Fin m → Fin k → ℝ) (i : Fin m) (u : Fin m → (Fin d → ℝ) × (Fin k → ℝ)) : ℝ :=
  (lossAt w ell (u i).1 (u i).2 - D.lam * costAt D.cost (X i) (u i).1 (Y i) (u i).2) / D.epsilon

variable (h : Labelled w D ell rho) (hr : D.reduction = .mean) (hm : 0 < m) (kap : Measure (Fin m → (Fin d → ℝ) × (Fin k → ℝ)))
  [IsProbabilityMeasure kap] (hell : Measurable fun u : (Fin d → ℝ) × (Fin k → ℝ) => lossAt w ell u.1 u.2)
  (hlin : ∀ i, Integrable (exponent w D ell X Y i) kap) (hexp : ∀ i, Integrable (fun u => Real.exp (exponent w D ell X Y i u)) kap)

include h hell in
theorem exponent_measurable (i : Fin m) : Measurable (exponent w D ell X Y i) := by
  have hc := costAt_measurable h.cost (X i) (Y i)
  have he : Measurable fun u : Fin m → (Fin d → ℝ) × (Fin k → ℝ) => u i := measurable_pi_apply i
  exact ((hell.comp he).sub ((hc.comp he).const_mul _)).div_const _

include h hell hlin hexp in
theorem integrable_log_samples {n : ℕ} (hn : 0 < n) (i : Fin m) :
    Integrable (fun U : Fin n → Fin m → (Fin d → ℝ) × (Fin k → ℝ) => Real.log (avg fun j => Real.exp (exponent w D ell X Y i (U j))))
      (Measure.pi fun _ => kap) := by
  have hmp : ∀ j : Fin n, MeasurePreserving (fun U : Fin n → Fin m → (Fin d → ℝ) × (Fin k → ℝ) => U j) (Measure.pi fun _ => kap) kap :=
    fun j => measurePreserving_eval (fun _ : Fin n => kap) j
  have hem := exponent_measurable (X := X) (Y := Y) h hell i
  exact integrable_log_avg_exp hn (fun j => hem.comp (measurable_pi_apply j)) (fun j => (hmp j).integrable_comp_of_integrable (hlin i))
    (fun j => (hmp j).integrable_comp_of_integrable (hexp i))

include h hr hm hell hlin hexp in
theorem expectedLoss_eq {n : ℕ} (hn : 0 < n) : expectedLoss ext D X Y kap n = D.lam * rho ^ D.cost.power +
    avg (fun i => D.epsilon * ∫ U : Fin n → Fin m → (Fin d → ℝ) × (Fin k → ℝ),
      Real.log (avg fun j => Real.exp (exponent w D ell X Y i (U j))) ∂(Measure.pi fun _ => kap)) := by
  have e : ∀ U : Fin n → Fin m → (Fin d → ℝ) × (Fin k → ℝ), num (computeDual ext D (mat X) (some (mat Y)) (ten fun j i => (U j i).1)
      (some (ten fun j i => (U j i).2))) = D.lam * rho ^ D.cost.power +
      avg (fun i => D.epsilon * Real.log (avg fun j => Real.exp (exponent w D ell X Y i (U j)))) := fun U => num_samples ext h hr hm hn U
  have hi := fun i => integrable_log_samples (X := X) (Y := Y) h kap hell hlin hexp hn i
  unfold expectedLoss
  simp only [e]
  unfold avg at hi ⊢
  rw [integral_add (integrable_const _) ((integrable_finsetSum _ fun i _ => (hi i).const_mul _).div_const _), integral_div,
    integral_finsetSum _ fun i _ => (hi i).const_mul _]
  simp only [integral_const_mul, integral_const, probReal_univ, one_smul]

include h hr hm hell hlin hexp in
/-- **C97** On average over the samples, the robust loss never exceeds the robust objective with exact expectations, however many samples are
drawn. -/
theorem C97_underestimates {n : ℕ} (hn : 0 < n) : expectedLoss ext D X Y kap n ≤
    population D.lam rho D.cost.power D.epsilon (lossAt w ell) (fun i z y => costAt D.cost (X i) z (Y i) y) (fun i => kap.map fun u => u i) := by
  rw [expectedLoss_eq ext h hr hm kap hell hlin hexp hn]
  unfold population
  refine add_le_add_right (avg_mono fun i => mul_le_mul_of_nonneg_left ?_ h.eps_pos.le) _
  have hne : Nonempty (Fin n) := ⟨⟨0, hn⟩⟩
  have hnR : (0 : ℝ) < n := by exact_mod_cast hn
  have hmp : ∀ j : Fin n, MeasurePreserving (fun U : Fin n → Fin m → (Fin d → ℝ) × (Fin k → ℝ) => U j) (Measure.pi fun _ => kap) kap :=
    fun j => measurePreserving_eval (fun _ : Fin n => kap) j
  have hem := exponent_measurable (X := X) (Y := Y) h hell i
  have hj : ∀ j : Fin n, Integrable (fun U : Fin n → Fin m → (Fin d → ℝ) × (Fin k → ℝ) => Real.exp (exponent w D ell X Y i (U j)))
      (Measure.pi fun _ => kap) := fun j => (hmp j).integrable_comp_of_integrable (hexp i)
  have hA : Integrable (fun U : Fin n → Fin m → (Fin d → ℝ) × (Fin k → ℝ) => avg fun j => Real.exp (exponent w D ell X Y i (U j)))
      (Measure.pi fun _ => kap) := by
    unfold avg; exact (integrable_finsetSum _ fun j _ => hj j).div_const _
  refine (integral_log_le (fun U => ?_) hA (integrable_log_samples h kap hell hlin hexp hn i)).trans (le_of_eq ?_)
  · unfold avg; exact div_pos (Finset.sum_pos (fun j _ => Real.exp_pos _) Finset.univ_nonempty) hnR
  · congr 1
    unfold avg
    rw [integral_div, integral_finsetSum _ fun j _ => hj j]
    have e : ∀ j : Fin n, ∫ U : Fin n → Fin m → (Fin d → ℝ) × (Fin k → ℝ), Real.exp (exponent w D ell X Y i (U j)) ∂(Measure.pi fun _ => kap) =
        ∫ u, Real.exp (exponent w D ell X Y i u) ∂kap := by
      intro j
      have := (hmp j).map_eq
      conv_rhs => rw [← this]
      rw [integral_map (measurable_pi_apply j).aemeasurable (Real.measurable_exp.comp hem).aestronglyMeasurable]
    rw [Finset.sum_congr rfl fun j _ => e j]
    rw [integral_map (measurable_pi_apply i).aemeasurable]
    · simp only [Finset.sum_const, Finset.card_univ, Fintype.card_fin, nsmul_eq_mul]
      rw [mul_div_cancel_left₀ _ hnR.ne']
      rfl
    · have hc := costAt_measurable h.cost (X i) (Y i)
      exact (Real.measurable_exp.comp ((hell.sub (hc.const_mul _)).div_const _)).aestronglyMeasurable

include h hr hm hell hlin hexp in
theorem expectedLoss_succ {n : ℕ} (hn : 0 < n) : expectedLoss ext D X Y kap n ≤ expectedLoss ext D X Y kap (n + 1) := by
  rw [expectedLoss_eq ext h hr hm kap hell hlin hexp hn, expectedLoss_eq ext h hr hm kap hell hlin hexp (Nat.succ_pos n)]
  refine add_le_add_right (avg_mono fun i => mul_le_mul_of_nonneg_left ?_ h.eps_pos.le) _
  have hem := exponent_measurable (X := X) (Y := Y) h hell i
  have hH := integrable_log_samples (X := X) (Y := Y) h kap hell hlin hexp hn i
  have hmp : ∀ r : Fin (n + 1), MeasurePreserving (fun (U : Fin (n + 1) → Fin m → (Fin d → ℝ) × (Fin k → ℝ)) (j : Fin n) => U (r.succAbove j))
      (Measure.pi fun _ => kap) (Measure.pi fun _ => kap) := by
    intro r
    refine ⟨measurable_pi_lambda _ fun j => measurable_pi_apply _, ?_⟩
    have := Measure.map_infinitePi_infinitePi_of_inj (P := fun _ : Fin (n + 1) => kap) (f := r.succAbove) Fin.succAbove_right_injective
    rwa [Measure.infinitePi_eq_pi, Measure.infinitePi_eq_pi] at this
  have hHr : ∀ r : Fin (n + 1), Integrable (fun U : Fin (n + 1) → Fin m → (Fin d → ℝ) × (Fin k → ℝ) =>
      Real.log (avg fun j : Fin n => Real.exp (exponent w D ell X Y i (U (r.succAbove j))))) (Measure.pi fun _ => kap) :=
    fun r => (hmp r).integrable_comp_of_integrable hH
  have e : ∀ r : Fin (n + 1), ∫ U : Fin (n + 1) → Fin m → (Fin d → ℝ) × (Fin k → ℝ),
      Real.log (avg fun j : Fin n => Real.exp (exponent w D ell X Y i (U (r.succAbove j)))) ∂(Measure.pi fun _ => kap) =
      ∫ U : Fin n → Fin m → (Fin d → ℝ) × (Fin k → ℝ), Real.log (avg fun j => Real.exp (exponent w D ell X Y i (U j))) ∂(Measure.pi fun _ => kap) := by
    intro r
    conv_rhs => rw [← (hmp r).map_eq]
    rw [integral_map (hmp r).measurable.aemeasurable]
    rw [(hmp r).map_eq]
    exact hH.aestronglyMeasurable
  have hn1 : ((n : ℝ) + 1) ≠ 0 := by positivity
  calc ∫ U : Fin n → Fin m → (Fin d → ℝ) × (Fin k → ℝ), Real.log (avg fun j => Real.exp (exponent w D ell X Y i (U j))) ∂(Measure.pi fun _ => kap)
      = avg (fun r : Fin (n + 1) => ∫ U : Fin (n + 1) → Fin m → (Fin d → ℝ) × (Fin k → ℝ),
          Real.log (avg fun j : Fin n => Real.exp (exponent w D ell X Y i (U (r.succAbove j)))) ∂(Measure.pi fun _ => kap)) := by
        simp only [e]
        rw [avg]
        simp only [Finset.sum_const, Finset.card_univ, Fintype.card_fin, nsmul_eq_mul, Nat.cast_add, Nat.cast_one]
        rw [mul_div_cancel_left₀ _ hn1]
    _ = ∫ U : Fin (n + 1) → Fin m → (Fin d → ℝ) × (Fin k → ℝ), avg (fun r : Fin (n + 1) =>
          Real.log (avg fun j : Fin n => Real.exp (exponent w D ell X Y i (U (r.succAbove j))))) ∂(Measure.pi fun _ => kap) := by
        rw [avg, ← integral_finsetSum _ fun r _ => hHr r, ← integral_div]
        rfl
    _ ≤ _ := by
        refine integral_mono ?_ (integrable_log_samples h kap hell hlin hexp (Nat.succ_pos n) i) fun U => ?_
        · have := (integrable_finsetSum Finset.univ fun r _ => hHr r).div_const ((n + 1 : ℕ) : ℝ)
          exact this
        · exact avg_log_leave_one_out hn (a := fun j => Real.exp (exponent w D ell X Y i (U j))) fun j => Real.exp_pos _

include h hr hm hell hlin hexp in
/-- **C97** Drawing more samples never lowers the robust loss on average. -/
theorem C97_more_samples {n n' : ℕ} (hn : 0 < n) (hle : n ≤ n') : expectedLoss ext D X Y kap n ≤ expectedLoss ext D X Y kap n' := by
  induction n', hle using Nat.le_induction with
  | base => exact le_refl _
  | succ q hq ih => exact ih.trans (expectedLoss_succ ext h hr hm kap hell hlin hexp (hn.trans_le hq))

end
/-- squared error, Euclidean cost on the inputs, normal noise, labels one above the inputs: the hypotheses are met -/
example : expectedLoss ext exCons exX (fun i c => exX i c + 1) ((Measure.pi fun _ : Fin 2 => Measure.pi fun _ : Fin 1 => gaussianReal 0 1).map
      (fun e i => ((fun r => exX i r + e i r, fun c => exX i c + 1) : (Fin 1 → ℝ) × (Fin 1 → ℝ)))) 1 ≤
    expectedLoss ext exCons exX (fun i c => exX i c + 1) ((Measure.pi fun _ : Fin 2 => Measure.pi fun _ : Fin 1 => gaussianReal 0 1).map
      (fun e i => ((fun r => exX i r + e i r, fun c => exX i c + 1) : (Fin 1 → ℝ) × (Fin 1 → ℝ)))) 10 := by
  have hloss : ∀ x y : Fin 1 → ℝ, lossAt exW (fun (x y : Fin 1 → ℝ) (c : Fin 1) => (x c - y c) ^ 2) x y = (x 0 - y 0) ^ 2 := by
    intro x y; simp [lossAt, avg, ridge, exW]
  have hell : Measurable fun u : (Fin 1 → ℝ) × (Fin 1 → ℝ) => lossAt exW (fun (x y : Fin 1 → ℝ) (c : Fin 1) => (x c - y c) ^ 2) u.1 u.2 := by
    simp only [hloss]
    exact (((measurable_pi_apply 0).comp measurable_fst).sub ((measurable_pi_apply 0).comp measurable_snd)).pow_const 2
  have hphi : Measurable fun (e : Fin 2 → Fin 1 → ℝ) (i : Fin 2) => ((fun r => exX i r + e i r, fun c => exX i c + 1) : (Fin 1 → ℝ) × (Fin 1 → ℝ)) :=
    measurable_pi_lambda _ fun i => by
      have h1 : ∀ r : Fin 1, Measurable fun e : Fin 2 → Fin 1 → ℝ => exX i r + e i r := fun r =>
        Measurable.const_add ((measurable_pi_apply r).comp (measurable_pi_apply (X := fun _ : Fin 2 => Fin 1 → ℝ) i)) _
      exact (measurable_pi_lambda _ h1).prodMk measurable_const
  have := Measure.isProbabilityMeasure_map (μ := Measure.pi fun _ : Fin 2 => Measure.pi fun _ : Fin 1 => gaussianReal 0 1) hphi.aemeasurable
  have he : ∀ i : Fin 2, (exponent exW exCons (fun (x y : Fin 1 → ℝ) (c : Fin 1) => (x c - y c) ^ 2) exX (fun i c => exX i c + 1) i ∘
      fun (e : Fin 2 → Fin 1 → ℝ) (i : Fin 2) => ((fun r => exX i r + e i r, fun c => exX i c + 1) : (Fin 1 → ℝ) × (Fin 1 → ℝ))) =
      (fun t : ℝ => 1 + -2 * t) ∘ (fun e : Fin 1 → ℝ => e 0) ∘ fun e : Fin 2 → Fin 1 → ℝ => e i := by
    intro i
    funext e
    simp only [Function.comp, exponent, hloss, exCons_cost]
    simp only [exCons, exD]
    ring
  have hmp : ∀ i : Fin 2, MeasurePreserving ((fun e : Fin 1 → ℝ => e 0) ∘ fun e : Fin 2 → Fin 1 → ℝ => e i)
      (Measure.pi fun _ : Fin 2 => Measure.pi fun _ : Fin 1 => gaussianReal 0 1) (gaussianReal 0 1) := fun i =>
    (measurePreserving_eval (fun _ : Fin 1 => gaussianReal 0 1) 0).comp
      (measurePreserving_eval (fun _ : Fin 2 => Measure.pi fun _ : Fin 1 => gaussianReal 0 1) i)
  have hem := fun i => exponent_measurable (X := exX) (Y := fun i c => exX i c + 1) exCons_labelled hell i
  refine C97_more_samples ext exCons_labelled rfl (by norm_num) _ hell (fun i => ?_) (fun i => ?_) (by norm_num) (by norm_num)
  · rw [integrable_map_measure (hem i).aestronglyMeasurable hphi.aemeasurable, he]
    refine (hmp i).integrable_comp_of_integrable ?_
    exact (integrable_const _).add (((memLp_id_gaussianReal 1).integrable (by simp)).const_mul _)
  · refine (integrable_map_measure (Real.measurable_exp.comp (hem i)).aestronglyMeasurable hphi.aemeasurable).2 ?_
    have e2 : ((fun u => Real.exp (exponent exW exCons (fun (x y : Fin 1 → ℝ) (c : Fin 1) => (x c - y c) ^ 2) exX (fun i c => exX i c + 1) i u)) ∘
      fun (e : Fin 2 → Fin 1 → ℝ) (i : Fin 2) => ((fun r => exX i r + e i r, fun c => exX i c + 1) : (Fin 1 → ℝ) × (Fin 1 → ℝ))) =
        (fun t : ℝ => Real.exp 1 * Real.exp (-2 * t)) ∘ ((fun e : Fin 1 → ℝ => e 0) ∘ fun e : Fin 2 → Fin 1 → ℝ => e i) := by
      funext e
      have := congrFun (he i) e
      simp only [Function.comp] at this ⊢
      rw [this, Real.exp_add]
    refine (congrArg (fun f => Integrable f _) e2).mpr ?_
    exact (hmp i).integrable_comp_of_integrable ((integrable_exp_mul_gaussianReal (-2)).const_mul _)

end Skwdro
