import Verif.Spec.Draws
import Verif.Props.Dedicated
import Verif.Props.ImpConsistency
import Verif.Props.Threshold
import Verif.Props.WitSolvers
import Verif.Lemmas.MinLimit
import Mathlib.Algebra.Order.Chebyshev
import Mathlib.Probability.StrongLaw
import Mathlib.Analysis.InnerProductSpace.PiL2
import Mathlib.MeasureTheory.Function.L2Space

/-!
# More data (C136)

Fits of the dedicated solvers on the first `n` points of a sequence of independent draws of one law, as `n` grows.
-/

namespace Skwdro
open Spec Tensor MeasureTheory ProbabilityTheory Filter Topology

section
variable {Ω A : Type} [MeasurableSpace Ω] [MeasurableSpace A] {μ : Measure Ω} {nu : Measure A} {Z : ℕ → Ω → A}

theorem draws_average (h : DrawsOf μ nu Z) {F : A → ℝ} (hm : Measurable F) (hi : Integrable F nu) :
    ∀ᵐ ω ∂μ, Tendsto (fun n => avg fun i : Fin n => F (Z i ω)) atTop (𝓝 (∫ z, F z ∂nu)) := by
  have hlaw0 : ∫ u, F u ∂nu = ∫ ω, F (Z 0 ω) ∂μ := by
    rw [← h.law 0, integral_map (h.meas 0).aemeasurable hm.aestronglyMeasurable]
  rw [hlaw0]
  have := strong_law_ae_real (fun i ω => F (Z i ω)) (by
    have := hi
    rw [← h.law 0] at this
    exact this.comp_measurable (h.meas 0)) (fun i j hij => (h.indep hij).comp hm hm) (fun i => by
    have : IdentDistrib (Z i) (Z 0) μ μ := ⟨(h.meas i).aemeasurable, (h.meas 0).aemeasurable, by rw [h.law, h.law]⟩
    exact this.comp hm)
  filter_upwards [this] with ω hω
  have e : ∀ n : ℕ, (avg fun i : Fin n => F (Z i ω)) = (∑ i ∈ Finset.range n, F (Z i ω)) / n := fun n => avg_range (fun i => F (Z i ω))
  simpa only [e] using hω

theorem draws_probability [IsProbabilityMeasure μ] (h : DrawsOf μ nu Z) : IsProbabilityMeasure nu := by
  rw [← h.law 0]
  exact Measure.isProbabilityMeasure_map (h.meas 0).aemeasurable

end

section
variable {n d : ℕ}

theorem norm2_euclid (v : Fin d → ℝ) : norm2 v = ‖WithLp.toLp 2 v‖ := by
  rw [EuclideanSpace.norm_eq]
  unfold norm2
  simp

theorem norm2_sub_le (v v' : Fin d → ℝ) : |norm2 v - norm2 v'| ≤ norm2 (fun j => v j - v' j) := by
  rw [norm2_euclid, norm2_euclid, norm2_euclid]
  exact abs_norm_sub_norm_le _ _

theorem norm2_le_sum (v : Fin d → ℝ) : norm2 v ≤ ∑ j, |v j| := by
  unfold norm2
  rw [Real.sqrt_le_left (Finset.sum_nonneg fun _ _ => abs_nonneg _)]
  simp_rw [← sq_abs (v _)]
  exact Finset.sum_sq_le_sq_sum_of_nonneg fun _ _ => abs_nonneg _

theorem norm2_lipschitz (w w' : Fin d → ℝ) : |norm2 w - norm2 w'| ≤ d * dist w w' := by
  refine (norm2_sub_le w w').trans ((norm2_le_sum _).trans ?_)
  calc ∑ j, |w j - w' j| ≤ ∑ _j : Fin d, dist w w' := Finset.sum_le_sum fun j _ => by rw [← Real.dist_eq]; exact dist_le_pi_dist w w' j
    _ = d * dist w w' := by simp

theorem rms_norm2 (r : Fin n → ℝ) : Real.sqrt (avg fun i => r i ^ 2) = norm2 r / Real.sqrt n := by
  unfold avg norm2
  rw [Real.sqrt_div (Finset.sum_nonneg fun _ _ => sq_nonneg _)]

theorem rms_sub_le (r r' : Fin n → ℝ) :
    |Real.sqrt (avg fun i => r i ^ 2) - Real.sqrt (avg fun i => r' i ^ 2)| ≤ Real.sqrt (avg fun i => (r i - r' i) ^ 2) := by
  rw [rms_norm2, rms_norm2, rms_norm2 fun i => r i - r' i, ← sub_div, abs_div, abs_of_nonneg (Real.sqrt_nonneg (n : ℝ))]
  exact div_le_div_of_nonneg_right (norm2_sub_le r r') (Real.sqrt_nonneg _)

theorem avg_mono' {a b : Fin n → ℝ} (h : ∀ i, a i ≤ b i) : avg a ≤ avg b := by
  unfold avg
  exact div_le_div_of_nonneg_right (Finset.sum_le_sum fun i _ => h i) (by positivity)

/-- size of a row, with the constant feature -/
noncomputable def rowSize (x : Fin d → ℝ) : ℝ := ∑ j, |x j| + 1

theorem rowSize_pos (x : Fin d → ℝ) : 0 < rowSize x := by
  have : 0 ≤ ∑ j, |x j| := Finset.sum_nonneg fun _ _ => abs_nonneg _
  unfold rowSize; linarith

theorem linear_lipschitz (x w w' : Fin d → ℝ) (b b' : ℝ) :
    |(∑ j, x j * w j + b) - (∑ j, x j * w' j + b')| ≤ rowSize x * dist (w, b) (w', b') := by
  have h1 : dist w w' ≤ dist (w, b) (w', b') := by rw [Prod.dist_eq]; exact le_max_left _ _
  have h2 : |b - b'| ≤ dist (w, b) (w', b') := by rw [Prod.dist_eq, ← Real.dist_eq]; exact le_max_right _ _
  have e : (∑ j, x j * w j + b) - (∑ j, x j * w' j + b') = ∑ j, x j * (w j - w' j) + (b - b') := by
    simp only [mul_sub, Finset.sum_sub_distrib]; ring
  rw [e]
  have h3 : |∑ j, x j * (w j - w' j)| ≤ ∑ j, |x j| * dist (w, b) (w', b') := by
    refine (Finset.abs_sum_le_sum_abs _ _).trans (Finset.sum_le_sum fun j _ => ?_)
    rw [abs_mul]
    refine mul_le_mul_of_nonneg_left ?_ (abs_nonneg _)
    rw [← Real.dist_eq]
    exact (dist_le_pi_dist w w' j).trans h1
  rw [← Finset.sum_mul] at h3
  have := abs_add_le (∑ j, x j * (w j - w' j)) (b - b')
  unfold rowSize
  nlinarith

theorem rmse_lipschitz (X : Fin n → Fin d → ℝ) (y : Fin n → ℝ) (w w' : Fin d → ℝ) (b b' : ℝ) :
    |rmse X y w b - rmse X y w' b'| ≤ Real.sqrt (avg fun i => rowSize (X i) ^ 2) * dist (w, b) (w', b') := by
  unfold rmse
  refine (rms_sub_le _ _).trans ?_
  rw [← Real.sqrt_sq (dist_nonneg (x := (w, b)) (y := (w', b'))), ← Real.sqrt_mul (by
    unfold avg; exact div_nonneg (Finset.sum_nonneg fun _ _ => sq_nonneg _) (by positivity))]
  refine Real.sqrt_le_sqrt ?_
  have : (avg fun i => rowSize (X i) ^ 2) * dist (w, b) (w', b') ^ 2 = avg fun i => (rowSize (X i) * dist (w, b) (w', b')) ^ 2 := by
    unfold avg
    rw [div_mul_eq_mul_div, Finset.sum_mul]
    simp only [mul_pow]
  rw [this]
  refine avg_mono' fun i => ?_
  have h := linear_lipschitz (X i) w w' b b'
  rw [sub_sub_sub_cancel_right]
  rw [← sq_abs]
  exact pow_le_pow_left₀ (abs_nonneg _) h 2

end

section
variable {d : ℕ} {Ω : Type} [MeasurableSpace Ω] {μ : Measure Ω} [IsProbabilityMeasure μ] {nu : Measure ((Fin d → ℝ) × ℝ)}
  {Z : ℕ → Ω → (Fin d → ℝ) × ℝ}

/-- the worst-case error of a linear model when the inputs drawn from `nu` move: `(E (x.w + b - y)^2)^(1/2) + rho |w|` -/
noncomputable def robustRmse (nu : Measure ((Fin d → ℝ) × ℝ)) (rho : ℝ) (w : Fin d → ℝ) (b : ℝ) : ℝ := rmseUnder nu w b + rho * norm2 w

theorem memLp_row [IsProbabilityMeasure nu] (hx : ∀ j, Integrable (fun z => z.1 j ^ 2) nu) : MemLp (fun z : (Fin d → ℝ) × ℝ => rowSize z.1) 2 nu := by
  unfold rowSize
  refine MemLp.add (memLp_finsetSum _ fun j _ => ?_) (memLp_const 1)
  exact ((memLp_two_iff_integrable_sq (by fun_prop)).2 (hx j)).abs

theorem memLp_residual [IsProbabilityMeasure nu] (hx : ∀ j, Integrable (fun z => z.1 j ^ 2) nu) (hy : Integrable (fun z => z.2 ^ 2) nu)
    (w : Fin d → ℝ) (b : ℝ) : MemLp (fun z : (Fin d → ℝ) × ℝ => ∑ j, z.1 j * w j + b - z.2) 2 nu := by
  refine MemLp.sub (MemLp.add (memLp_finsetSum _ fun j _ => ?_) (memLp_const b)) ((memLp_two_iff_integrable_sq (by fun_prop)).2 hy)
  exact ((memLp_two_iff_integrable_sq (by fun_prop)).2 (hx j)).mul_const _

/-- the error on the sample converges to the error under the law -/
theorem rmse_limit (h : DrawsOf μ nu Z) (hx : ∀ j, Integrable (fun z => z.1 j ^ 2) nu) (hy : Integrable (fun z => z.2 ^ 2) nu)
    (w : Fin d → ℝ) (b : ℝ) :
    ∀ᵐ ω ∂μ, Tendsto (fun n => rmse (fun i : Fin n => (Z i ω).1) (fun i => (Z i ω).2) w b) atTop (𝓝 (rmseUnder nu w b)) := by
  have := draws_probability h
  filter_upwards [draws_average h (F := fun z => (∑ j, z.1 j * w j + b - z.2) ^ 2) (by fun_prop) (memLp_residual hx hy w b).integrable_sq] with ω hω
  exact (Real.continuous_sqrt.tendsto _).comp hω

/-- all the fits on growing parts of the sample that minimise the worst-case error have, under the law, worst-case errors converging to the
best possible -/
theorem linreg_minimisers (h : DrawsOf μ nu Z) (hx : ∀ j, Integrable (fun z => z.1 j ^ 2) nu) (hy : Integrable (fun z => z.2 ^ 2) nu)
    {rho : ℝ} (hr : 0 < rho) (ok : ℝ → Prop) (h0 : ok 0) :
    ∀ᵐ ω ∂μ, ∀ w : ℕ → Fin d → ℝ, ∀ b : ℕ → ℝ, (∀ n, 0 < n → ok (b n) ∧ ∀ w' b', ok b' →
        rmse (fun i : Fin n => (Z i ω).1) (fun i => (Z i ω).2) (w n) (b n) + rho * norm2 (w n) ≤
          rmse (fun i : Fin n => (Z i ω).1) (fun i => (Z i ω).2) w' b' + rho * norm2 w') →
      Tendsto (fun n => robustRmse nu rho (w n) (b n)) atTop (𝓝 (sInf {v | ∃ w' b', ok b' ∧ v = robustRmse nu rho w' b'})) ∧
      Tendsto (fun n => rmse (fun i : Fin n => (Z i ω).1) (fun i => (Z i ω).2) (w n) (b n) + rho * norm2 (w n)) atTop
        (𝓝 (sInf {v | ∃ w' b', ok b' ∧ v = robustRmse nu rho w' b'})) := by
  have hnu := draws_probability h
  obtain ⟨D, hDc, hDd⟩ := TopologicalSpace.exists_countable_dense ((Fin d → ℝ) × ℝ)
  set K : ℝ := Real.sqrt (∫ z, rowSize z.1 ^ 2 ∂nu) + 1 + rho * d with hK
  have hK0 : 0 ≤ K := by have := Real.sqrt_nonneg (∫ z, rowSize z.1 ^ 2 ∂nu); positivity
  have hrowm : Measurable fun z : (Fin d → ℝ) × ℝ => rowSize z.1 := by unfold rowSize; fun_prop
  have hsize := draws_average h (F := fun z => rowSize z.1 ^ 2) (hrowm.pow_const 2) (memLp_row hx).integrable_sq
  -- the sample errors are equi-Lipschitz
  have hlip : ∀ᵐ ω ∂μ, ∀ᶠ n in atTop, ∀ p q : (Fin d → ℝ) × ℝ,
      |(rmse (fun i : Fin n => (Z i ω).1) (fun i => (Z i ω).2) p.1 p.2 + rho * norm2 p.1) -
        (rmse (fun i : Fin n => (Z i ω).1) (fun i => (Z i ω).2) q.1 q.2 + rho * norm2 q.1)| ≤ K * dist p q := by
    filter_upwards [hsize] with ω hω
    have := (Real.continuous_sqrt.tendsto _).comp hω
    filter_upwards [this.eventually_le_const (lt_add_one _)] with n hn p q
    have a1 := abs_le.1 (rmse_lipschitz (fun i : Fin n => (Z i ω).1) (fun i => (Z i ω).2) p.1 q.1 p.2 q.2)
    have a2 := abs_le.1 (norm2_lipschitz p.1 q.1)
    have a3 : dist p.1 q.1 ≤ dist p q := by rw [Prod.dist_eq]; exact le_max_left _ _
    have a4 : Real.sqrt (avg fun i : Fin n => rowSize (Z i ω).1 ^ 2) * dist p q ≤ (Real.sqrt (∫ z, rowSize z.1 ^ 2 ∂nu) + 1) * dist p q :=
      mul_le_mul_of_nonneg_right hn dist_nonneg
    have a5 : rho * (d * dist p.1 q.1) ≤ rho * d * dist p q := by rw [← mul_assoc]; exact mul_le_mul_of_nonneg_left a3 (by positivity)
    have a6 : (dist (p.1, p.2) (q.1, q.2)) = dist p q := rfl
    rw [a6] at a1
    have a7 := mul_le_mul_of_nonneg_left a2.1 hr.le
    have a8 := mul_le_mul_of_nonneg_left a2.2 hr.le
    have e : K * dist p q = (Real.sqrt (∫ z, rowSize z.1 ^ 2 ∂nu) + 1) * dist p q + rho * d * dist p q := by rw [hK]; ring
    rw [e]
    exact abs_le.2 ⟨by nlinarith [a1.1], by nlinarith [a1.2]⟩
  -- so is the limit
  have hf : ∀ p q : (Fin d → ℝ) × ℝ, |robustRmse nu rho p.1 p.2 - robustRmse nu rho q.1 q.2| ≤ K * dist p q := by
    intro p q
    obtain ⟨ω, h1, h2, h3⟩ := ((rmse_limit h hx hy p.1 p.2).and ((rmse_limit h hx hy q.1 q.2).and hlip)).exists
    have := (((h1.add_const (rho * norm2 p.1)).sub (h2.add_const (rho * norm2 q.1))).abs)
    refine le_of_tendsto this ?_
    filter_upwards [h3] with n hn
    exact hn p q
  have hDlim : ∀ᵐ ω ∂μ, ∀ p ∈ D, Tendsto (fun n => rmse (fun i : Fin n => (Z i ω).1) (fun i => (Z i ω).2) p.1 p.2 + rho * norm2 p.1) atTop
      (𝓝 (robustRmse nu rho p.1 p.2)) := by
    rw [ae_ball_iff hDc]
    intro p _
    filter_upwards [rmse_limit h hx hy p.1 p.2] with ω hω
    exact hω.add_const _
  have hyabs := draws_average h (F := fun z => |z.2|) (by fun_prop) (((memLp_two_iff_integrable_sq (by fun_prop)).2 hy).abs.integrable (by norm_num))
  have hrow1 := draws_average h (F := fun z => rowSize z.1) hrowm ((memLp_row hx).integrable (by norm_num))
  filter_upwards [hlip, hDlim, rmse_limit h hx hy 0 0, hyabs, hrow1] with ω l1 l2 l3 l4 l5 w b hmin
  set F : ℕ → (Fin d → ℝ) × ℝ → ℝ := fun n p => rmse (fun i : Fin n => (Z i ω).1) (fun i => (Z i ω).2) p.1 p.2 + rho * norm2 p.1 with hF
  -- the minimisers stay bounded
  set C : ℝ := rmseUnder nu 0 0 + 1 with hC
  set R : ℝ := C / rho + C + ((∫ z, |z.2| ∂nu) + 1) + C / rho * ((∫ z, rowSize z.1 ∂nu) + 1) with hRdef
  have hbound : ∀ᶠ n in atTop, dist (w n, b n) ((0 : Fin d → ℝ), (0 : ℝ)) ≤ R := by
    filter_upwards [l3.eventually_le_const (lt_add_one _), l4.eventually_le_const (lt_add_one _), l5.eventually_le_const (lt_add_one _),
      eventually_gt_atTop 0] with n m1 m2 m3 hn
    have hn' : (0 : ℝ) < n := by exact_mod_cast hn
    obtain ⟨-, hm⟩ := hmin n hn
    have hm0 := hm 0 0 h0
    have hz : norm2 (0 : Fin d → ℝ) = 0 := (norm2_zero_iff _).2 rfl
    rw [hz, mul_zero, add_zero] at hm0
    have hm1 := hm0.trans m1
    have hrm := rmse_nonneg (fun i : Fin n => (Z i ω).1) (fun i => (Z i ω).2) (w n) (b n)
    have hnw : 0 ≤ norm2 (w n) := Real.sqrt_nonneg _
    have hw : norm2 (w n) ≤ C / rho := by rw [le_div_iff₀ hr]; nlinarith
    have hC0 : 0 ≤ C := by have := Real.sqrt_nonneg (∫ p : (Fin d → ℝ) × ℝ, (∑ j, p.1 j * (0 : Fin d → ℝ) j + 0 - p.2) ^ 2 ∂nu); unfold rmseUnder at hC; linarith
    have hCr : 0 ≤ C / rho := div_nonneg hC0 hr.le
    have hwj : ∀ j, |w n j| ≤ C / rho := by
      intro j
      refine le_trans ?_ hw
      unfold norm2
      rw [← Real.sqrt_sq_eq_abs]
      exact Real.sqrt_le_sqrt (Finset.single_le_sum (f := fun j => w n j ^ 2) (fun _ _ => sq_nonneg _) (Finset.mem_univ j))
    -- the mean residual is at most the error
    have hmean : (avg fun i : Fin n => |∑ j, (Z i ω).1 j * w n j + b n - (Z i ω).2|) ≤ C := by
      have hle : (avg fun i : Fin n => |∑ j, (Z i ω).1 j * w n j + b n - (Z i ω).2|) ≤ rmse (fun i : Fin n => (Z i ω).1) (fun i => (Z i ω).2) (w n) (b n) := by
        unfold rmse
        refine Real.le_sqrt_of_sq_le ?_
        unfold avg
        rw [div_pow, div_le_div_iff₀ (by positivity) hn']
        have := sq_sum_le_card_mul_sum_sq (s := (Finset.univ : Finset (Fin n))) (f := fun i => |∑ j, (Z i ω).1 j * w n j + b n - (Z i ω).2|)
        simp only [Finset.card_univ, Fintype.card_fin, sq_abs] at this
        nlinarith
      nlinarith
    have hb : |b n| ≤ C + ((∫ z, |z.2| ∂nu) + 1) + C / rho * ((∫ z, rowSize z.1 ∂nu) + 1) := by
      have e1 : |b n| = avg fun _ : Fin n => |b n| := by unfold avg; simp [hn'.ne']
      have e2 : (avg fun _ : Fin n => |b n|) ≤ avg fun i : Fin n => |∑ j, (Z i ω).1 j * w n j + b n - (Z i ω).2| + |(Z i ω).2| + C / rho * rowSize (Z i ω).1 := by
        refine avg_mono' fun i => ?_
        have t1 : |∑ j, (Z i ω).1 j * w n j| ≤ C / rho * rowSize (Z i ω).1 := by
          refine (Finset.abs_sum_le_sum_abs _ _).trans ?_
          have : ∑ j, |(Z i ω).1 j * w n j| ≤ ∑ j, |(Z i ω).1 j| * (C / rho) := Finset.sum_le_sum fun j _ => by
            rw [abs_mul]; exact mul_le_mul_of_nonneg_left (hwj j) (abs_nonneg _)
          rw [← Finset.sum_mul] at this
          unfold rowSize
          nlinarith
        have t2 : b n = (∑ j, (Z i ω).1 j * w n j + b n - (Z i ω).2) + (Z i ω).2 - ∑ j, (Z i ω).1 j * w n j := by ring
        have t3 := abs_sub ((∑ j, (Z i ω).1 j * w n j + b n - (Z i ω).2) + (Z i ω).2) (∑ j, (Z i ω).1 j * w n j)
        have t4 := abs_add_le (∑ j, (Z i ω).1 j * w n j + b n - (Z i ω).2) (Z i ω).2
        rw [← t2] at t3
        linarith
      have e3 : (avg fun i : Fin n => |∑ j, (Z i ω).1 j * w n j + b n - (Z i ω).2| + |(Z i ω).2| + C / rho * rowSize (Z i ω).1) =
          (avg fun i : Fin n => |∑ j, (Z i ω).1 j * w n j + b n - (Z i ω).2|) + (avg fun i : Fin n => |(Z i ω).2|) + C / rho * avg fun i : Fin n => rowSize (Z i ω).1 := by
        unfold avg
        rw [Finset.sum_add_distrib, Finset.sum_add_distrib, ← Finset.mul_sum]
        ring
      have e4 := mul_le_mul_of_nonneg_left m3 hCr
      linarith
    have hrow0 : 0 ≤ ∫ z, rowSize z.1 ∂nu := integral_nonneg fun z => (rowSize_pos z.1).le
    have hy0 : 0 ≤ ∫ z, |z.2| ∂nu := integral_nonneg fun z => abs_nonneg _
    rw [Prod.dist_eq]
    refine max_le ?_ ?_
    · rw [dist_pi_le_iff (by positivity)]
      intro j
      rw [Real.dist_eq]
      simp only [Pi.zero_apply, sub_zero]
      have := hwj j
      have := mul_nonneg hCr hrow0
      nlinarith
    · rw [Real.dist_eq, sub_zero]
      linarith
  have hS : ({v | ∃ w' b', ok b' ∧ v = robustRmse nu rho w' b'} : Set ℝ) =
      (fun p : (Fin d → ℝ) × ℝ => robustRmse nu rho p.1 p.2) '' {p | ok p.2} := by
    ext v
    constructor
    · rintro ⟨w', b', hb', rfl⟩; exact ⟨(w', b'), hb', rfl⟩
    · rintro ⟨p, hp, rfl⟩; exact ⟨p.1, p.2, hp, rfl⟩
  rw [hS]
  refine minimisers_converge (F := F) (f := fun p : (Fin d → ℝ) × ℝ => robustRmse nu rho p.1 p.2) (x := fun n => (w n, b n)) hK0 l1 hf hDd l2
    (S := {p | ok p.2}) ⟨(0, 0), h0⟩ ⟨0, ?_⟩ ?_ hbound
  · rintro _ ⟨p, -, rfl⟩
    have h1 : 0 ≤ rmseUnder nu p.1 p.2 := Real.sqrt_nonneg _
    have h2 : 0 ≤ norm2 p.1 := Real.sqrt_nonneg _
    show 0 ≤ robustRmse nu rho p.1 p.2
    unfold robustRmse
    positivity
  · filter_upwards [eventually_gt_atTop 0] with n hn
    exact ⟨(hmin n hn).1, fun p hp => (hmin n hn).2 p.1 p.2 hp⟩

/-- moving the inputs of a law by a mean square of at most `rho^2` increases the error to at most `robustRmse`, which some move reaches -/
theorem robustRmse_greatest [IsProbabilityMeasure nu] (hx : ∀ j, Integrable (fun z => z.1 j ^ 2) nu) (hy : Integrable (fun z => z.2 ^ 2) nu)
    {rho : ℝ} (hr : 0 ≤ rho) (w : Fin d → ℝ) (b : ℝ) :
    IsGreatest {e | ∃ Q ∈ MovedInputs nu rho, e = rmseUnder Q w b} (robustRmse nu rho w b) := by
  have hw := l2norm_nonneg w
  have hR0 : 0 ≤ rmseUnder nu w b := Real.sqrt_nonneg _
  have hRs : rmseUnder nu w b ^ 2 = ∫ z, (∑ j, z.1 j * w j + b - z.2) ^ 2 ∂nu := Real.sq_sqrt (integral_nonneg fun _ => sq_nonneg _)
  have hri := (memLp_residual hx hy w b).integrable_sq
  constructor
  · -- a move along `w`, of size `c z`
    have build : ∀ c : (Fin d → ℝ) × ℝ → ℝ, _root_.Measurable c → Integrable (fun z => c z ^ 2) nu → (∫ z, c z ^ 2 ∂nu) * norm2 w ^ 2 ≤ rho ^ 2 →
        ∫ z, (∑ j, z.1 j * w j + b - z.2 + c z * norm2 w ^ 2) ^ 2 ∂nu = robustRmse nu rho w b ^ 2 →
        ∃ Q ∈ MovedInputs nu rho, robustRmse nu rho w b = rmseUnder Q w b := by
      intro c hcm hci hc1 hc2
      set T : (Fin d → ℝ) × ℝ → (Fin d → ℝ) × ℝ := fun z => (fun j => z.1 j + c z * w j, z.2) with hT
      have hTm : _root_.Measurable T := by
        refine _root_.Measurable.prodMk (measurable_pi_iff.2 fun j => ?_) measurable_snd
        exact ((measurable_pi_apply j).comp measurable_fst).add (hcm.mul_const _)
      have hpair : _root_.Measurable fun z => (z, T z) := measurable_id.prodMk hTm
      have hdist : ∀ z, dist2 z.1 (T z).1 ^ 2 = c z ^ 2 * norm2 w ^ 2 := by
        intro z
        rw [dist2_sq, l2norm_sq, Finset.mul_sum]
        exact Finset.sum_congr rfl fun j _ => by simp only [hT]; ring
      have hdm : _root_.Measurable fun p : ((Fin d → ℝ) × ℝ) × ((Fin d → ℝ) × ℝ) => dist2 p.1.1 p.2.1 ^ 2 := by
        simp only [dist2_sq]; fun_prop
      refine ⟨nu.map T, ⟨nu.map fun z => (z, T z), ?_, ?_, ?_, ?_, ?_⟩, ?_⟩
      · rw [Measure.map_map measurable_fst hpair]; exact Measure.map_id
      · rw [Measure.map_map measurable_snd hpair]; rfl
      · rw [ae_map_iff hpair.aemeasurable (measurableSet_eq_fun (by fun_prop) (by fun_prop))]
        exact ae_of_all _ fun z => rfl
      · rw [integrable_map_measure hdm.aestronglyMeasurable hpair.aemeasurable]
        have : ((fun p : ((Fin d → ℝ) × ℝ) × ((Fin d → ℝ) × ℝ) => dist2 p.1.1 p.2.1 ^ 2) ∘ fun z => (z, T z)) = fun z => c z ^ 2 * norm2 w ^ 2 := by
          funext z; exact hdist z
        rw [this]
        exact hci.mul_const _
      · rw [integral_map hpair.aemeasurable hdm.aestronglyMeasurable]
        simp only [hdist]
        rw [integral_mul_const]
        exact hc1
      · unfold rmseUnder
        rw [integral_map hTm.aemeasurable (resid_measurable w b).aestronglyMeasurable]
        have : ∀ z : (Fin d → ℝ) × ℝ, ∑ j, (T z).1 j * w j + b - (T z).2 = ∑ j, z.1 j * w j + b - z.2 + c z * norm2 w ^ 2 := by
          intro z
          rw [l2norm_sq, Finset.mul_sum]
          simp only [hT, add_mul, Finset.sum_add_distrib]
          have : ∑ j, c z * w j * w j = ∑ j, c z * w j ^ 2 := Finset.sum_congr rfl fun j _ => by ring
          rw [this]; ring
        simp only [this]
        rw [hc2, Real.sqrt_sq (by unfold robustRmse; positivity)]
    rcases hw.eq_or_lt with hz | hpos
    · refine build (fun _ => 0) measurable_const (by simp) (by simp; positivity) ?_
      simp only [zero_mul, add_zero]
      unfold robustRmse
      rw [← hz, mul_zero, add_zero, hRs]
    · rcases hR0.eq_or_lt with hz | hRpos
      · have h0 : ∫ z, (∑ j, z.1 j * w j + b - z.2) ^ 2 ∂nu = 0 := by rw [← hRs, ← hz]; simp
        have hae := (integral_eq_zero_iff_of_nonneg (fun _ => sq_nonneg _) hri).1 h0
        refine build (fun _ => rho / norm2 w) measurable_const (integrable_const _) (by simp; rw [div_pow, div_mul_cancel₀ _ (by positivity)]) ?_
        have : ∫ z, (∑ j, z.1 j * w j + b - z.2 + rho / norm2 w * norm2 w ^ 2) ^ 2 ∂nu = ∫ _z, (rho * norm2 w) ^ 2 ∂nu := by
          refine integral_congr_ae ?_
          filter_upwards [hae] with z hz0
          have : ∑ j, z.1 j * w j + b - z.2 = 0 := by simpa using hz0
          rw [this, zero_add]
          congr 1
          field_simp
        rw [this]
        unfold robustRmse
        simp [← hz]
      · set R := rmseUnder nu w b with hR
        refine build (fun z => rho / (R * norm2 w) * (∑ j, z.1 j * w j + b - z.2)) (by fun_prop) ?_ ?_ ?_
        · simp only [mul_pow]; exact hri.const_mul _
        · simp only [mul_pow]
          rw [integral_const_mul, ← hRs]
          refine le_of_eq ?_
          field_simp
        · have : ∀ z : (Fin d → ℝ) × ℝ, (∑ j, z.1 j * w j + b - z.2 + rho / (R * norm2 w) * (∑ j, z.1 j * w j + b - z.2) * norm2 w ^ 2) ^ 2 =
              ((R + rho * norm2 w) / R) ^ 2 * (∑ j, z.1 j * w j + b - z.2) ^ 2 := by
            intro z
            generalize ∑ j, z.1 j * w j + b - z.2 = e
            field_simp
          simp only [this]
          rw [integral_const_mul, ← hRs]
          unfold robustRmse
          rw [← hR]
          field_simp
  · rintro _ ⟨Q, ⟨π, hfst, rfl, hlab, hci, hc⟩, rfl⟩
    have hri' : Integrable (fun p : ((Fin d → ℝ) × ℝ) × ((Fin d → ℝ) × ℝ) => (∑ j, p.1.1 j * w j + b - p.1.2) ^ 2) π := by
      have := hri
      rw [← hfst] at this
      exact this.comp_measurable measurable_fst
    have hRs' : rmseUnder nu w b ^ 2 = ∫ p, (∑ j, p.1.1 j * w j + b - p.1.2) ^ 2 ∂π := by
      rw [hRs, ← hfst, integral_map measurable_fst.aemeasurable (resid_measurable w b).aestronglyMeasurable]
    unfold rmseUnder robustRmse
    rw [integral_map measurable_snd.aemeasurable (resid_measurable w b).aestronglyMeasurable]
    apply Real.sqrt_le_iff.2 ⟨by positivity, ?_⟩
    rw [add_comm]
    refine sq_add_bound (by positivity) hR0 fun t ht => ?_
    have hle : ∀ᵐ p ∂π, (∑ j, p.2.1 j * w j + b - p.2.2) ^ 2 ≤ (1 + t) * (∑ j, p.1.1 j * w j + b - p.1.2) ^ 2 + (1 + 1 / t) * norm2 w ^ 2 * dist2 p.1.1 p.2.1 ^ 2 := by
      filter_upwards [hlab] with p hp
      rw [hp]
      set r := ∑ j, p.1.1 j * w j + b - p.1.2 with hr
      have hd : ∑ j, p.2.1 j * w j + b - p.1.2 = r + ∑ j, (p.2.1 j - p.1.1 j) * w j := by
        simp only [sub_mul, Finset.sum_sub_distrib, hr]; ring
      rw [hd]
      have hcs := cs2 p.1.1 p.2.1 w
      generalize ∑ j, (p.2.1 j - p.1.1 j) * w j = e at hcs
      have he : e ^ 2 ≤ (dist2 p.1.1 p.2.1 * norm2 w) ^ 2 := by
        rw [← sq_abs]; exact pow_le_pow_left₀ (abs_nonneg _) hcs 2
      have h1 : (r + e) ^ 2 ≤ (1 + t) * r ^ 2 + (1 + 1 / t) * e ^ 2 := by
        have : (1 + t) * r ^ 2 + (1 + 1 / t) * e ^ 2 - (r + e) ^ 2 = (t * r - e) ^ 2 / t := by field_simp; ring
        have := this ▸ (div_nonneg (sq_nonneg (t * r - e)) ht.le)
        linarith
      have h2 := mul_le_mul_of_nonneg_left he (by positivity : 0 ≤ 1 + 1 / t)
      calc _ ≤ _ := h1
        _ ≤ (1 + t) * r ^ 2 + (1 + 1 / t) * (dist2 p.1.1 p.2.1 * norm2 w) ^ 2 := by linarith
        _ = _ := by ring
    have hI : Integrable (fun p : ((Fin d → ℝ) × ℝ) × ((Fin d → ℝ) × ℝ) => (1 + t) * (∑ j, p.1.1 j * w j + b - p.1.2) ^ 2 + (1 + 1 / t) * norm2 w ^ 2 * dist2 p.1.1 p.2.1 ^ 2) π :=
      (hri'.const_mul _).add (hci.const_mul _)
    have hmono := integral_mono_of_nonneg (ae_of_all _ fun _ => sq_nonneg _) hI hle
    rw [integral_add (hri'.const_mul _) (hci.const_mul _), integral_const_mul, integral_const_mul, ← hRs'] at hmono
    have := mul_le_mul_of_nonneg_left hc (by positivity : 0 ≤ (1 + 1 / t) * norm2 w ^ 2)
    refine hmono.trans ?_
    rw [mul_pow]
    linarith

/-- **C136** Linear regression with `solver="dedicated"`, fitted on the first `n` points of a sequence of pairwise independent draws of a law
with finite second moments: with probability one, as `n` grows, the worst-case error of the stored model when the inputs drawn from the law
move by a mean square of at most `rho^2` converges to the best such error over all the linear models, and so does the worst-case error
reached on the data. -/
theorem C136_linreg {G : Type} {ext : TorchExt G} {solve : Oracle} {P : EstParams} {g : G} (hs : ExactSolver solve) {grads : Autograd d}
    {train : Trainer d} {init : LinInit d} (hP : P.solver = "dedicated".toList)
    (hc : ∃ c, cost_from_str P.cost = .ok c) {rho : ℝ} (hR : P.rho = .num rho) (hr : 0 < rho) (hd : 0 < d)
    (h : DrawsOf μ nu Z) (hx : ∀ j, Integrable (fun z => z.1 j ^ 2) nu) (hy : Integrable (fun z => z.2 ^ 2) nu) :
    ∃ best : ℝ, IsGLB {M | ∃ w' b', (P.fit_intercept = false → b' = 0) ∧ ∀ Q ∈ MovedInputs nu rho, rmseUnder Q w' b' ≤ M} best ∧
    ∀ᵐ ω ∂μ, ∃ (w : ℕ → Fin d → ℝ) (b V V' : ℕ → ℝ), (∀ n, 0 < n →
        (∃ f wT bT, linregFit ext grads solve train init P (fun i : Fin n => (Z i ω).1) (fun i => (Z i ω).2) g = .ok f ∧
          f.coef = some wT ∧ IsVec wT (w n) ∧ f.intercept = some bT ∧ IsVec bT (fun _ : Fin 1 => b n)) ∧
        IsGreatest {e | ∃ Q ∈ InputBall (fun i : Fin n => (Z i ω).1) (fun i => (Z i ω).2) rho, e = rmseUnder Q (w n) (b n)} (V n)) ∧
      (∀ n, IsGreatest {e | ∃ Q ∈ MovedInputs nu rho, e = rmseUnder Q (w n) (b n)} (V' n)) ∧
      Tendsto V atTop (𝓝 best) ∧ Tendsto V' atTop (𝓝 best) := by
  have hnu := draws_probability h
  have hg := fun w b => robustRmse_greatest hx hy hr.le w b
  have hpos : ∀ w b, 0 ≤ robustRmse nu rho w b := fun w b => by
    have h1 : 0 ≤ rmseUnder nu w b := Real.sqrt_nonneg _
    have h2 : 0 ≤ norm2 w := Real.sqrt_nonneg _
    unfold robustRmse; positivity
  refine ⟨sInf {v | ∃ w' b', (P.fit_intercept = false → b' = 0) ∧ v = robustRmse nu rho w' b'}, ⟨?_, ?_⟩, ?_⟩
  · rintro M ⟨w', b', hb', hM⟩
    obtain ⟨Q, hQ, e⟩ := (hg w' b').1
    have hb : BddBelow {v | ∃ w' b', (P.fit_intercept = false → b' = 0) ∧ v = robustRmse nu rho w' b'} :=
      ⟨0, by rintro _ ⟨w, b, -, rfl⟩; exact hpos w b⟩
    exact (csInf_le hb ⟨w', b', hb', rfl⟩).trans (e ▸ hM Q hQ)
  · intro m hm
    refine le_csInf ⟨_, 0, 0, fun _ => rfl, rfl⟩ ?_
    rintro _ ⟨w', b', hb', rfl⟩
    exact hm ⟨w', b', hb', fun Q hQ => (hg w' b').2 ⟨Q, hQ, rfl⟩⟩
  · filter_upwards [linreg_minimisers h hx hy hr (fun b => P.fit_intercept = false → b = 0) fun _ => rfl] with ω hω
    have key : ∀ n, ∃ (w : Fin d → ℝ) (b : ℝ), 0 < n →
        (∃ f wT bT, linregFit ext grads solve train init P (fun i : Fin n => (Z i ω).1) (fun i => (Z i ω).2) g = .ok f ∧
          f.coef = some wT ∧ IsVec wT w ∧ f.intercept = some bT ∧ IsVec bT (fun _ : Fin 1 => b)) ∧
        (P.fit_intercept = false → b = 0) ∧ ∀ w' b', (P.fit_intercept = false → b' = 0) →
        rmse (fun i : Fin n => (Z i ω).1) (fun i => (Z i ω).2) w b + rho * norm2 w ≤
          rmse (fun i : Fin n => (Z i ω).1) (fun i => (Z i ω).2) w' b' + rho * norm2 w' := by
      intro n
      by_cases hn : 0 < n
      · obtain ⟨f, wT, bT, w, b, h1, h2, h3, h4, h5, h6, h7⟩ := C94_linreg (ext := ext) (g := g) hs (grads := grads) (train := train)
          (init := init) hP hc hR hr hn hd (fun i : Fin n => (Z i ω).1) (fun i => (Z i ω).2)
        refine ⟨w, b, fun _ => ⟨⟨f, wT, bT, h1, h2, h3, h4, h5⟩, h6, fun w' b' hb' => ?_⟩⟩
        have a1 := (C61_worst_case hn hr.le (fun i : Fin n => (Z i ω).1) (fun i => (Z i ω).2) P.fit_intercept w b).1
        have a2 := (C61_worst_case hn hr.le (fun i : Fin n => (Z i ω).1) (fun i => (Z i ω).2) P.fit_intercept w' b').1
        rw [linreg_objective] at a1 a2
        obtain ⟨Q, hQ, e⟩ := a1.1
        rw [e]
        exact h7 w' b' hb' _ (fun Q' hQ' => a2.2 ⟨Q', hQ', rfl⟩) Q hQ
      · exact ⟨0, 0, fun h => absurd h hn⟩
    choose w b hwb using key
    obtain ⟨t1, t2⟩ := hω w b fun n hn => (hwb n hn).2
    refine ⟨w, b, _, _, fun n hn => ⟨(hwb n hn).1, ?_⟩, fun n => hg (w n) (b n), t2, t1⟩
    have := (C61_worst_case hn hr.le (fun i : Fin n => (Z i ω).1) (fun i => (Z i ω).2) P.fit_intercept (w n) (b n)).1
    rw [linreg_objective] at this
    exact this

end
end Skwdro
