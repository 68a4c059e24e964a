import Verif.Props.MoreData
import Verif.Props.Logistic
import Verif.Lemmas.MixPlan

/-!
# More data for logistic regression (C136)
-/

namespace Skwdro
open Spec Tensor MeasureTheory ProbabilityTheory Filter Topology

section
variable {d : ℕ}

/-- margin of a labelled point -/
noncomputable def margin (w : Fin d → ℝ) (b : ℝ) (z : (Fin d → ℝ) × ℝ) : ℝ := z.2 * Spec.score w (some b) z.1

/-- the smallest bound of the loss at the point, minus `lam` times the cost of reaching another point, for `lam` at least the norm of `w` -/
noncomputable def dualLog (kappa : ℝ) (w : Fin d → ℝ) (b lam : ℝ) (z : (Fin d → ℝ) × ℝ) : ℝ :=
  max (cpLogistic (margin w b z) - kappa * lam) (cpLogistic (-margin w b z))

theorem margin_measurable (w : Fin d → ℝ) (b : ℝ) : _root_.Measurable (margin w b) := by unfold margin Spec.score; fun_prop

theorem dualLog_measurable (kappa : ℝ) (w : Fin d → ℝ) (b lam : ℝ) : _root_.Measurable (dualLog kappa w b lam) := by
  have h := cpLogistic_continuous.measurable
  have hm := margin_measurable w b
  exact ((h.comp hm).sub_const _).max (h.comp hm.neg)

theorem dualLog_pos (kappa : ℝ) (w : Fin d → ℝ) (b lam : ℝ) (z : (Fin d → ℝ) × ℝ) : 0 < dualLog kappa w b lam z :=
  lt_max_of_lt_right (cpLogistic_pos _)

theorem margin_lipschitz {z : (Fin d → ℝ) × ℝ} (hz : z.2 = 1 ∨ z.2 = -1) (w w' : Fin d → ℝ) (b b' : ℝ) :
    |margin w b z - margin w' b' z| ≤ rowSize z.1 * dist (w, b) (w', b') := by
  have h := linear_lipschitz z.1 w w' b b'
  have e : ∀ (w : Fin d → ℝ) (b : ℝ), Spec.score w (some b) z.1 = ∑ j, z.1 j * w j + b := fun w b => by
    unfold Spec.score; simp only [Option.getD_some, mul_comm]
  unfold margin
  rw [← mul_sub, abs_mul, e, e]
  rcases hz with h' | h' <;> rw [h'] <;> simpa using h

theorem cpLogistic_lip_abs (x y : ℝ) : |cpLogistic x - cpLogistic y| ≤ |x - y| := by
  have h1 := cpLogistic_lip x y
  have h2 := cpLogistic_lip y x
  rw [abs_sub_comm] at h1
  exact abs_le.2 ⟨by linarith, by linarith⟩

theorem dualLog_lipschitz {kappa : ℝ} (hk : 0 ≤ kappa) {z : (Fin d → ℝ) × ℝ} (hz : z.2 = 1 ∨ z.2 = -1) (p q : ((Fin d → ℝ) × ℝ) × ℝ) :
    |dualLog kappa p.1.1 p.1.2 p.2 z - dualLog kappa q.1.1 q.1.2 q.2 z| ≤ (rowSize z.1 + kappa) * dist p q := by
  have h1 : dist p.1 q.1 ≤ dist p q := by rw [Prod.dist_eq (x := p)]; exact le_max_left _ _
  have h2 : |p.2 - q.2| ≤ dist p q := by rw [Prod.dist_eq (x := p), ← Real.dist_eq]; exact le_max_right _ _
  have hm := margin_lipschitz hz p.1.1 q.1.1 p.1.2 q.1.2
  have hm' : |margin p.1.1 p.1.2 z - margin q.1.1 q.1.2 z| ≤ rowSize z.1 * dist p q :=
    hm.trans (mul_le_mul_of_nonneg_left h1 (rowSize_pos _).le)
  have hD : 0 ≤ dist p q := dist_nonneg
  have a1 := cpLogistic_lip_abs (margin p.1.1 p.1.2 z) (margin q.1.1 q.1.2 z)
  have a2 := cpLogistic_lip_abs (-margin p.1.1 p.1.2 z) (-margin q.1.1 q.1.2 z)
  have e2 : |-margin p.1.1 p.1.2 z - -margin q.1.1 q.1.2 z| = |margin p.1.1 p.1.2 z - margin q.1.1 q.1.2 z| := by rw [← abs_neg]; ring_nf
  rw [e2] at a2
  unfold dualLog
  refine (abs_max_sub_max_le_max _ _ _ _).trans (max_le ?_ ?_)
  · have e : cpLogistic (margin p.1.1 p.1.2 z) - kappa * p.2 - (cpLogistic (margin q.1.1 q.1.2 z) - kappa * q.2) =
        (cpLogistic (margin p.1.1 p.1.2 z) - cpLogistic (margin q.1.1 q.1.2 z)) - kappa * (p.2 - q.2) := by ring
    rw [e]
    have := abs_sub (cpLogistic (margin p.1.1 p.1.2 z) - cpLogistic (margin q.1.1 q.1.2 z)) (kappa * (p.2 - q.2))
    rw [abs_mul, abs_of_nonneg hk] at this
    have := mul_le_mul_of_nonneg_left h2 hk
    linarith
  · have := mul_nonneg hk hD
    linarith

theorem dualLog_at_zero (kappa : ℝ) (z : (Fin d → ℝ) × ℝ) : dualLog kappa 0 0 0 z = Real.log 2 := by
  simp [dualLog, margin, Spec.score, cpLogistic]
  norm_num

/-- value, on a sample, of the program solved -/
noncomputable def dualSample {n : ℕ} (kappa rho : ℝ) (Z : Fin n → (Fin d → ℝ) × ℝ) (w : Fin d → ℝ) (b lam : ℝ) : ℝ :=
  lam * rho + avg fun i => dualLog kappa w b lam (Z i)

theorem dualSample_feasible {n : ℕ} {kappa : ℝ} (Z : Fin n → (Fin d → ℝ) × ℝ) {w : Fin d → ℝ} {b lam : ℝ} (h : norm2 w ≤ lam) :
    LogFeas kappa (fun i => (Z i).1) (fun i => (Z i).2) w b lam fun i => dualLog kappa w b lam (Z i) :=
  ⟨h, fun _ => ⟨le_max_left _ _, le_max_right _ _⟩⟩

/-- the worst-case loss on a sample is the smallest value of the dual -/
theorem dualSample_least {n : ℕ} (hn : 0 < n) {kappa rho : ℝ} (hk : 0 ≤ kappa) (hr : 0 ≤ rho) {Z : Fin n → (Fin d → ℝ) × ℝ}
    (hy : ∀ i, (Z i).2 = 1 ∨ (Z i).2 = -1) (w : Fin d → ℝ) (b : ℝ) {V : ℝ}
    (hV : IsLUB {e | ∃ Q ∈ LabelBall (fun i => (Z i).1) (fun i => (Z i).2) kappa rho, e = logRisk w b Q} V) :
    (∃ lam, norm2 w ≤ lam ∧ dualSample kappa rho Z w b lam = V) ∧ ∀ lam, norm2 w ≤ lam → V ≤ dualSample kappa rho Z w b lam := by
  have h2 : ∀ lam, norm2 w ≤ lam → V ≤ dualSample kappa rho Z w b lam := fun lam hl => by
    refine hV.2 ?_
    rintro _ ⟨Q, hQ, rfl⟩
    exact (logistic_certificate hy (dualSample_feasible Z hl) hQ).2
  obtain ⟨lam, s, hf, hlub⟩ := logistic_exact hn hk hr (X := fun i => (Z i).1) hy w b
  refine ⟨⟨lam, hf.1, le_antisymm ?_ (h2 lam hf.1)⟩, h2⟩
  rw [hV.unique hlub]
  unfold dualSample
  have : (avg fun i => dualLog kappa w b lam (Z i)) ≤ avg s := avg_mono' fun i => max_le (hf.2 i).1 (hf.2 i).2
  linarith

/-- value of the dual under a law -/
noncomputable def dualLaw (kappa rho : ℝ) (nu : Measure ((Fin d → ℝ) × ℝ)) (w : Fin d → ℝ) (b lam : ℝ) : ℝ :=
  lam * rho + ∫ z, dualLog kappa w b lam z ∂nu

end

section
variable {d : ℕ} {Ω : Type} [MeasurableSpace Ω] {μ : Measure Ω} [IsProbabilityMeasure μ] {nu : Measure ((Fin d → ℝ) × ℝ)}
  {Z : ℕ → Ω → (Fin d → ℝ) × ℝ}

theorem rowSize_integrable [IsProbabilityMeasure nu] (hx : ∀ j, Integrable (fun z => z.1 j) nu) : Integrable (fun z : (Fin d → ℝ) × ℝ => rowSize z.1) nu := by
  unfold rowSize
  exact (integrable_finsetSum _ fun j _ => (hx j).abs).add (integrable_const 1)

theorem dualLog_integrable [IsProbabilityMeasure nu] (hx : ∀ j, Integrable (fun z => z.1 j) nu) (hl : ∀ᵐ z ∂nu, z.2 = 1 ∨ z.2 = -1)
    {kappa : ℝ} (hk : 0 ≤ kappa) (w : Fin d → ℝ) (b lam : ℝ) : Integrable (dualLog kappa w b lam) nu := by
  refine (((rowSize_integrable hx).add (integrable_const kappa)).mul_const (dist ((w, b), lam) (((0 : Fin d → ℝ), (0 : ℝ)), (0 : ℝ))) |>.add (integrable_const (Real.log 2))).mono'
    (dualLog_measurable kappa w b lam).aestronglyMeasurable ?_
  filter_upwards [hl] with z hz
  have := abs_le.1 (dualLog_lipschitz hk hz ((w, b), lam) ((0, 0), 0))
  simp only [dualLog_at_zero] at this
  rw [Real.norm_of_nonneg (dualLog_pos ..).le]
  simp only [Pi.add_apply]
  linarith [this.2]

theorem dualSample_limit (h : DrawsOf μ nu Z) (hx : ∀ j, Integrable (fun z => z.1 j) nu) (hl : ∀ᵐ z ∂nu, z.2 = 1 ∨ z.2 = -1)
    {kappa : ℝ} (hk : 0 ≤ kappa) (rho : ℝ) (w : Fin d → ℝ) (b lam : ℝ) :
    ∀ᵐ ω ∂μ, Tendsto (fun n => dualSample kappa rho (fun i : Fin n => Z i ω) w b lam) atTop (𝓝 (dualLaw kappa rho nu w b lam)) := by
  have := draws_probability h
  filter_upwards [draws_average h (dualLog_measurable kappa w b lam) (dualLog_integrable hx hl hk w b lam)] with ω hω
  exact hω.const_add _

omit [IsProbabilityMeasure μ] in
theorem draws_ae (h : DrawsOf μ nu Z) {p : (Fin d → ℝ) × ℝ → Prop} (hp : ∀ᵐ z ∂nu, p z) : ∀ᵐ ω ∂μ, ∀ i, p (Z i ω) := by
  rw [ae_all_iff]
  intro i
  have := hp
  rw [← h.law i] at this
  exact ae_of_ae_map (h.meas i).aemeasurable this

/-- all the minimisers on growing parts of the sample have, under the law, values converging to the best possible -/
theorem logistic_minimisers (h : DrawsOf μ nu Z) (hx : ∀ j, Integrable (fun z => z.1 j) nu) (hl : ∀ᵐ z ∂nu, z.2 = 1 ∨ z.2 = -1)
    (hpos : nu.real {z | z.2 = 1} ≠ 0) (hneg : nu.real {z | z.2 = -1} ≠ 0)
    {kappa rho : ℝ} (hk : 0 ≤ kappa) (hr : 0 < rho) (ok : ℝ → Prop) (h0 : ok 0) :
    ∀ᵐ ω ∂μ, ∀ (w : ℕ → Fin d → ℝ) (b lam : ℕ → ℝ), (∀ᶠ n in atTop, norm2 (w n) ≤ lam n ∧ ok (b n) ∧ ∀ w' b' lam', norm2 w' ≤ lam' → ok b' →
        dualSample kappa rho (fun i : Fin n => Z i ω) (w n) (b n) (lam n) ≤ dualSample kappa rho (fun i : Fin n => Z i ω) w' b' lam') →
      Tendsto (fun n => dualLaw kappa rho nu (w n) (b n) (lam n)) atTop
        (𝓝 (sInf {v | ∃ w' b' lam', norm2 w' ≤ lam' ∧ ok b' ∧ v = dualLaw kappa rho nu w' b' lam'})) ∧
      Tendsto (fun n => dualSample kappa rho (fun i : Fin n => Z i ω) (w n) (b n) (lam n)) atTop
        (𝓝 (sInf {v | ∃ w' b' lam', norm2 w' ≤ lam' ∧ ok b' ∧ v = dualLaw kappa rho nu w' b' lam'})) := by
  have hnu := draws_probability h
  obtain ⟨D, hDc, hDd⟩ := TopologicalSpace.exists_countable_dense (((Fin d → ℝ) × ℝ) × ℝ)
  have hrow := draws_average h (F := fun z => rowSize z.1) (by unfold rowSize; fun_prop) (rowSize_integrable hx)
  have hrow0 : 0 ≤ ∫ z, rowSize z.1 ∂nu := integral_nonneg fun z => (rowSize_pos z.1).le
  set K : ℝ := rho + ((∫ z, rowSize z.1 ∂nu) + 1) + kappa with hK
  have hK0 : 0 ≤ K := by positivity
  have hlab := draws_ae h hl
  have hlip : ∀ᵐ ω ∂μ, ∀ᶠ n in atTop, ∀ p q : ((Fin d → ℝ) × ℝ) × ℝ,
      |dualSample kappa rho (fun i : Fin n => Z i ω) p.1.1 p.1.2 p.2 - dualSample kappa rho (fun i : Fin n => Z i ω) q.1.1 q.1.2 q.2| ≤ K * dist p q := by
    filter_upwards [hrow, hlab] with ω hω hl
    filter_upwards [hω.eventually_le_const (lt_add_one _), eventually_gt_atTop 0] with n hn hn0 p q
    have hn' : (0 : ℝ) < n := by exact_mod_cast hn0
    have h2 : |p.2 - q.2| ≤ dist p q := by rw [Prod.dist_eq (x := p), ← Real.dist_eq]; exact le_max_right _ _
    have hD : 0 ≤ dist p q := dist_nonneg
    have e : dualSample kappa rho (fun i : Fin n => Z i ω) p.1.1 p.1.2 p.2 - dualSample kappa rho (fun i : Fin n => Z i ω) q.1.1 q.1.2 q.2 =
        (p.2 - q.2) * rho + avg fun i : Fin n => dualLog kappa p.1.1 p.1.2 p.2 (Z i ω) - dualLog kappa q.1.1 q.1.2 q.2 (Z i ω) := by
      unfold dualSample avg
      rw [Finset.sum_sub_distrib]; ring
    have a1 : |avg fun i : Fin n => dualLog kappa p.1.1 p.1.2 p.2 (Z i ω) - dualLog kappa q.1.1 q.1.2 q.2 (Z i ω)| ≤
        (avg fun i : Fin n => rowSize (Z i ω).1) * dist p q + kappa * dist p q := by
      have : |avg fun i : Fin n => dualLog kappa p.1.1 p.1.2 p.2 (Z i ω) - dualLog kappa q.1.1 q.1.2 q.2 (Z i ω)| ≤
          avg fun i : Fin n => (rowSize (Z i ω).1 + kappa) * dist p q := by
        unfold avg
        rw [abs_div, abs_of_nonneg hn'.le]
        exact div_le_div_of_nonneg_right ((Finset.abs_sum_le_sum_abs _ _).trans (Finset.sum_le_sum fun i _ => dualLog_lipschitz hk (hl i) p q)) hn'.le
      refine this.trans (le_of_eq ?_)
      unfold avg
      rw [← Finset.sum_mul, Finset.sum_add_distrib]
      simp only [Finset.sum_const, Finset.card_univ, Fintype.card_fin, nsmul_eq_mul]
      field_simp
    have a2 : |(p.2 - q.2) * rho| ≤ rho * dist p q := by
      rw [abs_mul, abs_of_pos hr, mul_comm]; exact mul_le_mul_of_nonneg_left h2 hr.le
    rw [e]
    refine (abs_add_le _ _).trans ?_
    have a3 := mul_le_mul_of_nonneg_right hn hD
    rw [hK]
    nlinarith
  have hf : ∀ p q : ((Fin d → ℝ) × ℝ) × ℝ, |dualLaw kappa rho nu p.1.1 p.1.2 p.2 - dualLaw kappa rho nu q.1.1 q.1.2 q.2| ≤ K * dist p q := by
    intro p q
    obtain ⟨ω, h1, h2, h3⟩ := ((dualSample_limit h hx hl hk rho p.1.1 p.1.2 p.2).and ((dualSample_limit h hx hl hk rho q.1.1 q.1.2 q.2).and hlip)).exists
    refine le_of_tendsto (h1.sub h2).abs ?_
    filter_upwards [h3] with n hn
    exact hn p q
  have hDlim : ∀ᵐ ω ∂μ, ∀ p ∈ D, Tendsto (fun n => dualSample kappa rho (fun i : Fin n => Z i ω) p.1.1 p.1.2 p.2) atTop
      (𝓝 (dualLaw kappa rho nu p.1.1 p.1.2 p.2)) := by
    rw [ae_ball_iff hDc]
    intro p _
    exact dualSample_limit h hx hl hk rho p.1.1 p.1.2 p.2
  -- frequencies of the classes
  have hclass : ∀ c : ℝ, ∀ᵐ ω ∂μ, Tendsto (fun n => avg fun i : Fin n => ({z : (Fin d → ℝ) × ℝ | z.2 = c}.indicator (fun _ => (1 : ℝ)) (Z i ω))) atTop
      (𝓝 (nu.real {z | z.2 = c})) := by
    intro c
    have hm : MeasurableSet {z : (Fin d → ℝ) × ℝ | z.2 = c} := measurable_snd (measurableSet_singleton c)
    have := draws_average h (F := {z : (Fin d → ℝ) × ℝ | z.2 = c}.indicator fun _ => (1 : ℝ)) (measurable_const.indicator hm) ((integrable_const 1).indicator hm)
    rw [integral_indicator_const _ hm] at this
    simpa using this
  filter_upwards [hlip, hDlim, hlab, hrow, hclass 1, hclass (-1)] with ω l1 l2 l3 l4 l5 l6 w b lam hmin
  set F : ℕ → ((Fin d → ℝ) × ℝ) × ℝ → ℝ := fun n p => dualSample kappa rho (fun i : Fin n => Z i ω) p.1.1 p.1.2 p.2 with hF
  set C : ℝ := Real.log 2 / rho with hC
  have hlog : 0 < Real.log 2 := Real.log_pos (by norm_num)
  have hC0 : 0 ≤ C := by positivity
  set B : ℝ := Real.log 2 + C * ((∫ z, rowSize z.1 ∂nu) + 1) with hB
  have hB0 : 0 ≤ B := by positivity
  have hp1 : 0 < nu.real {z | z.2 = 1} := lt_of_le_of_ne measureReal_nonneg (Ne.symm hpos)
  have hp2 : 0 < nu.real {z | z.2 = -1} := lt_of_le_of_ne measureReal_nonneg (Ne.symm hneg)
  set R : ℝ := C + B / (nu.real {z | z.2 = 1} / 2) + B / (nu.real {z | z.2 = -1} / 2) with hR
  have hbound : ∀ᶠ n in atTop, dist ((w n, b n), lam n) (((0 : Fin d → ℝ), (0 : ℝ)), (0 : ℝ)) ≤ R := by
    filter_upwards [hmin, l4.eventually_le_const (lt_add_one _), l5.eventually_const_le (half_lt_self hp1), l6.eventually_const_le (half_lt_self hp2),
      eventually_gt_atTop 0] with n hm m2 m3 m4 hn
    have hn' : (0 : ℝ) < n := by exact_mod_cast hn
    obtain ⟨hwl, -, hm⟩ := hm
    have hz : norm2 (0 : Fin d → ℝ) ≤ 0 := ((norm2_zero_iff _).2 rfl).le
    have hm0 := hm 0 0 0 hz h0
    have e0 : dualSample kappa rho (fun i : Fin n => Z i ω) 0 0 0 = Real.log 2 := by
      unfold dualSample
      simp only [dualLog_at_zero]
      rw [avg_const hn]; ring
    rw [e0] at hm0
    unfold dualSample at hm0
    have hnw := l2norm_nonneg (w n)
    have hl0 : 0 ≤ lam n := hnw.trans hwl
    have havg : 0 ≤ avg fun i : Fin n => dualLog kappa (w n) (b n) (lam n) (Z i ω) := by
      unfold avg; exact div_nonneg (Finset.sum_nonneg fun i _ => (dualLog_pos ..).le) hn'.le
    have hlam : lam n ≤ C := by rw [hC, le_div_iff₀ hr]; linarith
    have hlr : 0 ≤ lam n * rho := by positivity
    have hw : ∀ j, |w n j| ≤ C := fun j => (abs_le_norm2 _ j).trans (hwl.trans hlam)
    -- the intercept, from the points of each class
    have side : ∀ σ : ℝ, (σ = 1 ∨ σ = -1) → (avg fun i : Fin n => ({z : (Fin d → ℝ) × ℝ | z.2 = σ}.indicator (fun _ => (1 : ℝ)) (Z i ω))) * (-σ * b n) ≤ B := by
      intro σ hσ
      have : ∀ i : Fin n, ({z : (Fin d → ℝ) × ℝ | z.2 = σ}.indicator (fun _ => (1 : ℝ)) (Z i ω)) * (-σ * b n) ≤
          dualLog kappa (w n) (b n) (lam n) (Z i ω) + C * rowSize (Z i ω).1 := by
        intro i
        have hp := dualLog_pos kappa (w n) (b n) (lam n) (Z i ω)
        have hrs := rowSize_pos (Z i ω).1
        by_cases hi : (Z i ω).2 = σ
        · rw [Set.indicator_of_mem (by exact hi), one_mul]
          have h1 : -margin (w n) (b n) (Z i ω) ≤ dualLog kappa (w n) (b n) (lam n) (Z i ω) := (cpLogistic_ge _).trans (le_max_right _ _)
          have h2 : |∑ j, w n j * (Z i ω).1 j| ≤ C * rowSize (Z i ω).1 := by
            refine (Finset.abs_sum_le_sum_abs _ _).trans ?_
            have : ∑ j, |w n j * (Z i ω).1 j| ≤ ∑ j, C * |(Z i ω).1 j| := Finset.sum_le_sum fun j _ => by
              rw [abs_mul]; exact mul_le_mul_of_nonneg_right (hw j) (abs_nonneg _)
            rw [← Finset.mul_sum] at this
            unfold rowSize
            nlinarith
          have h3 := abs_le.1 h2
          unfold margin Spec.score at h1
          rw [hi] at h1
          simp only [Option.getD_some] at h1
          rcases hσ with rfl | rfl <;> linarith [h3.1, h3.2]
        · rw [Set.indicator_of_notMem (by exact hi), zero_mul]
          have := mul_nonneg hC0 hrs.le
          linarith
      have h2 := avg_mono' this
      have e1 : (avg fun i : Fin n => ({z : (Fin d → ℝ) × ℝ | z.2 = σ}.indicator (fun _ => (1 : ℝ)) (Z i ω)) * (-σ * b n)) =
          (avg fun i : Fin n => ({z : (Fin d → ℝ) × ℝ | z.2 = σ}.indicator (fun _ => (1 : ℝ)) (Z i ω))) * (-σ * b n) := by
        unfold avg; rw [← Finset.sum_mul]; ring
      have e2 : (avg fun i : Fin n => dualLog kappa (w n) (b n) (lam n) (Z i ω) + C * rowSize (Z i ω).1) =
          (avg fun i : Fin n => dualLog kappa (w n) (b n) (lam n) (Z i ω)) + C * avg fun i : Fin n => rowSize (Z i ω).1 := by
        unfold avg; rw [Finset.sum_add_distrib, ← Finset.mul_sum]; ring
      rw [e1, e2] at h2
      have := mul_le_mul_of_nonneg_left m2 hC0
      rw [hB]
      linarith
    have s1 := side 1 (Or.inl rfl)
    have s2 := side (-1) (Or.inr rfl)
    have hq1 : 0 ≤ B / (nu.real {z | z.2 = 1} / 2) := by positivity
    have hq2 : 0 ≤ B / (nu.real {z | z.2 = -1} / 2) := by positivity
    have t1 : -b n ≤ B / (nu.real {z | z.2 = 1} / 2) := by
      by_cases hb : 0 ≤ -b n
      · rw [le_div_iff₀ (by positivity)]
        have := mul_le_mul_of_nonneg_right m3 hb
        linarith
      · linarith
    have t2 : b n ≤ B / (nu.real {z | z.2 = -1} / 2) := by
      by_cases hb : 0 ≤ b n
      · rw [le_div_iff₀ (by positivity)]
        have := mul_le_mul_of_nonneg_right m4 hb
        linarith
      · linarith
    rw [Prod.dist_eq, Prod.dist_eq]
    refine max_le (max_le ?_ ?_) ?_
    · rw [dist_pi_le_iff (by positivity)]
      intro j
      rw [Real.dist_eq]
      simp only [Pi.zero_apply, sub_zero]
      have := hw j
      linarith
    · rw [Real.dist_eq]
      simp only [sub_zero]
      exact abs_le.2 ⟨by linarith, by linarith⟩
    · rw [Real.dist_eq, sub_zero, abs_of_nonneg hl0]
      linarith
  have hS : ({v | ∃ w' b' lam', norm2 w' ≤ lam' ∧ ok b' ∧ v = dualLaw kappa rho nu w' b' lam'} : Set ℝ) =
      (fun p : ((Fin d → ℝ) × ℝ) × ℝ => dualLaw kappa rho nu p.1.1 p.1.2 p.2) '' {p | norm2 p.1.1 ≤ p.2 ∧ ok p.1.2} := by
    ext v
    constructor
    · rintro ⟨w', b', lam', h1, h2, rfl⟩; exact ⟨((w', b'), lam'), ⟨h1, h2⟩, rfl⟩
    · rintro ⟨p, hp, rfl⟩; exact ⟨p.1.1, p.1.2, p.2, hp.1, hp.2, rfl⟩
  rw [hS]
  refine minimisers_converge (F := F) (f := fun p : ((Fin d → ℝ) × ℝ) × ℝ => dualLaw kappa rho nu p.1.1 p.1.2 p.2) (x := fun n => ((w n, b n), lam n))
    hK0 l1 hf hDd l2 (S := {p | norm2 p.1.1 ≤ p.2 ∧ ok p.1.2}) ⟨((0, 0), 0), ((norm2_zero_iff _).2 rfl).le, h0⟩ ⟨0, ?_⟩ ?_ hbound
  · rintro _ ⟨p, hp, rfl⟩
    have h1 : 0 ≤ p.2 := (l2norm_nonneg _).trans hp.1
    have h2 : 0 ≤ ∫ z, dualLog kappa p.1.1 p.1.2 p.2 z ∂nu := integral_nonneg fun z => (dualLog_pos ..).le
    show 0 ≤ dualLaw kappa rho nu p.1.1 p.1.2 p.2
    unfold dualLaw
    positivity
  · filter_upwards [hmin] with n hm
    exact ⟨⟨hm.1, hm.2.1⟩, fun p hp => hm.2.2 p.1.1 p.1.2 p.2 hp.1 hp.2⟩


/-! ## The worst-case loss under a law -/

theorem moveOrFlip_joint_measurable (kappa : ℝ) : _root_.Measurable fun p : ((Fin d → ℝ) × ℝ) × ((Fin d → ℝ) × ℝ) => moveOrFlip kappa p.1 p.2 := by
  unfold moveOrFlip
  refine _root_.Measurable.add (by unfold dist2; fun_prop) (_root_.Measurable.ite ?_ measurable_const measurable_const)
  exact measurableSet_eq_fun (by fun_prop) (by fun_prop)

theorem label_measurable : MeasurableSet {p : (Fin d → ℝ) × ℝ | p.2 = 1 ∨ p.2 = -1} :=
  (measurableSet_eq_fun (by fun_prop) (by fun_prop)).union (measurableSet_eq_fun (by fun_prop) (by fun_prop))

theorem margin_integrable [IsProbabilityMeasure nu] (hx : ∀ j, Integrable (fun z => z.1 j) nu) (hl : ∀ᵐ z ∂nu, z.2 = 1 ∨ z.2 = -1)
    (w : Fin d → ℝ) (b : ℝ) : Integrable (margin w b) nu := by
  refine ((rowSize_integrable hx).mul_const (dist (w, b) ((0 : Fin d → ℝ), (0 : ℝ)))).mono' (margin_measurable w b).aestronglyMeasurable ?_
  filter_upwards [hl] with z hz
  have h0 : margin (0 : Fin d → ℝ) 0 z = 0 := by simp [margin, Spec.score]
  have := margin_lipschitz hz w 0 b 0
  rw [h0, sub_zero] at this
  exact this

theorem cpLogistic_le (s : ℝ) : cpLogistic s ≤ Real.log 2 + |s| := by
  have := cpLogistic_lip 0 s
  have e : cpLogistic 0 = Real.log 2 := by unfold cpLogistic; norm_num
  rw [e, sub_zero] at this
  exact this

/-- every law of the ball gives at most the dual value -/
theorem dualLaw_upper [IsProbabilityMeasure nu] (hx : ∀ j, Integrable (fun z => z.1 j) nu) (hl : ∀ᵐ z ∂nu, z.2 = 1 ∨ z.2 = -1)
    {kappa rho : ℝ} (hk : 0 ≤ kappa) (w : Fin d → ℝ) (b : ℝ) {lam : ℝ} (hlam : norm2 w ≤ lam) {Q : Measure ((Fin d → ℝ) × ℝ)}
    (hQ : Q ∈ MovedOrFlipped nu kappa rho) : logRisk w b Q ≤ dualLaw kappa rho nu w b lam := by
  obtain ⟨⟨π, hfst, rfl, hci, hc⟩, hS⟩ := hQ
  unfold logRisk dualLaw
  rw [integral_map measurable_snd.aemeasurable (logloss_measurable w b).aestronglyMeasurable]
  have hdi : Integrable (fun p : ((Fin d → ℝ) × ℝ) × ((Fin d → ℝ) × ℝ) => dualLog kappa w b lam p.1) π := by
    have := dualLog_integrable hx hl hk w b lam
    rw [← hfst] at this
    exact this.comp_measurable measurable_fst
  have hle : ∀ᵐ p ∂π, logloss p.2.2 (Spec.score w (some b) p.2.1) ≤ dualLog kappa w b lam p.1 + lam * moveOrFlip kappa p.1 p.2 := by
    have hl' := hl
    rw [← hfst] at hl'
    filter_upwards [ae_of_ae_map measurable_snd.aemeasurable hS, ae_of_ae_map measurable_fst.aemeasurable hl'] with p h1 h2
    exact logistic_pointwise (n := 1) (X := fun _ => p.1.1) (y := fun _ => p.1.2) (fun _ => h2) (dualSample_feasible (fun _ : Fin 1 => p.1) hlam) 0 p.2 h1
  have hI : Integrable (fun p : ((Fin d → ℝ) × ℝ) × ((Fin d → ℝ) × ℝ) => dualLog kappa w b lam p.1 + lam * moveOrFlip kappa p.1 p.2) π := hdi.add (hci.const_mul _)
  have hmono := integral_mono_of_nonneg (ae_of_all _ fun p => (cpLogistic_pos _).le) hI hle
  rw [integral_add hdi (hci.const_mul _), integral_const_mul] at hmono
  have e : ∫ p : ((Fin d → ℝ) × ℝ) × ((Fin d → ℝ) × ℝ), dualLog kappa w b lam p.1 ∂π = ∫ z, dualLog kappa w b lam z ∂nu := by
    rw [← hfst, integral_map measurable_fst.aemeasurable (dualLog_measurable kappa w b lam).aestronglyMeasurable]
  rw [e] at hmono
  have := mul_le_mul_of_nonneg_left hc ((l2norm_nonneg w).trans hlam)
  exact hmono.trans (by linarith)

/-- a unit vector along `w` (zero if `w` is) -/
noncomputable def along (w : Fin d → ℝ) (j : Fin d) : ℝ := w j / norm2 w

theorem along_w (w : Fin d → ℝ) : ∑ j, w j * along w j = norm2 w := by
  unfold along
  have e : ∑ j, w j * (w j / norm2 w) = (∑ j, w j ^ 2) / norm2 w := by
    rw [Finset.sum_div]; exact Finset.sum_congr rfl fun j _ => by ring
  rw [e, ← l2norm_sq]
  by_cases h : norm2 w = 0
  · simp [h]
  · field_simp

theorem along_norm (w : Fin d → ℝ) : ∑ j, along w j ^ 2 ≤ 1 := by
  unfold along
  simp only [div_pow]
  rw [← Finset.sum_div, ← l2norm_sq]
  exact div_self_le_one _

theorem move_along (x w : Fin d → ℝ) {s : ℝ} {c : ℝ} (hc : 0 ≤ c) (hs : s = 1 ∨ s = -1) : dist2 x (fun j => x j + s * c * along w j) ≤ c := by
  unfold dist2
  rw [Real.sqrt_le_left hc]
  have : ∀ j, (x j - (x j + s * c * along w j)) ^ 2 = c ^ 2 * along w j ^ 2 := by
    intro j
    rcases hs with rfl | rfl <;> ring
  simp only [this]
  rw [← Finset.mul_sum]
  have := mul_le_mul_of_nonneg_left (along_norm w) (sq_nonneg c)
  linarith

theorem margin_moved (w : Fin d → ℝ) (b : ℝ) (z : (Fin d → ℝ) × ℝ) (y' s c : ℝ) :
    margin w b (fun j => z.1 j + s * c * along w j, y') = y' * Spec.score w (some b) z.1 + y' * s * c * norm2 w := by
  unfold margin Spec.score
  have : ∑ k, w k * (z.1 k + s * c * along w k) = ∑ k, w k * z.1 k + s * c * ∑ k, w k * along w k := by
    rw [Finset.mul_sum, ← Finset.sum_add_distrib]
    exact Finset.sum_congr rfl fun k _ => by ring
  simp only [this, along_w]
  ring

set_option maxHeartbeats 1600000 in
/-- changing the labels with probabilities `a` and using the remaining budget `r` to move a small fraction of the points very far -/
theorem dualLaw_lower [IsProbabilityMeasure nu] (hx : ∀ j, Integrable (fun z => z.1 j) nu) (hl : ∀ᵐ z ∂nu, z.2 = 1 ∨ z.2 = -1)
    {kappa rho : ℝ} (hk : 0 ≤ kappa) (w : Fin d → ℝ) (b : ℝ) {a : (Fin d → ℝ) × ℝ → ℝ} (ham : _root_.Measurable a) (ha0 : ∀ z, 0 ≤ a z)
    (ha1 : ∀ z, a z ≤ 1) {r : ℝ} (hr0 : 0 ≤ r) (hr : kappa * (∫ z, a z ∂nu) + r ≤ rho) {M : ℝ}
    (hM : ∀ Q ∈ MovedOrFlipped nu kappa rho, logRisk w b Q ≤ M) :
    (∫ z, cpLogistic (-margin w b z) ∂nu) + (∫ z, a z * margin w b z ∂nu) + r * norm2 w ≤ M := by
  have hti := margin_integrable hx hl w b
  have htm := margin_measurable w b
  have hcm := cpLogistic_continuous.measurable
  have hcpi : ∀ (s : (Fin d → ℝ) × ℝ → ℝ), _root_.Measurable s → Integrable s nu → Integrable (fun z => cpLogistic (s z)) nu := by
    intro s hs hi
    refine ((integrable_const (Real.log 2)).add hi.abs).mono' (hcm.comp hs).aestronglyMeasurable (ae_of_all _ fun z => ?_)
    rw [Real.norm_of_nonneg (cpLogistic_pos _).le]
    exact cpLogistic_le _
  have hmul : ∀ (u f : (Fin d → ℝ) × ℝ → ℝ), _root_.Measurable u → (∀ z, 0 ≤ u z) → (∀ z, u z ≤ 1) → Integrable f nu → Integrable (fun z => u z * f z) nu := by
    intro u f hu h0 h1 hf
    refine hf.abs.mono' (hu.aestronglyMeasurable.mul hf.aestronglyMeasurable) (ae_of_all _ fun z => ?_)
    rw [Real.norm_eq_abs, abs_mul, abs_of_nonneg (h0 z)]
    exact mul_le_of_le_one_left (abs_nonneg _) (h1 z)
  have hai : Integrable a nu := by
    have := hmul a (fun _ => 1) ham ha0 ha1 (integrable_const 1)
    simpa using this
  have hN := l2norm_nonneg w
  have key : ∀ e : ℝ, 0 < e → e < 1 → (1 - e) * ((∫ z, cpLogistic (-margin w b z) ∂nu) + ∫ z, a z * margin w b z ∂nu) + r * norm2 w -
      e * (∫ z, |margin w b z| ∂nu) ≤ M := by
    intro e he he1
    set c : ℝ := r / e with hc
    have hc0 : 0 ≤ c := by positivity
    have hec : e * c = r := by rw [hc]; field_simp
    set T : Fin 4 → (Fin d → ℝ) × ℝ → (Fin d → ℝ) × ℝ :=
      ![id, fun z => (z.1, -z.2), fun z => (fun j => z.1 j + -z.2 * c * along w j, z.2), fun z => (fun j => z.1 j + z.2 * c * along w j, -z.2)] with hT
    set C : Fin 4 → (Fin d → ℝ) × ℝ → ℝ := ![fun z => (1 - e) * (1 - a z), fun z => (1 - e) * a z, fun z => e * (1 - a z), fun z => e * a z] with hC
    have hTm : ∀ k, _root_.Measurable (T k) := by
      intro k
      fin_cases k
      · exact measurable_id
      · exact measurable_fst.prodMk measurable_snd.neg
      · exact (measurable_pi_iff.2 fun j => by fun_prop : _root_.Measurable fun z : (Fin d → ℝ) × ℝ => fun j => z.1 j + -z.2 * c * along w j).prodMk measurable_snd
      · exact (measurable_pi_iff.2 fun j => by fun_prop : _root_.Measurable fun z : (Fin d → ℝ) × ℝ => fun j => z.1 j + z.2 * c * along w j).prodMk measurable_snd.neg
    have hCm : ∀ k, _root_.Measurable (C k) := by
      intro k
      fin_cases k
      · exact (ham.const_sub 1).const_mul _
      · exact ham.const_mul _
      · exact (ham.const_sub 1).const_mul _
      · exact ham.const_mul _
    have hC0 : ∀ k z, 0 ≤ C k z := by
      intro k z
      have h1 := ha0 z
      have h2 := ha1 z
      fin_cases k
      · exact mul_nonneg (by linarith) (by linarith)
      · exact mul_nonneg (by linarith) h1
      · exact mul_nonneg he.le (by linarith)
      · exact mul_nonneg he.le h1
    have hCs : ∀ z, ∑ k, C k z = 1 := by
      intro z
      simp only [Fin.sum_univ_four]
      show (1 - e) * (1 - a z) + (1 - e) * a z + e * (1 - a z) + e * a z = 1
      ring
    have hC1 : ∀ k z, C k z ≤ 1 := fun k z => by
      rw [← hCs z]; exact Finset.single_le_sum (f := fun k => C k z) (fun k _ => hC0 k z) (Finset.mem_univ k)
    -- labels of the destinations
    have hlabT : ∀ k, ∀ᵐ z ∂nu, (T k z).2 = 1 ∨ (T k z).2 = -1 := by
      intro k
      filter_upwards [hl] with z hz
      fin_cases k
      · exact hz
      · show -z.2 = 1 ∨ -z.2 = -1
        rcases hz with h | h <;> rw [h] <;> simp
      · exact hz
      · show -z.2 = 1 ∨ -z.2 = -1
        rcases hz with h | h <;> rw [h] <;> simp
    -- costs
    set cost : Fin 4 → ℝ := ![0, kappa, c, c + kappa] with hcost
    have hcostT : ∀ k, ∀ᵐ z ∂nu, 0 ≤ moveOrFlip kappa z (T k z) ∧ moveOrFlip kappa z (T k z) ≤ cost k := by
      intro k
      filter_upwards [hl] with z hz
      have hne : z.2 ≠ -z.2 := by rcases hz with h | h <;> rw [h] <;> norm_num
      have hd0 : dist2 z.1 z.1 = 0 := by simp [dist2]
      fin_cases k
      · show 0 ≤ moveOrFlip kappa z z ∧ moveOrFlip kappa z z ≤ 0
        simp [moveOrFlip, hd0]
      · show 0 ≤ moveOrFlip kappa z (z.1, -z.2) ∧ moveOrFlip kappa z (z.1, -z.2) ≤ kappa
        simp [moveOrFlip, hd0, hne, hk]
      · show 0 ≤ moveOrFlip kappa z (fun j => z.1 j + -z.2 * c * along w j, z.2) ∧ moveOrFlip kappa z (fun j => z.1 j + -z.2 * c * along w j, z.2) ≤ c
        simp only [moveOrFlip, if_true, add_zero]
        exact ⟨dist2_nonneg _ _, move_along z.1 w hc0 (by rcases hz with h | h <;> rw [h] <;> simp)⟩
      · show 0 ≤ moveOrFlip kappa z (fun j => z.1 j + z.2 * c * along w j, -z.2) ∧ moveOrFlip kappa z (fun j => z.1 j + z.2 * c * along w j, -z.2) ≤ c + kappa
        simp only [moveOrFlip, if_neg hne]
        exact ⟨add_nonneg (dist2_nonneg _ _) hk, add_le_add (move_along z.1 w hc0 hz) le_rfl⟩
    have hmm := moveOrFlip_joint_measurable (d := d) kappa
    have hmk : ∀ k, _root_.Measurable fun z => moveOrFlip kappa z (T k z) := fun k => hmm.comp (measurable_id.prodMk (hTm k))
    have hmi : ∀ k, Integrable (fun z => moveOrFlip kappa z (T k z)) nu := by
      intro k
      refine (integrable_const (cost k)).mono' (hmk k).aestronglyMeasurable ?_
      filter_upwards [hcostT k] with z hz
      rw [Real.norm_of_nonneg hz.1]
      exact hz.2
    obtain ⟨c1, c2⟩ := mixPlan_integral hCm hC0 hTm hmm fun k => hmul (C k) (fun z => moveOrFlip kappa z (T k z)) (hCm k) (hC0 k) (hC1 k) (hmi k)
    -- losses
    have hlm : _root_.Measurable fun p : ((Fin d → ℝ) × ℝ) × ((Fin d → ℝ) × ℝ) => logloss p.2.2 (Spec.score w (some b) p.2.1) :=
      (logloss_measurable w b).comp measurable_snd
    have hmar : ∀ k, Integrable (fun z => margin w b (T k z)) nu := by
      intro k
      have hsi : Integrable (fun z => z.2 * Spec.score w (some b) z.1) nu := hti
      fin_cases k
      · exact hti
      · have : (fun z : (Fin d → ℝ) × ℝ => margin w b (z.1, -z.2)) = fun z => -margin w b z := by
          funext z; unfold margin; ring
        show Integrable (fun z : (Fin d → ℝ) × ℝ => margin w b (z.1, -z.2)) nu
        rw [this]; exact hti.neg
      · refine (hti.add (integrable_const (-(c * norm2 w)))).congr ?_
        filter_upwards [hl] with z hz
        show margin w b z + -(c * norm2 w) = margin w b (fun j => z.1 j + -z.2 * c * along w j, z.2)
        rw [margin_moved]
        have : z.2 * z.2 = 1 := by rcases hz with h | h <;> rw [h] <;> norm_num
        have e1 : z.2 * -z.2 = -1 := by linarith
        rw [e1]
        unfold margin; ring
      · refine (hti.neg.add (integrable_const (-(c * norm2 w)))).congr ?_
        filter_upwards [hl] with z hz
        show -margin w b z + -(c * norm2 w) = margin w b (fun j => z.1 j + z.2 * c * along w j, -z.2)
        rw [margin_moved]
        have : z.2 * z.2 = 1 := by rcases hz with h | h <;> rw [h] <;> norm_num
        have e1 : -z.2 * z.2 = -1 := by linarith
        rw [e1]
        unfold margin; ring
    have hli : ∀ k, Integrable (fun z => logloss (T k z).2 (Spec.score w (some b) (T k z).1)) nu := by
      intro k
      have := hcpi (fun z => -margin w b (T k z)) (htm.comp (hTm k)).neg (hmar k).neg
      exact this
    obtain ⟨l1, l2⟩ := mixPlan_integral hCm hC0 hTm hlm fun k => hmul (C k) (fun z => logloss (T k z).2 (Spec.score w (some b) (T k z).1)) (hCm k) (hC0 k) (hC1 k) (hli k)
    have hQ : (mixPlan nu C T).map Prod.snd ∈ MovedOrFlipped nu kappa rho := by
      refine ⟨⟨mixPlan nu C T, mixPlan_fst hCm hC0 hCs hTm, rfl, c1, ?_⟩, ?_⟩
      · rw [c2]
        have hb : ∀ k, ∫ z, C k z * moveOrFlip kappa z (T k z) ∂nu ≤ ∫ z, C k z * cost k ∂nu := by
          intro k
          refine integral_mono_ae (hmul (C k) _ (hCm k) (hC0 k) (hC1 k) (hmi k)) (hmul (C k) _ (hCm k) (hC0 k) (hC1 k) (integrable_const (cost k))) ?_
          filter_upwards [hcostT k] with z hz
          exact mul_le_mul_of_nonneg_left hz.2 (hC0 k z)
        refine (Finset.sum_le_sum fun k _ => hb k).trans ?_
        have hCi : ∀ k, Integrable (C k) nu := fun k => by
          have := hmul (C k) (fun _ => 1) (hCm k) (hC0 k) (hC1 k) (integrable_const 1)
          simpa using this
        simp only [integral_mul_const]
        have i0 : ∫ z, C 1 z ∂nu = (1 - e) * ∫ z, a z ∂nu := integral_const_mul _ _
        have i3 : ∫ z, C 3 z ∂nu = e * ∫ z, a z ∂nu := integral_const_mul _ _
        have i2 : ∫ z, C 2 z ∂nu = e * (1 - ∫ z, a z ∂nu) := by
          show ∫ z, e * (1 - a z) ∂nu = _
          rw [integral_const_mul, integral_sub (integrable_const 1) hai]
          simp
        rw [Fin.sum_univ_four, i0, i2, i3]
        show (∫ z, C 0 z ∂nu) * 0 + (1 - e) * (∫ z, a z ∂nu) * kappa + e * (1 - ∫ z, a z ∂nu) * c + e * (∫ z, a z ∂nu) * (c + kappa) ≤ rho
        have : (∫ z, C 0 z ∂nu) * 0 + (1 - e) * (∫ z, a z ∂nu) * kappa + e * (1 - ∫ z, a z ∂nu) * c + e * (∫ z, a z ∂nu) * (c + kappa) =
            kappa * (∫ z, a z ∂nu) + e * c := by ring
        rw [this, hec]
        exact hr
      · rw [ae_map_iff measurable_snd.aemeasurable label_measurable]
        exact mixPlan_ae hTm (measurable_snd label_measurable) hlabT
    have hle := hM _ hQ
    unfold logRisk at hle
    rw [integral_map measurable_snd.aemeasurable (logloss_measurable w b).aestronglyMeasurable, l2, Fin.sum_univ_four] at hle
    -- the four terms
    have hcpn : Integrable (fun z => cpLogistic (-margin w b z)) nu := hcpi _ htm.neg hti.neg
    have hcpp : Integrable (fun z => cpLogistic (margin w b z)) nu := hcpi _ htm hti
    have hati := hmul a _ ham ha0 ha1 hti
    have hacn := hmul a _ ham ha0 ha1 hcpn
    have t01 : (∫ z, C 0 z * logloss (T 0 z).2 (Spec.score w (some b) (T 0 z).1) ∂nu) + (∫ z, C 1 z * logloss (T 1 z).2 (Spec.score w (some b) (T 1 z).1) ∂nu) =
        (1 - e) * ((∫ z, cpLogistic (-margin w b z) ∂nu) + ∫ z, a z * margin w b z ∂nu) := by
      rw [← integral_add (hmul (C 0) _ (hCm 0) (hC0 0) (hC1 0) (hli 0)) (hmul (C 1) _ (hCm 1) (hC0 1) (hC1 1) (hli 1)), ← integral_add hcpn hati, ← integral_const_mul]
      refine integral_congr_ae (ae_of_all _ fun z => ?_)
      show (1 - e) * (1 - a z) * cpLogistic (-(margin w b z)) + (1 - e) * a z * cpLogistic (-(-z.2 * Spec.score w (some b) z.1)) = (1 - e) * (cpLogistic (-margin w b z) + a z * margin w b z)
      have e1 : -(-z.2 * Spec.score w (some b) z.1) = margin w b z := by unfold margin; ring
      rw [e1, cpLogistic_flip (margin w b z)]
      ring
    have t23 : r * norm2 w - e * (∫ z, |margin w b z| ∂nu) ≤
        (∫ z, C 2 z * logloss (T 2 z).2 (Spec.score w (some b) (T 2 z).1) ∂nu) + ∫ z, C 3 z * logloss (T 3 z).2 (Spec.score w (some b) (T 3 z).1) ∂nu := by
      rw [← integral_add (hmul (C 2) _ (hCm 2) (hC0 2) (hC1 2) (hli 2)) (hmul (C 3) _ (hCm 3) (hC0 3) (hC1 3) (hli 3))]
      have e1 : r * norm2 w - e * (∫ z, |margin w b z| ∂nu) = ∫ z, (r * norm2 w - e * |margin w b z|) ∂nu := by
        rw [integral_sub (integrable_const _) (hti.abs.const_mul _), integral_const, probReal_univ, one_smul, integral_const_mul]
      rw [e1]
      refine integral_mono_ae ((integrable_const _).sub (hti.abs.const_mul _))
        ((hmul (C 2) _ (hCm 2) (hC0 2) (hC1 2) (hli 2)).add (hmul (C 3) _ (hCm 3) (hC0 3) (hC1 3) (hli 3))) ?_
      filter_upwards [hl] with z hz
      have hz2 : z.2 * z.2 = 1 := by rcases hz with h | h <;> rw [h] <;> norm_num
      show r * norm2 w - e * |margin w b z| ≤ e * (1 - a z) * cpLogistic (-(margin w b (fun j => z.1 j + -z.2 * c * along w j, z.2))) +
        e * a z * cpLogistic (-(margin w b (fun j => z.1 j + z.2 * c * along w j, -z.2)))
      have e2 : z.2 * -z.2 = -1 := by linarith
      have e3 : -z.2 * z.2 = -1 := by linarith
      rw [margin_moved, margin_moved, e2, e3]
      have hm1 : z.2 * Spec.score w (some b) z.1 = margin w b z := rfl
      have hm2 : -z.2 * Spec.score w (some b) z.1 = -margin w b z := by unfold margin; ring
      rw [hm1, hm2]
      have b1 := cpLogistic_ge (-(margin w b z + -1 * c * norm2 w))
      have b2 := cpLogistic_ge (-(-margin w b z + -1 * c * norm2 w))
      have b3 := le_abs_self (margin w b z)
      have b4 := neg_abs_le (margin w b z)
      have d1 : c * norm2 w - |margin w b z| ≤ cpLogistic (-(margin w b z + -1 * c * norm2 w)) := by linarith
      have d2 : c * norm2 w - |margin w b z| ≤ cpLogistic (-(-margin w b z + -1 * c * norm2 w)) := by linarith
      have d3 := mul_le_mul_of_nonneg_left d1 (mul_nonneg he.le (by linarith [ha1 z] : 0 ≤ 1 - a z))
      have d4 := mul_le_mul_of_nonneg_left d2 (mul_nonneg he.le (ha0 z))
      have d5 : e * (1 - a z) * (c * norm2 w - |margin w b z|) + e * a z * (c * norm2 w - |margin w b z|) = r * norm2 w - e * |margin w b z| := by
        rw [← hec]; ring
      linarith
    linarith
  -- small fractions
  have hlim : Tendsto (fun e : ℝ => (1 - e) * ((∫ z, cpLogistic (-margin w b z) ∂nu) + ∫ z, a z * margin w b z ∂nu) + r * norm2 w -
      e * (∫ z, |margin w b z| ∂nu)) (𝓝[>] 0) (𝓝 ((1 - 0) * ((∫ z, cpLogistic (-margin w b z) ∂nu) + ∫ z, a z * margin w b z ∂nu) + r * norm2 w -
      0 * (∫ z, |margin w b z| ∂nu))) := by
    refine Tendsto.mono_left (Continuous.tendsto ?_ 0) nhdsWithin_le_nhds
    fun_prop
  have := le_of_tendsto hlim (b := M) (by
    filter_upwards [Ioo_mem_nhdsGT (zero_lt_one (α := ℝ))] with e he
    exact key e he.1 he.2)
  linarith

end
end Skwdro
