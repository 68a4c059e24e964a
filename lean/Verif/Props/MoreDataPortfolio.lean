import Verif.Props.MoreData
import Verif.Props.EqualWeights
import Verif.Lemmas.MixPlan
import Verif.Lemmas.Minimax

/-!
# More data: fits of the portfolio (C136)
-/

namespace Skwdro
open Spec Tensor MeasureTheory ProbabilityTheory Filter Topology

section
variable {d : ℕ} {Ω : Type} [MeasurableSpace Ω] {μ : Measure Ω} [IsProbabilityMeasure μ] {nu : Measure (Fin d → ℝ)} {Z : ℕ → Ω → Fin d → ℝ}

/-- the loss is Lipschitz in the return and the threshold -/
theorem meanCVaR_two {eta alpha : ℝ} (he : 0 ≤ eta) (ha : 0 < alpha) (r r' tau tau' : ℝ) :
    |meanCVaR eta alpha r tau - meanCVaR eta alpha r' tau'| ≤ (1 + eta / alpha) * |r - r'| + (eta + eta / alpha) * |tau - tau'| := by
  have hs : 0 ≤ eta / alpha := by positivity
  have h1 : |meanCVaR eta alpha r tau - meanCVaR eta alpha r' tau| ≤ (1 + eta / alpha) * |r - r'| := by
    have a := meanCVaR_lipschitz he ha r r' tau
    have b := meanCVaR_lipschitz he ha r' r tau
    rw [abs_sub_comm r' r] at b
    exact abs_le.2 ⟨by linarith, a⟩
  have h2 : |meanCVaR eta alpha r' tau - meanCVaR eta alpha r' tau'| ≤ (eta + eta / alpha) * |tau - tau'| := by
    unfold meanCVaR
    refine (abs_max_sub_max_le_max _ _ _ _).trans (max_le ?_ ?_)
    · rw [show -r' + eta * tau - (-r' + eta * tau') = eta * (tau - tau') by ring, abs_mul, abs_of_nonneg he]
      exact mul_le_mul_of_nonneg_right (by linarith) (abs_nonneg _)
    · rw [show (-1 - eta / alpha) * r' + eta * (1 - 1 / alpha) * tau - ((-1 - eta / alpha) * r' + eta * (1 - 1 / alpha) * tau') =
        (eta - eta / alpha) * (tau - tau') by ring, abs_mul]
      refine mul_le_mul_of_nonneg_right ?_ (abs_nonneg _)
      exact abs_le.2 ⟨by linarith, by linarith⟩
  have := abs_sub_le (meanCVaR eta alpha r tau) (meanCVaR eta alpha r' tau) (meanCVaR eta alpha r' tau')
  linarith

/-- lower bounds on the loss, without the threshold and growing with it -/
theorem meanCVaR_below {eta alpha : ℝ} (ha : 0 < alpha) (ha1 : alpha ≤ 1) (r tau : ℝ) :
    -(1 + eta) * r ≤ meanCVaR eta alpha r tau := by
  unfold meanCVaR
  have h1 := mul_le_mul_of_nonneg_left (le_max_left (-r + eta * tau) ((-1 - eta / alpha) * r + eta * (1 - 1 / alpha) * tau)) (show 0 ≤ 1 - alpha by linarith)
  have h2 := mul_le_mul_of_nonneg_left (le_max_right (-r + eta * tau) ((-1 - eta / alpha) * r + eta * (1 - 1 / alpha) * tau)) ha.le
  have e : alpha * ((-1 - eta / alpha) * r + eta * (1 - 1 / alpha) * tau) = (-alpha - eta) * r + eta * (alpha - 1) * tau := by
    field_simp
  rw [e] at h2
  linarith

theorem return_le {theta : Fin d → ℝ} (ht : InSimplex theta) (x : Fin d → ℝ) : |∑ j, theta j * x j| ≤ rowSize x := by
  unfold rowSize
  refine (Finset.abs_sum_le_sum_abs _ _).trans ?_
  have : ∑ j, |theta j * x j| ≤ ∑ j, |x j| := by
    refine Finset.sum_le_sum fun j _ => ?_
    rw [abs_mul, abs_of_nonneg (ht.1 j)]
    have h1 : theta j ≤ 1 := ht.2 ▸ Finset.single_le_sum (f := theta) (fun k _ => ht.1 k) (Finset.mem_univ j)
    have := mul_le_mul_of_nonneg_right h1 (abs_nonneg (x j))
    linarith
  linarith

theorem pnorm_dist {p q : XNum ℝ} (h : Conj p q) (hd : 0 < d) : ∃ B : ℝ, 0 ≤ B ∧ ∀ u v : Fin d → ℝ, |pnorm q u - pnorm q v| ≤ B * dist u v := by
  obtain ⟨B, hB, hc⟩ := coord_le (m := d) h
  have hq := h.normOrder_right
  have key : ∀ w : Fin d → ℝ, pnorm q w ≤ B * d * ‖w‖ := by
    intro w
    obtain ⟨v, h1, h2⟩ := holder_attained' h hd w
    rw [← h2]
    refine (Finset.sum_le_sum (g := fun _ => B * ‖w‖) fun j _ => ?_).trans (by simp; nlinarith)
    refine (le_abs_self _).trans ?_
    rw [abs_mul, mul_comm]
    have h3 : |v j| ≤ B := (hc v j).trans (by nlinarith)
    exact mul_le_mul h3 (norm_le_pi_norm w j) (abs_nonneg _) hB
  refine ⟨B * d, by positivity, fun u v => ?_⟩
  have tri : ∀ u v : Fin d → ℝ, pnorm q u - pnorm q v ≤ B * d * dist u v := by
    intro u v
    have := pnorm_add_le hq (fun i => u i - v i) v
    simp only [sub_add_cancel] at this
    have h2 := key (u - v)
    rw [← dist_eq_norm] at h2
    have h3 : pnorm q (u - v) = pnorm q fun i => u i - v i := rfl
    have h4 : pnorm q (fun i => u i) = pnorm q u := rfl
    linarith
  have h2 := tri v u
  rw [dist_comm] at h2
  exact abs_le.2 ⟨by linarith, tri u v⟩

/-- worst-case risk under a law -/
noncomputable def pfLaw (q : XNum ℝ) (eta alpha rho : ℝ) (nu : Measure (Fin d → ℝ)) (theta : Fin d → ℝ) (tau : ℝ) : ℝ :=
  cvarRisk eta alpha theta tau nu + rho * ((1 + eta / alpha) * pnorm q theta)

theorem rowSize_measurable : _root_.Measurable (rowSize (d := d)) := by unfold rowSize; fun_prop

theorem returnSize_integrable [IsProbabilityMeasure nu] (hx : ∀ j, Integrable (fun z => z j) nu) : Integrable (rowSize (d := d)) nu := by
  unfold rowSize
  exact (integrable_finsetSum _ fun j _ => (hx j).abs).add (integrable_const 1)

theorem return_integrable (hx : ∀ j, Integrable (fun z => z j) nu) (theta : Fin d → ℝ) : Integrable (fun x => ∑ j, theta j * x j) nu :=
  integrable_finsetSum _ fun j _ => (hx j).const_mul _

theorem cvar_law_integrable [IsProbabilityMeasure nu] (hx : ∀ j, Integrable (fun z => z j) nu) (eta alpha : ℝ) (theta : Fin d → ℝ) (tau : ℝ) :
    Integrable (fun x => meanCVaR eta alpha (∑ j, theta j * x j) tau) nu := by
  unfold meanCVaR
  have h := return_integrable hx theta
  exact (h.neg.add (integrable_const _)).sup ((h.const_mul _).add (integrable_const _))

/-- weights and thresholds that minimise the worst-case risk of growing parts of the sample have, under the law, worst-case risks converging to the
best possible -/
theorem portfolio_minimisers {p q : XNum ℝ} (hpq : Conj p q) (hd : 0 < d) (h : DrawsOf μ nu Z) (hx : ∀ j, Integrable (fun z => z j) nu)
    {eta alpha rho : ℝ} (he : 0 ≤ eta) (ha : 0 < alpha) (ha1 : alpha < 1) (hr : 0 ≤ rho) :
    ∀ᵐ ω ∂μ, ∀ w : ℕ → Fin d → ℝ, ∀ t : ℕ → ℝ, (∀ n, 0 < n → InSimplex (w n) ∧ ∀ w' t', InSimplex w' →
        pfValue q eta alpha rho (fun i : Fin n => Z i ω) (w n) (t n) ≤ pfValue q eta alpha rho (fun i : Fin n => Z i ω) w' t') →
      Tendsto (fun n => pfLaw q eta alpha rho nu (w n) (t n)) atTop (𝓝 (sInf {v | ∃ w' t', InSimplex w' ∧ v = pfLaw q eta alpha rho nu w' t'})) ∧
      Tendsto (fun n => pfValue q eta alpha rho (fun i : Fin n => Z i ω) (w n) (t n)) atTop
        (𝓝 (sInf {v | ∃ w' t', InSimplex w' ∧ v = pfLaw q eta alpha rho nu w' t'})) := by
  have hnu := draws_probability h
  have hs : 0 ≤ eta / alpha := by positivity
  obtain ⟨B, hB, hBl⟩ := pnorm_dist hpq hd
  obtain ⟨D, hDc, hDd⟩ := TopologicalSpace.exists_countable_dense ((Fin d → ℝ) × ℝ)
  have hrow := returnSize_integrable hx
  have hrow0 : 0 ≤ ∫ x, rowSize x ∂nu := integral_nonneg fun x => (rowSize_pos x).le
  set K : ℝ := (1 + eta / alpha) * ((∫ x, rowSize x ∂nu) + 1) + (eta + eta / alpha) + rho * ((1 + eta / alpha) * B) with hK
  have hK0 : 0 ≤ K := by positivity
  have hsize := draws_average h (F := rowSize) rowSize_measurable hrow
  have hlim : ∀ w t, ∀ᵐ ω ∂μ, Tendsto (fun n => pfValue q eta alpha rho (fun i : Fin n => Z i ω) w t) atTop (𝓝 (pfLaw q eta alpha rho nu w t)) := by
    intro w t
    filter_upwards [draws_average h (cvar_measurable eta alpha w t) (cvar_law_integrable hx eta alpha w t)] with ω hω
    exact hω.add_const _
  -- equi-Lipschitz
  have hlip : ∀ᵐ ω ∂μ, ∀ᶠ n in atTop, ∀ a b : (Fin d → ℝ) × ℝ,
      |pfValue q eta alpha rho (fun i : Fin n => Z i ω) a.1 a.2 - pfValue q eta alpha rho (fun i : Fin n => Z i ω) b.1 b.2| ≤ K * dist a b := by
    filter_upwards [hsize] with ω hω
    filter_upwards [hω.eventually_le_const (lt_add_one _), eventually_gt_atTop 0] with n hn hn0 a b
    have d1 : dist a.1 b.1 ≤ dist a b := by rw [Prod.dist_eq]; exact le_max_left _ _
    have d2 : |a.2 - b.2| ≤ dist a b := by rw [Prod.dist_eq, ← Real.dist_eq]; exact le_max_right _ _
    have d0 : 0 ≤ dist a b := dist_nonneg
    have hi : ∀ i : Fin n, |meanCVaR eta alpha (∑ j, a.1 j * Z i ω j) a.2 - meanCVaR eta alpha (∑ j, b.1 j * Z i ω j) b.2| ≤
        (1 + eta / alpha) * dist a b * rowSize (Z i ω) + (eta + eta / alpha) * dist a b := by
      intro i
      have h1 := meanCVaR_two he ha (∑ j, a.1 j * Z i ω j) (∑ j, b.1 j * Z i ω j) a.2 b.2
      have h2 := linear_lipschitz (Z i ω) a.1 b.1 0 0
      simp only [add_zero] at h2
      have h3 : dist (a.1, (0 : ℝ)) (b.1, 0) ≤ dist a b := by rw [Prod.dist_eq]; simp [d1]
      have e : |∑ j, a.1 j * Z i ω j - ∑ j, b.1 j * Z i ω j| ≤ rowSize (Z i ω) * dist a b := by
        simp only [mul_comm (a.1 _), mul_comm (b.1 _)]
        exact h2.trans (mul_le_mul_of_nonneg_left h3 (rowSize_pos _).le)
      have h4 := mul_le_mul_of_nonneg_left e (show 0 ≤ 1 + eta / alpha by positivity)
      have h5 := mul_le_mul_of_nonneg_left d2 (show 0 ≤ eta + eta / alpha by positivity)
      linarith
    have havg : |avg (fun i : Fin n => meanCVaR eta alpha (∑ j, a.1 j * Z i ω j) a.2) - avg (fun i : Fin n => meanCVaR eta alpha (∑ j, b.1 j * Z i ω j) b.2)| ≤
        (1 + eta / alpha) * dist a b * ((∫ x, rowSize x ∂nu) + 1) + (eta + eta / alpha) * dist a b := by
      have e1 : avg (fun i : Fin n => meanCVaR eta alpha (∑ j, a.1 j * Z i ω j) a.2) - avg (fun i : Fin n => meanCVaR eta alpha (∑ j, b.1 j * Z i ω j) b.2) =
          avg fun i : Fin n => meanCVaR eta alpha (∑ j, a.1 j * Z i ω j) a.2 - meanCVaR eta alpha (∑ j, b.1 j * Z i ω j) b.2 := by
        unfold avg; rw [Finset.sum_sub_distrib, sub_div]
      rw [e1]
      have e2 : |avg fun i : Fin n => meanCVaR eta alpha (∑ j, a.1 j * Z i ω j) a.2 - meanCVaR eta alpha (∑ j, b.1 j * Z i ω j) b.2| ≤
          avg fun i : Fin n => (1 + eta / alpha) * dist a b * rowSize (Z i ω) + (eta + eta / alpha) * dist a b := by
        unfold avg
        rw [abs_div, abs_of_nonneg (Nat.cast_nonneg (α := ℝ) n)]
        refine div_le_div_of_nonneg_right ((Finset.abs_sum_le_sum_abs _ _).trans (Finset.sum_le_sum fun i _ => hi i)) (Nat.cast_nonneg n)
      refine e2.trans ?_
      rw [avg_add, avg_const_mul, avg_const hn0]
      have := mul_le_mul_of_nonneg_left hn (show 0 ≤ (1 + eta / alpha) * dist a b by positivity)
      linarith
    have hp : |rho * ((1 + eta / alpha) * pnorm q a.1) - rho * ((1 + eta / alpha) * pnorm q b.1)| ≤ rho * ((1 + eta / alpha) * B) * dist a b := by
      rw [show rho * ((1 + eta / alpha) * pnorm q a.1) - rho * ((1 + eta / alpha) * pnorm q b.1) =
        rho * (1 + eta / alpha) * (pnorm q a.1 - pnorm q b.1) by ring, abs_mul, abs_of_nonneg (show 0 ≤ rho * (1 + eta / alpha) by positivity)]
      have h1 := (hBl a.1 b.1).trans (mul_le_mul_of_nonneg_left d1 hB)
      have := mul_le_mul_of_nonneg_left h1 (show 0 ≤ rho * (1 + eta / alpha) by positivity)
      linarith
    unfold pfValue
    rw [add_sub_add_comm]
    refine (abs_add_le _ _).trans ?_
    rw [hK]
    linarith
  have hf : ∀ a b : (Fin d → ℝ) × ℝ, |pfLaw q eta alpha rho nu a.1 a.2 - pfLaw q eta alpha rho nu b.1 b.2| ≤ K * dist a b := by
    intro a b
    obtain ⟨ω, h1, h2, h3⟩ := ((hlim a.1 a.2).and ((hlim b.1 b.2).and hlip)).exists
    refine le_of_tendsto (h1.sub h2).abs ?_
    filter_upwards [h3] with n hn
    exact hn a b
  have hDlim : ∀ᵐ ω ∂μ, ∀ a ∈ D, Tendsto (fun n => pfValue q eta alpha rho (fun i : Fin n => Z i ω) a.1 a.2) atTop (𝓝 (pfLaw q eta alpha rho nu a.1 a.2)) := by
    rw [ae_ball_iff hDc]
    exact fun a _ => hlim a.1 a.2
  -- equal weights
  set w0 : Fin d → ℝ := fun _ => 1 / d with hw0
  have hd' : (0 : ℝ) < d := by exact_mod_cast hd
  have hw0s : InSimplex w0 := ⟨fun _ => by positivity, by simp [hw0, hd'.ne']⟩
  have hset : ∀ V : (Fin d → ℝ) × ℝ → ℝ, (fun a : (Fin d → ℝ) × ℝ => V a) '' {a | InSimplex a.1} = {v | ∃ w' t', InSimplex w' ∧ v = V (w', t')} := by
    intro V
    ext v
    constructor
    · rintro ⟨a, ha', rfl⟩; exact ⟨a.1, a.2, ha', rfl⟩
    · rintro ⟨w', t', hw', rfl⟩; exact ⟨(w', t'), hw', rfl⟩
  have hbdd : BddBelow ((fun a : (Fin d → ℝ) × ℝ => pfLaw q eta alpha rho nu a.1 a.2) '' {a | InSimplex a.1}) := by
    refine ⟨-(1 + eta) * ∫ x, rowSize x ∂nu, ?_⟩
    rintro _ ⟨a, ha', rfl⟩
    have h1 : -(1 + eta) * ∫ x, rowSize x ∂nu ≤ cvarRisk eta alpha a.1 a.2 nu := by
      unfold cvarRisk
      rw [← integral_const_mul]
      refine integral_mono (hrow.const_mul _) (cvar_law_integrable hx eta alpha a.1 a.2) fun x => ?_
      have h2 := meanCVaR_below (eta := eta) ha ha1.le (∑ j, a.1 j * x j) a.2
      have h3 := (abs_le.1 (return_le ha' x)).2
      have h4 := mul_le_mul_of_nonneg_left h3 (show 0 ≤ 1 + eta by linarith)
      dsimp only
      linarith
    have h2 := pnorm_nonneg q a.1
    have h3 : 0 ≤ rho * ((1 + eta / alpha) * pnorm q a.1) := by positivity
    dsimp only
    unfold pfLaw
    linarith
  filter_upwards [hlip, hDlim, hlim w0 0, hsize] with ω l1 l2 l3 l4 w t hmin
  -- without the risk term the threshold is free
  set t' : ℕ → ℝ := fun n => if eta = 0 then 0 else t n with ht'
  have hfree : ∀ (x : Fin d → ℝ) (u : Fin d → ℝ) n, meanCVaR eta alpha (∑ j, u j * x j) (t' n) = meanCVaR eta alpha (∑ j, u j * x j) (t n) := by
    intro x u n
    simp only [ht']
    split_ifs with h0
    · simp [meanCVaR, h0]
    · rfl
  have hv1 : ∀ n, pfValue q eta alpha rho (fun i : Fin n => Z i ω) (w n) (t' n) = pfValue q eta alpha rho (fun i : Fin n => Z i ω) (w n) (t n) := by
    intro n; unfold pfValue; simp only [hfree]
  have hv2 : ∀ n, pfLaw q eta alpha rho nu (w n) (t' n) = pfLaw q eta alpha rho nu (w n) (t n) := by
    intro n; unfold pfLaw cvarRisk; simp only [hfree]
  set C : ℝ := pfLaw q eta alpha rho nu w0 0 + 1 + (1 + eta / alpha) * ((∫ x, rowSize x ∂nu) + 1) with hC
  set R : ℝ := 1 + (|C| / eta + |C| / (eta * (1 / alpha - 1))) with hR
  have hR0 : 0 ≤ |C| / eta + |C| / (eta * (1 / alpha - 1)) := by
    have : 0 ≤ 1 / alpha - 1 := by rw [sub_nonneg, le_div_iff₀ ha]; linarith
    positivity
  have hbound : ∀ᶠ n in atTop, dist (w n, t' n) ((0 : Fin d → ℝ), (0 : ℝ)) ≤ R := by
    filter_upwards [l3.eventually_le_const (lt_add_one _), l4.eventually_le_const (lt_add_one _), eventually_gt_atTop 0] with n m1 m2 hn
    obtain ⟨hsim, hm⟩ := hmin n hn
    have hm0 := (hm w0 0 hw0s).trans m1
    have hw : dist (w n) 0 ≤ 1 := by
      rw [dist_zero_right, pi_norm_le_iff_of_nonneg zero_le_one]
      intro j
      rw [Real.norm_of_nonneg (hsim.1 j)]
      exact hsim.2 ▸ Finset.single_le_sum (f := w n) (fun k _ => hsim.1 k) (Finset.mem_univ j)
    have hp0 : 0 ≤ rho * ((1 + eta / alpha) * pnorm q (w n)) := by have := pnorm_nonneg q (w n); positivity
    have hle : ∀ c : ℝ, (∀ i : Fin n, c ≤ meanCVaR eta alpha (∑ j, w n j * Z i ω j) (t n) + (1 + eta / alpha) * rowSize (Z i ω)) → c ≤ C := by
      intro c hc
      have h1 : c ≤ avg fun i : Fin n => meanCVaR eta alpha (∑ j, w n j * Z i ω j) (t n) + (1 + eta / alpha) * rowSize (Z i ω) := by
        rw [← avg_const hn c]
        exact avg_mono' hc
      rw [avg_add, avg_const_mul] at h1
      have h2 := mul_le_mul_of_nonneg_left m2 (show 0 ≤ 1 + eta / alpha by positivity)
      unfold pfValue at hm0
      rw [hC]
      linarith
    have ht : |t' n| ≤ R := by
      simp only [ht']
      split_ifs with h0
      · simp only [abs_zero]; rw [hR]; linarith
      have hep : 0 < eta := lt_of_le_of_ne he (Ne.symm h0)
      have hap : 0 < 1 / alpha - 1 := by rw [sub_pos, lt_div_iff₀ ha]; linarith
      have u1 : eta * t n ≤ |C| := by
        refine (hle _ fun i => ?_).trans (le_abs_self _)
        have h1 : -(∑ j, w n j * Z i ω j) + eta * t n ≤ meanCVaR eta alpha (∑ j, w n j * Z i ω j) (t n) := by unfold meanCVaR; exact le_max_left _ _
        have h2 := (abs_le.1 (return_le hsim (Z i ω))).2
        have h3 := mul_nonneg hs (rowSize_pos (Z i ω)).le
        linarith
      have u2 : eta * (1 / alpha - 1) * -t n ≤ |C| := by
        refine (hle _ fun i => ?_).trans (le_abs_self _)
        have h1 : (-1 - eta / alpha) * (∑ j, w n j * Z i ω j) + eta * (1 - 1 / alpha) * t n ≤ meanCVaR eta alpha (∑ j, w n j * Z i ω j) (t n) := by
          unfold meanCVaR; exact le_max_right _ _
        have h2 := (abs_le.1 (return_le hsim (Z i ω))).2
        have h3 := mul_le_mul_of_nonneg_left h2 (show 0 ≤ 1 + eta / alpha by positivity)
        linarith
      have v1 : t n ≤ |C| / eta := by rw [le_div_iff₀ hep]; linarith
      have v2 : -t n ≤ |C| / (eta * (1 / alpha - 1)) := by rw [le_div_iff₀ (by positivity)]; linarith
      have v3 : 0 ≤ |C| / eta := by positivity
      have v4 : 0 ≤ |C| / (eta * (1 / alpha - 1)) := by positivity
      rw [hR]
      exact abs_le.2 ⟨by linarith, by linarith⟩
    rw [Prod.dist_eq]
    refine max_le (hw.trans (by rw [hR]; linarith)) ?_
    rw [dist_zero_right]
    exact ht
  have := minimisers_converge (E := (Fin d → ℝ) × ℝ) (F := fun n a => pfValue q eta alpha rho (fun i : Fin n => Z i ω) a.1 a.2)
    (f := fun a => pfLaw q eta alpha rho nu a.1 a.2) hK0 l1 hf hDd l2 (S := {a | InSimplex a.1}) ⟨(w0, 0), hw0s⟩ hbdd (x := fun n => (w n, t' n))
    (by
      filter_upwards [eventually_gt_atTop 0] with n hn
      refine ⟨(hmin n hn).1, fun y hy => ?_⟩
      rw [hv1]
      exact (hmin n hn).2 y.1 y.2 hy) hbound
  rw [hset fun a => pfLaw q eta alpha rho nu a.1 a.2] at this
  simp only [hv1, hv2] at this
  exact this

/-! ## The worst case over the laws close to a law -/

/-- the loss under a law of moved returns -/
theorem pfLaw_upper {p q : XNum ℝ} (hpq : Conj p q) [IsProbabilityMeasure nu] (hx : ∀ j, Integrable (fun z => z j) nu) {eta alpha rho : ℝ} (he : 0 ≤ eta)
    (ha : 0 < alpha) (theta : Fin d → ℝ) (tau : ℝ) {Q : Measure (Fin d → ℝ)} (hQ : Q ∈ MovedReturns nu p rho) :
    cvarRisk eta alpha theta tau Q ≤ pfLaw q eta alpha rho nu theta tau := by
  obtain ⟨π, h1, h2, h3, h4⟩ := hQ
  have hs : 0 ≤ eta / alpha := by positivity
  have hN := pnorm_nonneg q theta
  set L : (Fin d → ℝ) → ℝ := fun x => meanCVaR eta alpha (∑ j, theta j * x j) tau with hL
  have hLm : _root_.Measurable L := cvar_measurable eta alpha theta tau
  have hL1 : Integrable (fun z : (Fin d → ℝ) × (Fin d → ℝ) => L z.1) π := by
    have := cvar_law_integrable hx eta alpha theta tau
    rw [← h1] at this
    exact this.comp_measurable measurable_fst
  have hpt : ∀ z : (Fin d → ℝ) × (Fin d → ℝ), |L z.2 - L z.1| ≤ (1 + eta / alpha) * pnorm q theta * pnorm p fun j => z.1 j - z.2 j := by
    intro z
    have a1 := meanCVaR_two he ha (∑ j, theta j * z.2 j) (∑ j, theta j * z.1 j) tau tau
    have a2 : |∑ j, theta j * z.2 j - ∑ j, theta j * z.1 j| ≤ pnorm q theta * pnorm p fun j => z.1 j - z.2 j := by
      rw [← Finset.sum_sub_distrib]
      have := holder_abs hpq theta fun j => z.2 j - z.1 j
      rw [pnorm_sub_comm] at this
      simpa only [mul_sub] using this
    have a3 := mul_le_mul_of_nonneg_left a2 (show 0 ≤ 1 + eta / alpha by positivity)
    simp only [sub_self, abs_zero, mul_zero, add_zero] at a1
    rw [mul_assoc]
    exact a1.trans a3
  have hdiff : Integrable (fun z : (Fin d → ℝ) × (Fin d → ℝ) => L z.2 - L z.1) π :=
    (h3.const_mul ((1 + eta / alpha) * pnorm q theta)).mono' ((hLm.comp measurable_snd).sub (hLm.comp measurable_fst)).aestronglyMeasurable
      (ae_of_all _ fun z => by rw [Real.norm_eq_abs]; exact hpt z)
  have e1 : cvarRisk eta alpha theta tau Q = ∫ z, L z.2 ∂π := by
    unfold cvarRisk
    rw [← h2, integral_map measurable_snd.aemeasurable hLm.aestronglyMeasurable]
  have e2 : cvarRisk eta alpha theta tau nu = ∫ z, L z.1 ∂π := by
    unfold cvarRisk
    rw [← h1, integral_map measurable_fst.aemeasurable hLm.aestronglyMeasurable]
  have e3 : ∫ z, L z.2 ∂π = ∫ z, L z.1 ∂π + ∫ z, (L z.2 - L z.1) ∂π := by
    rw [← integral_add hL1 hdiff]
    simp
  have e4 : ∫ z, (L z.2 - L z.1) ∂π ≤ (1 + eta / alpha) * pnorm q theta * ∫ z, pnorm p (fun j => z.1 j - z.2 j) ∂π := by
    rw [← integral_const_mul]
    exact integral_mono hdiff (h3.const_mul _) fun z => (le_abs_self _).trans (hpt z)
  have e5 := mul_le_mul_of_nonneg_left h4 (show 0 ≤ (1 + eta / alpha) * pnorm q theta by positivity)
  unfold pfLaw
  rw [e1, e2, e3]
  linarith

/-- moving a fraction `δ` of the mass far along the least favourable direction -/
theorem pfLaw_move {p q : XNum ℝ} (hpq : Conj p q) (hd : 0 < d) [IsProbabilityMeasure nu] (hx : ∀ j, Integrable (fun z => z j) nu) {eta alpha rho : ℝ}
    (hr : 0 ≤ rho) (theta : Fin d → ℝ) (tau : ℝ) {δ : ℝ} (h0 : 0 < δ) (h1 : δ ≤ 1) :
    ∃ Q ∈ MovedReturns nu p rho, (1 - δ) * cvarRisk eta alpha theta tau nu +
      δ * (∫ x, (pfB eta alpha 1 * tau + pfA eta alpha 1 * ∑ j, theta j * x j) ∂nu) + rho * ((1 + eta / alpha) * pnorm q theta) ≤
      cvarRisk eta alpha theta tau Q := by
  obtain ⟨u, hu1, hu2⟩ := holder_attained' hpq hd theta
  set c : Fin 2 → (Fin d → ℝ) → ℝ := fun k _ => if k = 0 then 1 - δ else δ with hc
  set T : Fin 2 → (Fin d → ℝ) → (Fin d → ℝ) := fun k x => if k = 0 then x else fun j => x j - rho / δ * u j with hT
  have hc0 : ∀ k z, 0 ≤ c k z := fun k z => by simp only [hc]; split_ifs <;> linarith
  have hcm : ∀ k, _root_.Measurable (c k) := fun k => measurable_const
  have hTm : ∀ k, _root_.Measurable (T k) := by
    intro k
    simp only [hT]
    split_ifs
    · exact measurable_id
    · fun_prop
  have hsum : ∀ z, ∑ k, c k z = 1 := fun z => by simp [hc, Fin.sum_univ_two]
  have hz : pnorm p (fun _ : Fin d => (0 : ℝ)) = 0 := (pnorm_eq_zero hpq.normOrder_left _).2 fun _ => rfl
  have hcost : ∀ k z, c k z * pnorm p (fun j => z j - T k z j) = if k = 0 then 0 else rho * pnorm p u := by
    intro k z
    simp only [hc, hT]
    split_ifs with hk
    · simp [hz]
    · simp only [sub_sub_cancel]
      rw [pnorm_scale hpq.normOrder_left (by positivity)]
      field_simp
  have hpm : _root_.Measurable fun z : (Fin d → ℝ) × (Fin d → ℝ) => pnorm p fun j => z.1 j - z.2 j :=
    pnorm_measurable.comp (by fun_prop)
  have hI := mixPlan_integral (nu := nu) hcm hc0 hTm hpm (fun k => by simp only [hcost]; exact integrable_const _)
  set L : (Fin d → ℝ) → ℝ := fun x => meanCVaR eta alpha (∑ j, theta j * x j) tau with hL
  have hLm : _root_.Measurable L := cvar_measurable eta alpha theta tau
  have hret : ∀ z : Fin d → ℝ, ∑ j, theta j * (z j - rho / δ * u j) = ∑ j, theta j * z j - rho / δ * pnorm q theta := by
    intro z
    rw [← hu2, Finset.mul_sum, ← Finset.sum_sub_distrib]
    exact Finset.sum_congr rfl fun j _ => by ring
  have hri := return_integrable hx theta
  have hmoved : Integrable (fun z : Fin d → ℝ => meanCVaR eta alpha (∑ j, theta j * (z j - rho / δ * u j)) tau) nu := by
    simp only [hret]
    unfold meanCVaR
    have h := hri.sub (integrable_const (rho / δ * pnorm q theta))
    exact (h.neg.add (integrable_const _)).sup ((h.const_mul _).add (integrable_const _))
  have hLi : ∀ k, Integrable (fun z => c k z * L (T k z)) nu := by
    intro k
    simp only [hc, hT, hL]
    split_ifs
    · exact (cvar_law_integrable hx eta alpha theta tau).const_mul _
    · exact hmoved.const_mul _
  have hJ := mixPlan_integral (nu := nu) hcm hc0 hTm (F := fun z => L z.2) (hLm.comp measurable_snd) hLi
  refine ⟨(mixPlan nu c T).map Prod.snd, ⟨mixPlan nu c T, mixPlan_fst hcm hc0 hsum hTm, rfl, hI.1, ?_⟩, ?_⟩
  · rw [hI.2]
    simp only [hcost, Fin.sum_univ_two]
    simp
    nlinarith
  · have e : cvarRisk eta alpha theta tau ((mixPlan nu c T).map Prod.snd) = ∫ z, L z.2 ∂(mixPlan nu c T) := by
      unfold cvarRisk
      rw [integral_map measurable_snd.aemeasurable hLm.aestronglyMeasurable]
    rw [e, hJ.2, Fin.sum_univ_two]
    have e0 : ∫ z, c 0 z * L (T 0 z) ∂nu = (1 - δ) * cvarRisk eta alpha theta tau nu := by
      simp only [hc, hT, if_true]
      rw [integral_const_mul]
      rfl
    have e1 : ∫ z, c 1 z * L (T 1 z) ∂nu = δ * ∫ z, meanCVaR eta alpha (∑ j, theta j * (z j - rho / δ * u j)) tau ∂nu := by
      simp only [hc, hT, one_ne_zero, if_false]
      rw [integral_const_mul]
    have hlin : Integrable (fun x => pfB eta alpha 1 * tau + pfA eta alpha 1 * ∑ j, theta j * x j) nu := (integrable_const _).add (hri.const_mul _)
    have e2 : (∫ x, (pfB eta alpha 1 * tau + pfA eta alpha 1 * ∑ j, theta j * x j) ∂nu) + rho / δ * ((1 + eta / alpha) * pnorm q theta) ≤
        ∫ z, meanCVaR eta alpha (∑ j, theta j * (z j - rho / δ * u j)) tau ∂nu := by
      have : (∫ x, (pfB eta alpha 1 * tau + pfA eta alpha 1 * ∑ j, theta j * x j) ∂nu) + rho / δ * ((1 + eta / alpha) * pnorm q theta) =
          ∫ x, ((pfB eta alpha 1 * tau + pfA eta alpha 1 * ∑ j, theta j * x j) + rho / δ * ((1 + eta / alpha) * pnorm q theta)) ∂nu := by
        rw [integral_add hlin (integrable_const _), integral_const]
        simp
      rw [this]
      refine integral_mono (hlin.add (integrable_const _)) hmoved fun z => ?_
      dsimp only
      rw [hret, meanCVaR_eq]
      refine le_trans (le_of_eq ?_) (le_max_right _ _)
      simp only [pfA]; simp; ring
    have e3 := mul_le_mul_of_nonneg_left e2 h0.le
    have e4 : δ * (rho / δ * ((1 + eta / alpha) * pnorm q theta)) = rho * ((1 + eta / alpha) * pnorm q theta) := by field_simp
    rw [e0, e1]
    linarith

/-- the worst-case risk under a law -/
theorem pfLaw_lub {p q : XNum ℝ} (hpq : Conj p q) (hd : 0 < d) [IsProbabilityMeasure nu] (hx : ∀ j, Integrable (fun z => z j) nu) {eta alpha rho : ℝ}
    (he : 0 ≤ eta) (ha : 0 < alpha) (hr : 0 ≤ rho) (theta : Fin d → ℝ) (tau : ℝ) :
    IsLUB {e | ∃ Q ∈ MovedReturns nu p rho, e = cvarRisk eta alpha theta tau Q} (pfLaw q eta alpha rho nu theta tau) := by
  constructor
  · rintro _ ⟨Q, hQ, rfl⟩
    exact pfLaw_upper hpq hx he ha theta tau hQ
  · intro M hM
    unfold pfLaw
    set A := cvarRisk eta alpha theta tau nu
    set B := ∫ x, (pfB eta alpha 1 * tau + pfA eta alpha 1 * ∑ j, theta j * x j) ∂nu
    set R := rho * ((1 + eta / alpha) * pnorm q theta)
    by_contra hlt
    push Not at hlt
    have hstep : ∀ δ, 0 < δ → δ ≤ 1 → A + R + δ * (B - A) ≤ M := by
      intro δ h0 h01
      obtain ⟨Q, hQ, hle⟩ := pfLaw_move hpq hd hx (eta := eta) (alpha := alpha) hr theta tau h0 h01
      have := hle.trans (hM ⟨Q, hQ, rfl⟩)
      change (1 - δ) * A + δ * B + R ≤ M at this
      linarith
    set δ := min 1 ((A + R - M) / (2 * (|B - A| + 1))) with hδ
    have hp : 0 < |B - A| + 1 := by positivity
    have hδ0 : 0 < δ := lt_min one_pos (div_pos (by linarith) (by positivity))
    have hδ1 := hstep δ hδ0 (min_le_left _ _)
    have hδ2 : δ * (|B - A| + 1) ≤ (A + R - M) / 2 := by
      have : δ ≤ (A + R - M) / (2 * (|B - A| + 1)) := min_le_right _ _
      have := mul_le_mul_of_nonneg_right this hp.le
      refine this.trans (le_of_eq ?_)
      field_simp
    have := neg_abs_le (B - A)
    have := mul_le_mul_of_nonneg_left this hδ0.le
    nlinarith

/-- **C136** Portfolio with `solver="dedicated"`, a level `alpha` below one and no bounds on the returns, fitted on the first `n` points of a sequence
of pairwise independent draws of a law of integrable returns: with probability one, as `n` grows, the worst-case mean-CVaR loss of the stored
weights and threshold when the returns drawn from the law move by at most `rho` on average converges to the best such loss over all the weights and
thresholds, and so does the worst-case loss reached on the data. -/
theorem C136_portfolio {G : Type} {ext : TorchExt G} {solve : Oracle} {P : EstParams} {g : G} {q p : ℕ} (hq : 1 ≤ q) (hs : ExactSolver solve)
    {grads : Autograd d} {train : Trainer d} {p0 : Portfolio} (hP : P.solver = "dedicated".toList)
    (hc : P.cost = joinDash ["t".toList, "NC".toList, decimal q, decimal p]) {rho : ℝ} (hR : P.rho = .num rho) (hr : 0 ≤ rho) (he : 0 ≤ P.eta)
    (ha : 0 < P.alpha) (ha1 : P.alpha < 1) (hg : P.solver_reg ≠ none) (hd : 0 < d)
    (h : DrawsOf μ nu Z) (hx : ∀ j, Integrable (fun z => z j) nu) :
    ∃ best : ℝ, IsGLB {M | ∃ w' t', InSimplex w' ∧ ∀ Q ∈ MovedReturns nu (.fin q) rho, cvarRisk P.eta P.alpha w' t' Q ≤ M} best ∧
    ∀ᵐ ω ∂μ, ∃ (w : ℕ → Fin d → ℝ) (t V V' : ℕ → ℝ), (∀ n, 0 < n →
        (∃ f wT tT, portfolioFit ext grads solve train p0 P (zeroC d) zeroD (fun i : Fin n => Z i ω) g = .ok f ∧
          f.coef = some wT ∧ IsVec wT (w n) ∧ f.tau = some tT ∧ IsVec tT (fun _ : Fin 1 => t n)) ∧ InSimplex (w n) ∧
        IsLUB {e | ∃ Q ∈ AssetBall (zeroC d) zeroD (.fin q) (fun i : Fin n => Z i ω) rho, e = cvarRisk P.eta P.alpha (w n) (t n) Q} (V n)) ∧
      (∀ n, IsLUB {e | ∃ Q ∈ MovedReturns nu (.fin q) rho, e = cvarRisk P.eta P.alpha (w n) (t n) Q} (V' n)) ∧
      Tendsto V atTop (𝓝 best) ∧ Tendsto V' atTop (𝓝 best) := by
  have hnu := draws_probability h
  have hp : NormOrder (.fin (q : ℝ)) := Or.inl ⟨q, by exact_mod_cast hq, rfl⟩
  obtain ⟨q', hq'⟩ : ∃ q', pfQ (.fin (q : ℝ)) = .ok q' := by
    simp only [pfQ]
    split_ifs with h1 h2
    · exact ⟨_, rfl⟩
    · have : (1 : ℝ) ≤ q := by exact_mod_cast hq
      linarith
    · exact ⟨_, rfl⟩
  have hpq := pfQ_conj hp hq'
  have hl := fun w t => pfLaw_lub hpq hd hx he ha hr w t
  have hd' : (0 : ℝ) < d := by exact_mod_cast hd
  have hw0s : InSimplex (fun _ : Fin d => 1 / (d : ℝ)) := ⟨fun _ => by positivity, by simp [hd'.ne']⟩
  have hbdd : BddBelow {v | ∃ w' t', InSimplex w' ∧ v = pfLaw q' P.eta P.alpha rho nu w' t'} := by
    refine ⟨-(1 + P.eta) * ∫ x, rowSize x ∂nu, ?_⟩
    rintro _ ⟨w', t', ha', rfl⟩
    have h1 : -(1 + P.eta) * ∫ x, rowSize x ∂nu ≤ cvarRisk P.eta P.alpha w' t' nu := by
      unfold cvarRisk
      rw [← integral_const_mul]
      refine integral_mono ((returnSize_integrable hx).const_mul _) (cvar_law_integrable hx P.eta P.alpha w' t') fun x => ?_
      have h2 := meanCVaR_below (eta := P.eta) ha ha1.le (∑ j, w' j * x j) t'
      have h3 := (abs_le.1 (return_le ha' x)).2
      have h4 := mul_le_mul_of_nonneg_left h3 (show 0 ≤ 1 + P.eta by linarith)
      dsimp only
      linarith
    have h2 := pnorm_nonneg q' w'
    have h3 : 0 ≤ rho * ((1 + P.eta / P.alpha) * pnorm q' w') := by positivity
    unfold pfLaw
    linarith
  refine ⟨sInf {v | ∃ w' t', InSimplex w' ∧ v = pfLaw q' P.eta P.alpha rho nu w' t'}, ⟨?_, ?_⟩, ?_⟩
  · rintro M ⟨w', t', hw', hM⟩
    refine (csInf_le hbdd ⟨w', t', hw', rfl⟩).trans ((hl w' t').2 ?_)
    rintro _ ⟨Q, hQ, rfl⟩
    exact hM Q hQ
  · intro m hm
    refine le_csInf ⟨_, _, 0, hw0s, rfl⟩ ?_
    rintro _ ⟨w', t', hw', rfl⟩
    exact hm ⟨w', t', hw', fun Q hQ => (hl w' t').1 ⟨Q, hQ, rfl⟩⟩
  · filter_upwards [portfolio_minimisers hpq hd h hx he ha ha1 hr] with ω hω
    have hex := fun n (hn : 0 < n) w (hw : InSimplex w) t => (C63_exact hp hq' hn hd (C := zeroC d) (d := zeroD) (fun _ _ => rfl) (fun _ => le_rfl) he ha hr
      (fun i : Fin n => Z i ω) hw t).1
    have key : ∀ n, ∃ (w : Fin d → ℝ) (t : ℝ), 0 < n →
        (∃ f wT tT, portfolioFit ext grads solve train p0 P (zeroC d) zeroD (fun i : Fin n => Z i ω) g = .ok f ∧
          f.coef = some wT ∧ IsVec wT w ∧ f.tau = some tT ∧ IsVec tT (fun _ : Fin 1 => t)) ∧
        InSimplex w ∧ ∀ w' t', InSimplex w' →
          pfValue q' P.eta P.alpha rho (fun i : Fin n => Z i ω) w t ≤ pfValue q' P.eta P.alpha rho (fun i : Fin n => Z i ω) w' t' := by
      intro n
      by_cases hn : 0 < n
      · obtain ⟨f, wT, tT, lT, w, t, lam, V, h1, h2, h3, h4, h5, -, -, h6, h7, h8⟩ := C94_portfolio (ext := ext) (g := g) hq hs (grads := grads)
          (train := train) (p0 := p0) hP hc hR hr he ha ha1.le hg hn hd (C := zeroC d) (D := zeroD) (X := fun i : Fin n => Z i ω) (by simp [zeroC, zeroD])
        refine ⟨w, t, fun _ => ⟨⟨f, wT, tT, h1, h2, h3, h4, h5⟩, h6, fun w' t' hw' => ?_⟩⟩
        rw [show pfValue q' P.eta P.alpha rho (fun i : Fin n => Z i ω) w t = V from (hex n hn w h6 t).unique h7]
        exact h8 w' t' hw' _ fun Q hQ => (hex n hn w' hw' t').1 ⟨Q, hQ, rfl⟩
      · exact ⟨0, 0, fun h => absurd h hn⟩
    choose w t hwt using key
    obtain ⟨t1, t2⟩ := hω w t fun n hn => (hwt n hn).2
    exact ⟨w, t, _, _, fun n hn => ⟨(hwt n hn).1, (hwt n hn).2.1, hex n hn (w n) (hwt n hn).2.1 (t n)⟩, fun n => hl (w n) (t n), t2, t1⟩

end
end Skwdro
