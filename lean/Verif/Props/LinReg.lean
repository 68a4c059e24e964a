import Verif.Lemmas.Logistic
import Mathlib.Topology.MetricSpace.ProperSpace.Real
import Mathlib.Analysis.InnerProductSpace.Basic

/-! C61: the dedicated linear regression solver. -/

namespace Skwdro
open Spec MeasureTheory

/-- linear regression objective, as a formula -/
theorem linreg_objective {n d : ℕ} (rho : ℝ) (X : Fin n → Fin d → ℝ) (y : Fin n → ℝ) (fi : Bool) (w : Fin d → ℝ) (b : ℝ) :
    (linregProgram rho X y fi).objective (w, b) = rmse X y w b + rho * norm2 w := by
  unfold linregProgram rmse avg norm2
  simp only
  rw [Real.sqrt_div (Finset.sum_nonneg fun _ _ => sq_nonneg _)]

theorem sq_add_bound {A p q : ℝ} (hp : 0 ≤ p) (hq : 0 ≤ q)
    (h : ∀ t > 0, A ≤ (1 + 1 / t) * p ^ 2 + (1 + t) * q ^ 2) : A ≤ (p + q) ^ 2 := by
  by_contra hA
  push Not at hA
  -- t = (p + e) / (q + e) for small e
  have key : ∀ e > 0, A ≤ (p + q + 2 * e) ^ 2 := by
    intro e he
    have hpe : 0 < p + e := by linarith
    have hqe : 0 < q + e := by linarith
    have := h ((p + e) / (q + e)) (by positivity)
    have h1 : (1 + 1 / ((p + e) / (q + e))) * p ^ 2 ≤ (p + q + 2 * e) * (p + e) := by
      have : (1 + 1 / ((p + e) / (q + e))) = (p + q + 2 * e) / (p + e) := by field_simp; ring
      rw [this, div_mul_eq_mul_div, div_le_iff₀ hpe]
      have : p ^ 2 ≤ (p + e) * (p + e) := by nlinarith
      have := mul_le_mul_of_nonneg_left this (by linarith : 0 ≤ p + q + 2 * e)
      linarith
    have h2 : (1 + (p + e) / (q + e)) * q ^ 2 ≤ (p + q + 2 * e) * (q + e) := by
      have : (1 + (p + e) / (q + e)) = (p + q + 2 * e) / (q + e) := by field_simp; ring
      rw [this, div_mul_eq_mul_div, div_le_iff₀ hqe]
      have : q ^ 2 ≤ (q + e) * (q + e) := by nlinarith
      have := mul_le_mul_of_nonneg_left this (by linarith : 0 ≤ p + q + 2 * e)
      linarith
    nlinarith
  have hA0 : 0 < A := lt_of_le_of_lt (sq_nonneg _) hA
  have hs : p + q < Real.sqrt A := Real.lt_sqrt_of_sq_lt hA
  have := key ((Real.sqrt A - (p + q)) / 4) (by linarith)
  have h2 : (p + q + 2 * ((Real.sqrt A - (p + q)) / 4)) < Real.sqrt A := by linarith
  have h3 : (p + q + 2 * ((Real.sqrt A - (p + q)) / 4)) ^ 2 < Real.sqrt A ^ 2 :=
    pow_lt_pow_left₀ h2 (by linarith) (by norm_num)
  rw [Real.sq_sqrt hA0.le] at h3
  linarith

theorem rmse_sq {n d : ℕ} (X : Fin n → Fin d → ℝ) (y : Fin n → ℝ) (w : Fin d → ℝ) (b : ℝ) :
    rmse X y w b ^ 2 = avg fun i => (∑ j, X i j * w j + b - y i) ^ 2 :=
  Real.sq_sqrt (div_nonneg (Finset.sum_nonneg fun _ _ => sq_nonneg _) (Nat.cast_nonneg _))

theorem rmse_nonneg {n d : ℕ} (X : Fin n → Fin d → ℝ) (y : Fin n → ℝ) (w : Fin d → ℝ) (b : ℝ) : 0 ≤ rmse X y w b :=
  Real.sqrt_nonneg _

theorem resid_measurable {d : ℕ} (w : Fin d → ℝ) (b : ℝ) :
    Measurable fun p : (Fin d → ℝ) × ℝ => (∑ j, p.1 j * w j + b - p.2) ^ 2 := by
  fun_prop

/-- upper bound -/
theorem linreg_upper {n d : ℕ} {rho : ℝ} (hr : 0 ≤ rho) (X : Fin n → Fin d → ℝ) (y : Fin n → ℝ) (w : Fin d → ℝ) (b : ℝ)
    {Q : Measure ((Fin d → ℝ) × ℝ)} (hQ : Q ∈ InputBall X y rho) :
    Integrable (fun p : (Fin d → ℝ) × ℝ => (∑ j, p.1 j * w j + b - p.2) ^ 2) Q ∧
    rmseUnder Q w b ≤ rmse X y w b + rho * norm2 w := by
  obtain ⟨π, hp, hmarg, rfl, hy, hci, hc⟩ := hQ
  have hw := l2norm_nonneg w
  have hR := rmse_nonneg X y w b
  have main : ∀ t > 0, Integrable (fun p : (Fin d → ℝ) × ℝ => (∑ j, p.1 j * w j + b - p.2) ^ 2) (π.map Prod.snd) ∧
      ∫ p, (∑ j, p.1 j * w j + b - p.2) ^ 2 ∂(π.map Prod.snd) ≤ (1 + 1 / t) * (rho * norm2 w) ^ 2 + (1 + t) * rmse X y w b ^ 2 := by
    intro t ht
    have := plan_bound hmarg hci hc (resid_measurable w b) (fun _ => sq_nonneg _)
      (s := fun i => (1 + t) * (∑ j, X i j * w j + b - y i) ^ 2) (lam := (1 + 1 / t) * norm2 w ^ 2) (by positivity) (by
        filter_upwards [hy] with p hpy
        rw [hpy]
        set r := ∑ j, X p.1 j * w j + b - y p.1 with hr
        have hd : ∑ j, p.2.1 j * w j + b - y p.1 = r + ∑ j, (p.2.1 j - X p.1 j) * w j := by
          simp only [sub_mul, Finset.sum_sub_distrib, hr]; ring
        rw [hd]
        have hcs := cs2 (X p.1) p.2.1 w
        generalize ∑ j, (p.2.1 j - X p.1 j) * w j = e at hcs
        have he : e ^ 2 ≤ (dist2 (X p.1) p.2.1 * norm2 w) ^ 2 := by
          rw [← sq_abs]; exact pow_le_pow_left₀ (abs_nonneg _) hcs 2
        have h1 : (r + e) ^ 2 ≤ (1 + t) * r ^ 2 + (1 + 1 / t) * e ^ 2 := by
          have : (1 + t) * r ^ 2 + (1 + 1 / t) * e ^ 2 - (r + e) ^ 2 = (t * r - e) ^ 2 / t := by field_simp; ring
          have := this ▸ (div_nonneg (sq_nonneg (t * r - e)) ht.le)
          linarith
        have h2 := mul_le_mul_of_nonneg_left he (by positivity : 0 ≤ 1 + 1 / t)
        calc _ ≤ _ := h1
          _ ≤ (1 + t) * r ^ 2 + (1 + 1 / t) * (dist2 (X p.1) p.2.1 * norm2 w) ^ 2 := by linarith
          _ = _ := by ring)
    refine ⟨this.1, this.2.trans (le_of_eq ?_)⟩
    rw [rmse_sq]
    unfold avg
    rw [← Finset.mul_sum]
    ring
  refine ⟨(main 1 one_pos).1, ?_⟩
  unfold rmseUnder
  apply Real.sqrt_le_iff.2 ⟨by positivity, ?_⟩
  rw [add_comm]
  exact sq_add_bound (by positivity) hR fun t ht => (main t ht).2

/-- moved data sets belong to the ball -/
theorem moved_inputBall {n d : ℕ} (hn : 0 < n) {rho : ℝ} (X : Fin n → Fin d → ℝ) (y : Fin n → ℝ) (Δ : Fin n → Fin d → ℝ)
    (h : avg (fun i => ∑ j, Δ i j ^ 2) ≤ rho ^ 2) :
    ∃ Q ∈ InputBall X y rho, ∀ w b, rmseUnder Q w b = rmse (fun i j => X i j + Δ i j) y w b := by
  have hn' : (n : ℝ) ≠ 0 := by positivity
  set wt : Fin n → Fin 1 → ℝ := fun _ _ => 1 / n
  set dest : Fin n → Fin 1 → (Fin d → ℝ) × ℝ := fun i _ => (fun j => X i j + Δ i j, y i)
  have hw : ∀ i j, 0 ≤ wt i j := fun i j => by positivity
  have hsum : ∀ i, ∑ j, wt i j = 1 / n := fun i => by simp [wt]
  obtain ⟨h1, h2⟩ := finPlan_marginal hn hw hsum dest
  refine ⟨(finPlan wt dest).map Prod.snd, ⟨finPlan wt dest, h1, h2, rfl, ?_, (finPlan_integral hw dest _).1, ?_⟩, ?_⟩
  · apply finPlan_ae dest
    · exact measurableSet_eq_fun (by fun_prop) ((measurable_of_finite y).comp measurable_fst)
    · intro i j; rfl
  · rw [(finPlan_integral hw dest _).2]
    refine le_trans (le_of_eq ?_) h
    unfold avg
    rw [Finset.sum_div]
    apply Finset.sum_congr rfl
    intro i _
    simp only [Fintype.sum_unique, dist2_sq, dest, wt]
    simp
    ring
  · intro w b
    unfold rmseUnder rmse
    rw [finPlan_snd_integral hw dest (resid_measurable w b)]
    congr 1
    unfold avg
    rw [Finset.sum_div]
    apply Finset.sum_congr rfl
    intro i _
    simp only [Fintype.sum_unique, dest, wt]
    ring

/-- a perturbation reaching the bound -/
theorem linreg_attained {n d : ℕ} (hn : 0 < n) {rho : ℝ} (hr : 0 ≤ rho) (X : Fin n → Fin d → ℝ) (y : Fin n → ℝ) (w : Fin d → ℝ)
    (b : ℝ) : ∃ Δ : Fin n → Fin d → ℝ, avg (fun i => ∑ j, Δ i j ^ 2) ≤ rho ^ 2 ∧
      rmse (fun i j => X i j + Δ i j) y w b = rmse X y w b + rho * norm2 w := by
  have hn' : (n : ℝ) ≠ 0 := by positivity
  set N := norm2 w with hN
  have hN0 : 0 ≤ N := l2norm_nonneg w
  have hNs : ∑ j, w j ^ 2 = N ^ 2 := (l2norm_sq w).symm
  set R := rmse X y w b with hR
  have hR0 : 0 ≤ R := rmse_nonneg X y w b
  have hRs : R ^ 2 = avg fun i => (∑ j, X i j * w j + b - y i) ^ 2 := rmse_sq X y w b
  rcases hN0.eq_or_lt with hz | hpos
  · refine ⟨fun _ _ => 0, by simp [avg]; positivity, ?_⟩
    simp [← hz, hR]
  -- common direction, sizes `c i`
  have gen : ∀ c : Fin n → ℝ, avg (fun i => c i ^ 2) = rho ^ 2 →
      (avg (fun i => ((∑ j, X i j * w j + b - y i) + c i * N) ^ 2) = (R + rho * N) ^ 2) →
      ∃ Δ : Fin n → Fin d → ℝ, avg (fun i => ∑ j, Δ i j ^ 2) ≤ rho ^ 2 ∧ rmse (fun i j => X i j + Δ i j) y w b = R + rho * N := by
    intro c hc hc2
    refine ⟨fun i j => c i * w j / N, le_of_eq ?_, ?_⟩
    · rw [← hc]
      congr 1; funext i
      simp only [div_pow, mul_pow]
      rw [← Finset.sum_div, ← Finset.mul_sum, hNs]
      field_simp
    · unfold rmse
      have : (fun i => (∑ j, (X i j + c i * w j / N) * w j + b - y i) ^ 2) =
          fun i => ((∑ j, X i j * w j + b - y i) + c i * N) ^ 2 := by
        funext i
        have : ∑ j, (X i j + c i * w j / N) * w j = ∑ j, X i j * w j + c i * N := by
          have h2 : ∀ j, (X i j + c i * w j / N) * w j = X i j * w j + c i / N * w j ^ 2 := fun j => by ring
          simp only [h2, Finset.sum_add_distrib]
          rw [← Finset.mul_sum, hNs]
          field_simp
        rw [this]; ring
      rw [this, hc2, Real.sqrt_sq (by positivity)]
  have avg_const : ∀ a : ℝ, avg (fun _ : Fin n => a) = a := by
    intro a; simp [avg]; field_simp
  have avg_mul : ∀ (a : ℝ) (f : Fin n → ℝ), avg (fun i => a * f i) = a * avg f := by
    intro a f; simp [avg, ← Finset.mul_sum]; ring
  rcases hR0.eq_or_lt with hz | hRpos
  · refine gen (fun _ => rho) (avg_const _) ?_
    have h0 : ∀ i, ∑ j, X i j * w j + b - y i = 0 := by
      have hs : ∑ i, (∑ j, X i j * w j + b - y i) ^ 2 = 0 := by
        have := hRs
        rw [← hz] at this
        unfold avg at this
        have h3 := (div_eq_zero_iff.1 (by rw [← this]; norm_num : (∑ i, (∑ j, X i j * w j + b - y i) ^ 2) / (n : ℝ) = 0))
        exact h3.resolve_right hn'
      intro i
      have := (Finset.sum_eq_zero_iff_of_nonneg fun i _ => sq_nonneg _).1 hs i (Finset.mem_univ i)
      exact pow_eq_zero_iff (by norm_num) |>.1 this
    simp only [h0, ← hz]
    rw [avg_const]
  · refine gen (fun i => rho / R * (∑ j, X i j * w j + b - y i)) ?_ ?_
    · simp only [mul_pow]
      rw [avg_mul, ← hRs]
      field_simp
    · have : (fun i => ((∑ j, X i j * w j + b - y i) + rho / R * (∑ j, X i j * w j + b - y i) * N) ^ 2) =
          fun i => (1 + rho * N / R) ^ 2 * (∑ j, X i j * w j + b - y i) ^ 2 := by
        funext i; ring
      rw [this, avg_mul, ← hRs]
      field_simp

/-- C61. The objective minimised by the dedicated linear regression solver is the largest root mean squared error over all
distributions obtained by moving the inputs with mean squared displacement at most `rho^2`; it is reached by a moved data set. -/
theorem C61_worst_case {n d : ℕ} (hn : 0 < n) {rho : ℝ} (hr : 0 ≤ rho) (X : Fin n → Fin d → ℝ) (y : Fin n → ℝ) (fi : Bool)
    (w : Fin d → ℝ) (b : ℝ) :
    IsGreatest {e | ∃ Q ∈ InputBall X y rho, e = rmseUnder Q w b} ((linregProgram rho X y fi).objective (w, b)) ∧
    (∃ Δ : Fin n → Fin d → ℝ, avg (fun i => ∑ j, Δ i j ^ 2) ≤ rho ^ 2 ∧
      rmse (fun i j => X i j + Δ i j) y w b = (linregProgram rho X y fi).objective (w, b)) ∧
    (∀ Q ∈ InputBall X y rho, Integrable (fun p : (Fin d → ℝ) × ℝ => (∑ j, p.1 j * w j + b - p.2) ^ 2) Q) := by
  rw [linreg_objective]
  obtain ⟨Δ, h1, h2⟩ := linreg_attained hn hr X y w b
  obtain ⟨Q, hQ, h3⟩ := moved_inputBall hn X y Δ h1
  refine ⟨⟨⟨Q, hQ, by rw [h3, h2]⟩, ?_⟩, ⟨Δ, h1, h2⟩, fun Q hQ => (linreg_upper hr X y w b hQ).1⟩
  rintro e ⟨Q, hQ, rfl⟩
  exact (linreg_upper hr X y w b hQ).2

/-- the hypotheses are met by a small data set -/
example : ∃ Q ∈ InputBall (n := 2) (d := 1) (fun _ _ => 1) (fun _ => 0) 3, rmseUnder Q (fun _ => 2) 1 = 9 := by
  obtain ⟨⟨⟨Q, hQ, h⟩, -⟩, -, -⟩ := C61_worst_case (n := 2) (d := 1) (by norm_num) (by norm_num : (0 : ℝ) ≤ 3) (fun _ _ => 1) (fun _ => 0) true
    (fun _ => 2) 1
  refine ⟨Q, hQ, ?_⟩
  rw [← h, linreg_objective]
  have h1 : norm2 (fun _ : Fin 1 => (2 : ℝ)) = 2 := by simp [norm2]
  have h2 : rmse (n := 2) (d := 1) (fun _ _ => 1) (fun _ => 0) (fun _ => 2) 1 = 3 := by
    unfold rmse avg
    have : (∑ c : Fin 2, (∑ j : Fin 1, (1 : ℝ) * 2 + 1 - 0) ^ 2) / ((2 : ℕ) : ℝ) = 3 ^ 2 := by simp; norm_num
    exact (congrArg Real.sqrt this).trans (Real.sqrt_sq (by norm_num))
  rw [h1, h2]; norm_num

/-- the parameters a regression may use -/
def linAllowed {d : ℕ} (fit_intercept : Bool) (v : (Fin d → ℝ) × ℝ) : Prop := fit_intercept = false → v.2 = 0

theorem linreg_feasible {n d : ℕ} (rho : ℝ) (X : Fin n → Fin d → ℝ) (y : Fin n → ℝ) (fi : Bool) (v : (Fin d → ℝ) × ℝ) :
    (linregProgram rho X y fi).Feasible v ↔ linAllowed fi v := by
  unfold Program.Feasible linregProgram linAllowed
  cases fi <;> simp

theorem linreg_exists {n d : ℕ} (hn : 0 < n) {rho : ℝ} (hr : 0 < rho) (X : Fin n → Fin d → ℝ) (y : Fin n → ℝ) (fi : Bool) :
    ∃ v, (linregProgram rho X y fi).Optimal v := by
  set f : (Fin d → ℝ) × ℝ → ℝ := fun v => rmse X y v.1 v.2 + rho * norm2 v.1 with hf
  have hfeq : ∀ v, (linregProgram rho X y fi).objective v = f v := fun v => linreg_objective rho X y fi v.1 v.2
  have hcont : Continuous f := by
    unfold f rmse norm2 avg
    fun_prop
  have hn' : (0 : ℝ) < n := by exact_mod_cast hn
  set A := f (0, 0) with hA
  have hA0 : 0 ≤ A := add_nonneg (rmse_nonneg _ _ _ _) (mul_nonneg hr.le (l2norm_nonneg _))
  set i0 : Fin n := ⟨0, hn⟩
  set B := A / rho + (Real.sqrt n * A + |y i0| + ∑ j, |X i0 j| * (A / rho)) with hB
  have hB1 : A / rho ≤ B := by
    have : 0 ≤ Real.sqrt n * A + |y i0| + ∑ j, |X i0 j| * (A / rho) := by positivity
    linarith
  have hB2 : Real.sqrt n * A + |y i0| + ∑ j, |X i0 j| * (A / rho) ≤ B := by
    have : 0 ≤ A / rho := by positivity
    linarith
  have hbd : ∀ v, f v ≤ A → (∀ j, |v.1 j| ≤ B) ∧ |v.2| ≤ B := by
    intro v hv
    have h1 : rho * norm2 v.1 ≤ A := by have := rmse_nonneg X y v.1 v.2; simp only [hf] at hv; linarith
    have h2 : rmse X y v.1 v.2 ≤ A := by
      have := mul_nonneg hr.le (l2norm_nonneg v.1); simp only [hf] at hv; linarith
    have h3 : norm2 v.1 ≤ A / rho := by rw [le_div_iff₀ hr]; linarith
    have hj : ∀ j, |v.1 j| ≤ A / rho := fun j => (abs_le_norm2 v.1 j).trans h3
    refine ⟨fun j => (hj j).trans hB1, ?_⟩
    have h4 : |∑ j, X i0 j * v.1 j + v.2 - y i0| ≤ Real.sqrt n * A := by
      have : norm2 (fun i => ∑ j, X i j * v.1 j + v.2 - y i) ≤ Real.sqrt n * A := by
        have h5 : rmse X y v.1 v.2 = norm2 (fun i => ∑ j, X i j * v.1 j + v.2 - y i) / Real.sqrt n := by
          unfold rmse avg norm2
          rw [Real.sqrt_div (Finset.sum_nonneg fun _ _ => sq_nonneg _)]
        rw [h5, div_le_iff₀ (Real.sqrt_pos.2 hn')] at h2
        linarith
      exact (abs_le_norm2 (fun i => ∑ j, X i j * v.1 j + v.2 - y i) i0).trans this
    have h6 : |∑ j, X i0 j * v.1 j| ≤ ∑ j, |X i0 j| * (A / rho) := by
      refine (Finset.abs_sum_le_sum_abs _ _).trans (Finset.sum_le_sum fun j _ => ?_)
      rw [abs_mul]
      exact mul_le_mul_of_nonneg_left (hj j) (abs_nonneg _)
    refine le_trans ?_ hB2
    rw [abs_le] at h4 h6 ⊢
    have := neg_abs_le (y i0)
    have := le_abs_self (y i0)
    constructor <;> linarith
  set K : Set ((Fin d → ℝ) × ℝ) := (Set.univ.pi fun _ => Set.Icc (-B) B) ×ˢ Set.Icc (-B) B with hK
  have hKc : IsCompact (K ∩ {v | linAllowed fi v}) := by
    apply IsCompact.inter_right
    · exact (isCompact_univ_pi fun _ => isCompact_Icc).prod isCompact_Icc
    · unfold linAllowed
      cases fi
      · simp only [true_imp_iff]
        exact isClosed_eq continuous_snd continuous_const
      · simp
  have hmem : ∀ v, f v ≤ A → v ∈ K := by
    intro v hv
    obtain ⟨h1, h2⟩ := hbd v hv
    exact ⟨fun j _ => abs_le.1 (h1 j), abs_le.1 h2⟩
  obtain ⟨v, hv, hmin⟩ := hKc.exists_isMinOn ⟨(0, 0), hmem _ le_rfl, fun _ => rfl⟩ hcont.continuousOn
  refine ⟨v, (linreg_feasible ..).2 hv.2, fun u hu => ?_⟩
  rw [hfeq, hfeq]
  by_cases h : f u ≤ A
  · exact hmin ⟨hmem u h, (linreg_feasible ..).1 hu⟩
  · push Not at h
    have := hmin (a := (0, 0)) ⟨hmem _ le_rfl, fun _ => rfl⟩
    exact le_trans this h.le

/-- C61. With an exact external solver and a positive radius, the dedicated linear regression solver returns coefficients and an
intercept (zero when no intercept is fitted) whose worst-case root mean squared error is the smallest possible. -/
theorem C61_solver {n d : ℕ} (hn : 0 < n) {rho : ℝ} (hr : 0 < rho) {solve : Oracle} (hs : ExactSolver solve) (X : Fin n → Fin d → ℝ)
    (y : Fin n → ℝ) (fi : Bool) :
    ∃ (w : Fin d → ℝ) (b : ℝ) (r : SolverResult SVal), linregDedicated solve rho X y fi = .ok r ∧
      r.attrs .coef = some (some (.vec (List.ofFn w))) ∧ r.attrs .intercept = some (some (.vec [b])) ∧ (fi = false → b = 0) ∧
      ∀ (w' : Fin d → ℝ) (b' : ℝ), (fi = false → b' = 0) → ∀ M, (∀ Q ∈ InputBall X y rho, rmseUnder Q w' b' ≤ M) →
        ∀ Q ∈ InputBall X y rho, rmseUnder Q w b ≤ M := by
  obtain ⟨v, hv⟩ := (hs _ (linregProgram rho X y fi)).2 (linreg_exists hn hr X y fi)
  have hopt := (hs _ _).1 v hv
  refine ⟨v.1, v.2, _, by unfold linregDedicated; rw [if_pos hr, hv]; rfl, rfl, rfl, (linreg_feasible ..).1 hopt.1, ?_⟩
  intro w' b' hb' M hM Q hQ
  have h1 := (C61_worst_case hn hr.le X y fi v.1 v.2).1.2 ⟨Q, hQ, rfl⟩
  have h2 := hopt.2 (w', b') ((linreg_feasible ..).2 hb')
  obtain ⟨Q', hQ', h3⟩ := (C61_worst_case hn hr.le X y fi w' b').1.1
  have := hM Q' hQ'
  rw [h3] at h2
  exact h1.trans (h2.trans this)

/-- C61. Zero (or negative) radii, which the estimator accepts, are refused. -/
theorem C61_zero_radius_false {n d : ℕ} (solve : Oracle) {rho : ℝ} (hr : rho ≤ 0) (X : Fin n → Fin d → ℝ) (y : Fin n → ℝ)
    (fi : Bool) : linregDedicated solve rho X y fi = .error .assertionError := by
  unfold linregDedicated
  rw [if_neg (not_lt.2 hr)]

end Skwdro
