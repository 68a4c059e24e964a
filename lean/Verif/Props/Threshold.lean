import Verif.Props.Dedicated
import Verif.Props.WitSolvers
import Verif.Props.SessionFits
import Mathlib.Analysis.SpecialFunctions.Trigonometric.DerivHyp
import Mathlib.Analysis.SpecialFunctions.Trigonometric.Series

/-! # C132: the radius from which a dedicated regression ignores the features -/

namespace Skwdro
open Spec Tensor MeasureTheory

section
variable {n d : ℕ}

theorem norm2_zero_iff (v : Fin d → ℝ) : norm2 v = 0 ↔ v = 0 := by
  unfold norm2
  rw [Real.sqrt_eq_zero (Finset.sum_nonneg fun _ _ => sq_nonneg _), Finset.sum_eq_zero_iff_of_nonneg fun _ _ => sq_nonneg _]
  constructor
  · intro h
    funext j
    exact pow_eq_zero_iff (two_ne_zero) |>.1 (h j (Finset.mem_univ _))
  · rintro rfl j -
    simp

theorem dot_le_norm2 (a b : Fin d → ℝ) : ∑ j, a j * b j ≤ norm2 a * norm2 b := Real.sum_mul_le_sqrt_mul_sqrt _ _ _

theorem norm2_smul {t : ℝ} (ht : 0 ≤ t) (v : Fin d → ℝ) : norm2 (fun j => t * v j) = t * norm2 v := by
  unfold norm2
  simp only [mul_pow]
  rw [← Finset.mul_sum, Real.sqrt_mul (sq_nonneg t), Real.sqrt_sq ht]

theorem avg_sum {f : Fin n → Fin d → ℝ} : avg (fun i => ∑ j, f i j) = ∑ j, avg fun i => f i j := by
  unfold avg
  rw [Finset.sum_comm, Finset.sum_div]

theorem avg_sub (f g : Fin n → ℝ) : avg (fun i => f i - g i) = avg f - avg g := by
  unfold avg
  rw [Finset.sum_sub_distrib, sub_div]

theorem avg_nonneg {f : Fin n → ℝ} (h : ∀ i, 0 ≤ f i) : 0 ≤ avg f := div_nonneg (Finset.sum_nonneg fun i _ => h i) (Nat.cast_nonneg _)

theorem avg_mul_le (f g : Fin n → ℝ) : avg (fun i => f i * g i) ≤ Real.sqrt (avg fun i => f i ^ 2) * Real.sqrt (avg fun i => g i ^ 2) := by
  unfold avg
  rw [Real.sqrt_div (Finset.sum_nonneg fun _ _ => sq_nonneg _), Real.sqrt_div (Finset.sum_nonneg fun _ _ => sq_nonneg _), div_mul_div_comm,
    Real.mul_self_sqrt (Nat.cast_nonneg _)]
  exact div_le_div_of_nonneg_right (Real.sum_mul_le_sqrt_mul_sqrt _ _ _) (Nat.cast_nonneg _)

theorem avg_sq_zero (hn : 0 < n) {f : Fin n → ℝ} (h : avg (fun i => f i ^ 2) = 0) (i : Fin n) : f i = 0 := by
  unfold avg at h
  have hn' : (n : ℝ) ≠ 0 := by exact_mod_cast hn.ne'
  rw [div_eq_zero_iff, or_iff_left hn', Finset.sum_eq_zero_iff_of_nonneg fun _ _ => sq_nonneg _] at h
  exact pow_eq_zero_iff (two_ne_zero) |>.1 (h i (Finset.mem_univ _))

/-- `avg` of the products of the features with residuals -/
theorem avg_dot (X : Fin n → Fin d → ℝ) (r : Fin n → ℝ) (w : Fin d → ℝ) :
    avg (fun i => (∑ j, X i j * w j) * r i) = ∑ j, (avg fun i => X i j * r i) * w j := by
  have : (fun i => (∑ j, X i j * w j) * r i) = fun i => ∑ j, (X i j * r i) * w j := by
    funext i
    rw [Finset.sum_mul]
    exact Finset.sum_congr rfl fun j _ => by ring
  rw [this, avg_sum]
  refine Finset.sum_congr rfl fun j _ => ?_
  unfold avg
  rw [← Finset.sum_mul]
  ring

/-! ### Linear regression -/

/-- the slope of the root mean squared error at zero coefficients -/
theorem rmse_slope {X : Fin n → Fin d → ℝ} {y : Fin n → ℝ} {c : ℝ} (w : Fin d → ℝ) (b : ℝ) (hc : (b - c) * avg (fun i => y i - c) = 0) :
    avg (fun i => (y i - c) ^ 2) - norm2 (fun j => avg fun i => X i j * (y i - c)) * norm2 w ≤
      rmse X y w b * Real.sqrt (avg fun i => (y i - c) ^ 2) := by
  have h1 := avg_mul_le (fun i => ∑ j, X i j * w j + b - y i) (fun i => -(y i - c))
  have h2 : avg (fun i => (∑ j, X i j * w j + b - y i) * -(y i - c)) =
      avg (fun i => (y i - c) ^ 2) - ∑ j, (avg fun i => X i j * (y i - c)) * w j - (b - c) * avg (fun i => y i - c) := by
    rw [← avg_dot, ← avg_const_mul, ← avg_sub, ← avg_sub]
    congr 1
    funext i
    ring
  have h3 := dot_le_norm2 (fun j => avg fun i => X i j * (y i - c)) w
  simp only [neg_sq] at h1
  rw [h2, hc] at h1
  unfold rmse
  linarith

theorem rmse_zero (X : Fin n → Fin d → ℝ) (y : Fin n → ℝ) (c : ℝ) : rmse X y 0 c = Real.sqrt (avg fun i => (y i - c) ^ 2) := by
  unfold rmse
  congr 2
  funext i
  simp
  ring

/-- below the threshold some coefficients do better than none -/
theorem rmse_descent (hn : 0 < n) {rho : ℝ} (hr : 0 ≤ rho) {X : Fin n → Fin d → ℝ} {y : Fin n → ℝ} {c : ℝ}
    (h : rho * Real.sqrt (avg fun i => (y i - c) ^ 2) < norm2 fun j => avg fun i => X i j * (y i - c)) :
    ∃ w, rmse X y w c + rho * norm2 w < Real.sqrt (avg fun i => (y i - c) ^ 2) := by
  set g : Fin d → ℝ := fun j => avg fun i => X i j * (y i - c) with hg
  set S := Real.sqrt (avg fun i => (y i - c) ^ 2) with hS
  set N := norm2 g with hN
  have hS0 : 0 ≤ S := Real.sqrt_nonneg _
  have hN0 : 0 < N := lt_of_le_of_lt (mul_nonneg hr hS0) h
  have hSq : S ^ 2 = avg fun i => (y i - c) ^ 2 := Real.sq_sqrt (avg_nonneg fun _ => sq_nonneg _)
  have hSpos : 0 < S := by
    refine lt_of_le_of_ne hS0 fun h0 => hN0.ne' ?_
    have hz : ∀ i, y i - c = 0 := avg_sq_zero hn (by rw [← hSq, ← h0]; norm_num)
    rw [hN, norm2_zero_iff]
    funext j
    simp [hg, hz, avg]
  set K := avg fun i => (∑ j, X i j * g j) ^ 2 with hK
  have hK0 : 0 ≤ K := avg_nonneg fun _ => sq_nonneg _
  set t := min (N * (N - rho * S) / (K + 1)) (S / (2 * (rho * N + 1))) with ht
  have hgap : 0 < N - rho * S := by linarith
  have hrN : 0 ≤ rho * N := mul_nonneg hr hN0.le
  have ht0 : 0 < t := lt_min (by positivity) (by positivity)
  have ht1 : t * K < 2 * (N * (N - rho * S)) := by
    have h1 : t ≤ N * (N - rho * S) / (K + 1) := min_le_left _ _
    have h2 : t * (K + 1) ≤ N * (N - rho * S) := by rwa [le_div_iff₀ (by linarith)] at h1
    have h3 : 0 < N * (N - rho * S) := by positivity
    nlinarith
  have ht2 : rho * (t * N) < S := by
    have h1 : t ≤ S / (2 * (rho * N + 1)) := min_le_right _ _
    rw [le_div_iff₀ (by linarith)] at h1
    nlinarith
  refine ⟨fun j => t * g j, ?_⟩
  rw [norm2_smul ht0.le]
  have hsq : avg (fun i => (∑ j, X i j * (t * g j) + c - y i) ^ 2) = S ^ 2 - 2 * t * N ^ 2 + t ^ 2 * K := by
    have e : ∀ i, (∑ j, X i j * (t * g j) + c - y i) ^ 2 =
        (y i - c) ^ 2 - 2 * t * ((∑ j, X i j * g j) * (y i - c)) + t ^ 2 * (∑ j, X i j * g j) ^ 2 := by
      intro i
      have : ∑ j, X i j * (t * g j) = t * ∑ j, X i j * g j := by
        rw [Finset.mul_sum]
        exact Finset.sum_congr rfl fun j _ => by ring
      rw [this]
      ring
    simp only [e]
    rw [avg_add, avg_sub, avg_const_mul, avg_const_mul, avg_dot, hSq, hN, l2norm_sq]
    simp only [← pow_two, hK, hg]
  have hr1 : rmse X y (fun j => t * g j) c < S - rho * (t * N) := by
    unfold rmse
    rw [hsq]
    rw [Real.sqrt_lt' (by linarith)]
    nlinarith [mul_nonneg (mul_nonneg hr hr) (sq_nonneg (t * N)), mul_pos ht0 (sub_pos.2 ht1)]
  linarith

variable {G : Type} {ext : TorchExt G} {solve : Oracle} {P : EstParams} {g : G}

/-- **C132** Linear regression with `solver="dedicated"`: let `c` be the mean target (zero if no intercept is fitted), and consider the vector of the
average products of each feature with `y - c` (with an intercept, the covariances of the features with the target).  If its Euclidean norm is less
than `rho` times the root mean square of `y - c`, or if all targets are equal to `c`, the fit stores coefficients exactly zero, and the intercept `c`; if it is greater, the coefficients are not zero. -/
theorem C132_linreg (hs : ExactSolver solve) {grads : Autograd d} {train : Trainer d} {init : LinInit d} (hP : P.solver = "dedicated".toList)
    (hcost : ∃ c, cost_from_str P.cost = .ok c) {rho : ℝ} (hR : P.rho = .num rho) (hr : 0 < rho) (hn : 0 < n) (hd : 0 < d)
    (X : Fin n → Fin d → ℝ) (y : Fin n → ℝ) {c : ℝ} (hc1 : P.fit_intercept = true → c = avg y) (hc0 : P.fit_intercept = false → c = 0) :
    ∃ (f : Fitted d) (wT bT : Tensor ℝ) (w : Fin d → ℝ) (b : ℝ), linregFit ext grads solve train init P X y g = .ok f ∧ f.coef = some wT ∧ IsVec wT w ∧
      f.intercept = some bT ∧ IsVec bT (fun _ : Fin 1 => b) ∧
      (norm2 (fun j => avg fun i => X i j * (y i - c)) < rho * Real.sqrt (avg fun i => (y i - c) ^ 2) ∨ (∀ i, y i = c) → (∀ j, w j = 0) ∧ b = c) ∧
      (rho * Real.sqrt (avg fun i => (y i - c) ^ 2) < norm2 (fun j => avg fun i => X i j * (y i - c)) → ∃ j, w j ≠ 0) := by
  obtain ⟨f, wT, bT, w, b, h1, h2, h3, h4, h5, h6, h7⟩ := C94_linreg (ext := ext) (g := g) hs (grads := grads) (train := train) (init := init) hP hcost
    hR hr hn hd X y
  have hopt : ∀ w' b', (P.fit_intercept = false → b' = 0) → rmse X y w b + rho * norm2 w ≤ rmse X y w' b' + rho * norm2 w' := by
    intro w' b' hb'
    have k1 := (C61_worst_case hn hr.le X y P.fit_intercept w' b').1.2
    obtain ⟨Q, hQ, k2⟩ := (C61_worst_case hn hr.le X y P.fit_intercept w b).1.1
    rw [linreg_objective] at k1 k2
    rw [k2]
    exact h7 w' b' hb' _ (fun Q hQ => k1 ⟨Q, hQ, rfl⟩) Q hQ
  set S := Real.sqrt (avg fun i => (y i - c) ^ 2) with hS
  have hSq : S ^ 2 = avg fun i => (y i - c) ^ 2 := Real.sq_sqrt (avg_nonneg fun _ => sq_nonneg _)
  have hS0 : 0 ≤ S := Real.sqrt_nonneg _
  have hn20 : norm2 (0 : Fin d → ℝ) = 0 := (norm2_zero_iff _).2 rfl
  have hmean : ∀ b', (P.fit_intercept = false → b' = 0) → (b' - c) * avg (fun i => y i - c) = 0 := by
    intro b' hb'
    cases hfi : P.fit_intercept with
    | true => rw [avg_sub, avg_const hn, hc1 hfi]; ring
    | false => rw [hb' hfi, hc0 hfi]; ring
  have hle := hopt 0 c hc0
  rw [rmse_zero, hn20, ← hS] at hle
  have hw0 := l2norm_nonneg w
  have hb0 := hmean b h6
  refine ⟨f, wT, bT, w, b, h1, h2, h3, h4, h5, fun hcase => ?_, fun hgt => ?_⟩
  · have hw : w = 0 := by
      rw [← norm2_zero_iff]
      have hrm := rmse_nonneg X y w b
      rcases hcase with hlt | hconst
      · have hsl := rmse_slope (X := X) w b hb0
        rw [← hS, ← hSq] at hsl
        have := norm2 (fun j => avg fun i => X i j * (y i - c))
        nlinarith [mul_le_mul_of_nonneg_right hle hS0]
      · have : S = 0 := by rw [hS]; simp [hconst, avg]
        nlinarith
    subst hw
    refine ⟨fun _ => rfl, ?_⟩
    have hb2 : rmse X y 0 b ≤ S := by rw [hn20] at hle; linarith
    rw [rmse_zero, Real.sqrt_le_left hS0, hSq] at hb2
    have e : avg (fun i => (y i - b) ^ 2) = avg (fun i => (y i - c) ^ 2) - 2 * ((b - c) * avg (fun i => y i - c)) + (b - c) ^ 2 := by
      rw [← avg_const hn ((b - c) ^ 2), ← avg_const_mul, ← avg_const_mul, ← avg_sub, ← avg_add]
      congr 1
      funext i
      ring
    rw [e, hb0] at hb2
    have : (b - c) ^ 2 ≤ 0 := by linarith
    have : b - c = 0 := by nlinarith [sq_nonneg (b - c)]
    linarith
  · by_contra hz
    push Not at hz
    have hw : w = 0 := funext hz
    subst hw
    obtain ⟨w', hw'⟩ := rmse_descent hn hr.le hgt
    have k1 := hopt w' c hc0
    have k2 := rmse_slope (X := X) (0 : Fin d → ℝ) b hb0
    rw [hn20, ← hS, ← hSq] at k2
    rw [hn20] at k1
    have k3 : rmse X y 0 b < S := by linarith
    have k4 := rmse_nonneg X y (0 : Fin d → ℝ) b
    nlinarith

/-! ### Logistic regression -/

theorem cpLogistic_cosh (x : ℝ) : cpLogistic x = Real.log 2 + x / 2 + Real.log (Real.cosh (x / 2)) := by
  have h : 1 + Real.exp x = 2 * Real.exp (x / 2) * Real.cosh (x / 2) := by
    rw [Real.cosh_eq]
    have h1 : Real.exp (x / 2) * Real.exp (x / 2) = Real.exp x := by rw [← Real.exp_add]; ring_nf
    have h2 : Real.exp (x / 2) * Real.exp (-(x / 2)) = 1 := by rw [← Real.exp_add]; simp
    linear_combination -h1 - h2
  unfold cpLogistic
  rw [h, Real.log_mul (by positivity) (Real.cosh_pos _).ne', Real.log_mul (by norm_num) (Real.exp_pos _).ne', Real.log_exp]

theorem cpLogistic_tangent (x : ℝ) : Real.log 2 + x / 2 ≤ cpLogistic x := by
  rw [cpLogistic_cosh]
  have := Real.log_nonneg (Real.one_le_cosh (x / 2))
  linarith

theorem cpLogistic_tangent_lt {x : ℝ} (hx : x ≠ 0) : Real.log 2 + x / 2 < cpLogistic x := by
  rw [cpLogistic_cosh]
  have := Real.log_pos (Real.one_lt_cosh.2 (show x / 2 ≠ 0 by positivity))
  linarith

theorem cpLogistic_quad (x : ℝ) : cpLogistic x ≤ Real.log 2 + x / 2 + x ^ 2 / 8 := by
  rw [cpLogistic_cosh]
  have h := Real.log_le_log (Real.cosh_pos (x / 2)) (Real.cosh_le_exp_half_sq (x / 2))
  rw [Real.log_exp] at h
  linarith [show (x / 2) ^ 2 / 2 = x ^ 2 / 8 by ring]

theorem cpLogistic_flip (x : ℝ) : cpLogistic x = cpLogistic (-x) + x := by
  rw [cpLogistic_cosh, cpLogistic_cosh (-x), neg_div, Real.cosh_neg]
  ring

/-- the average logistic loss, from below: without intercept, or with balanced classes -/
theorem logistic_slope (hn : 0 < n) {X : Fin n → Fin d → ℝ} {s : Fin n → ℝ} (w : Fin d → ℝ) {b : ℝ} (hb : b * avg s = 0) :
    Real.log 2 - ∑ j, (avg fun i => X i j * (s i / 2)) * w j ≤ avg fun i => cpLogistic (-(s i * Spec.score w (some b) (X i))) := by
  have h : avg (fun i => Real.log 2 + -(s i * Spec.score w (some b) (X i)) / 2) = Real.log 2 - ∑ j, (avg fun i => X i j * (s i / 2)) * w j := by
    rw [← avg_dot, avg_add, avg_const hn]
    have : (fun i => -(s i * Spec.score w (some b) (X i)) / 2) = fun i => (-1) * ((∑ j, X i j * w j) * (s i / 2)) + (-(b / 2)) * s i := by
      funext i
      unfold Spec.score
      rw [Finset.sum_congr rfl fun k _ => mul_comm (w k) (X i k)]
      simp only [Option.getD_some]
      ring
    rw [this, avg_add, avg_const_mul, avg_const_mul]
    linarith
  rw [← h]
  exact avg_le_avg fun i => cpLogistic_tangent _

theorem logistic_descent (hn : 0 < n) {rho kappa : ℝ} (hr : 0 ≤ rho) {X : Fin n → Fin d → ℝ} {s : Fin n → ℝ} (hs : ∀ i, s i = 1 ∨ s i = -1)
    (hX : ∀ i, norm2 (X i) ≤ kappa) (h : rho < norm2 fun j => avg fun i => X i j * (s i / 2)) :
    ∃ w lam t, LogFeas kappa X s w 0 lam t ∧ lam * rho + avg t < Real.log 2 := by
  set g : Fin d → ℝ := fun j => avg fun i => X i j * (s i / 2) with hg
  set N := norm2 g with hN
  have hN0 : 0 < N := hr.trans_lt h
  set K := avg fun i => (∑ j, X i j * g j) ^ 2 with hK
  have hK0 : 0 ≤ K := avg_nonneg fun _ => sq_nonneg _
  set t := N * (N - rho) / (K + 1) with ht
  have hgap : 0 < N - rho := by linarith
  have ht0 : 0 < t := by positivity
  have ht1 : t * (K + 1) = N * (N - rho) := by rw [ht]; field_simp
  have hsc : ∀ i, Spec.score (fun j => t * g j) (some 0) (X i) = t * ∑ j, X i j * g j := by
    intro i
    unfold Spec.score
    rw [Finset.mul_sum]
    simp only [Option.getD_some, add_zero]
    exact Finset.sum_congr rfl fun j _ => by ring
  have hs2 : ∀ i, s i ^ 2 = 1 := fun i => by rcases hs i with h | h <;> rw [h] <;> norm_num
  refine ⟨fun j => t * g j, t * N, fun i => cpLogistic (-(s i * Spec.score (fun j => t * g j) (some 0) (X i))), ⟨(norm2_smul ht0.le g).le, fun i => ⟨?_, le_rfl⟩⟩, ?_⟩
  · rw [cpLogistic_flip, hsc]
    have h1 : s i * (t * ∑ j, X i j * g j) ≤ kappa * (t * N) := by
      have h2 : s i * ∑ j, X i j * g j ≤ norm2 (X i) * N := by
        have := dot_le_norm2 (X i) g
        have h' := dot_le_norm2 (fun j => -X i j) g
        have hneg : norm2 (fun j => -X i j) = norm2 (X i) := by simp [norm2]
        rw [hneg] at h'
        simp only [neg_mul, Finset.sum_neg_distrib] at h'
        rcases hs i with h | h <;> rw [h] <;> linarith
      have h3 : norm2 (X i) * N ≤ kappa * N := mul_le_mul_of_nonneg_right (hX i) hN0.le
      nlinarith
    show _ ≤ cpLogistic (-(s i * Spec.score (fun j => t * g j) (some 0) (X i)))
    rw [hsc]
    linarith
  · have h1 : avg (fun i => cpLogistic (-(s i * Spec.score (fun j => t * g j) (some 0) (X i)))) ≤
        avg fun i => (Real.log 2 + (-t) * ((∑ j, X i j * g j) * (s i / 2))) + t ^ 2 / 8 * (∑ j, X i j * g j) ^ 2 := by
      refine avg_le_avg fun i => (cpLogistic_quad _).trans (le_of_eq ?_)
      rw [hsc]
      linear_combination (t ^ 2 / 8 * (∑ j, X i j * g j) ^ 2) * hs2 i
    rw [avg_add, avg_add, avg_const hn, avg_const_mul, avg_const_mul, avg_dot] at h1
    have h2 : ∑ j, (avg fun i => X i j * (s i / 2)) * g j = N ^ 2 := by
      rw [hN, l2norm_sq]
      exact Finset.sum_congr rfl fun j _ => by simp only [hg]; ring
    rw [h2] at h1
    have h3 : t ^ 2 / 8 * K < t * (N * (N - rho)) := by
      rw [← ht1]
      nlinarith [mul_pos ht0 ht0, mul_nonneg (mul_pos ht0 ht0).le hK0]
    nlinarith

/-- **C132** Binary logistic regression with `solver="dedicated"`, without intercept or with as many samples of each class: consider the vector of the
average products of each feature with the label, read as `-1/2` for the first class and `1/2` for the second.  If its Euclidean norm is less than
`rho`, the fit stores coefficients and an intercept exactly zero: all predicted probabilities are one half.  If it is greater, and no sample has a
norm above 1000 (the price of a change of label), the coefficients are not zero. -/
theorem C132_logistic {L : Type} [LinearOrder L] (hsol : ExactSolver solve) {grads : Autograd d} {train : Trainer d} {init : LinInit d}
    (hP : P.solver = "dedicated".toList) (hcost : ∃ c, cost_from_str P.cost = .ok c) {rho : ℝ} (hR : P.rho = .num rho) (hr : 0 < rho)
    (hd : 0 < d) (X : Fin n → Fin d → ℝ) {y : Fin n → L} {c0 c1 : L} (hlt : c0 < c1) (hy : ∀ i, y i = c0 ∨ y i = c1)
    (h0 : ∃ i, y i = c0) (h1 : ∃ i, y i = c1) {s : Fin n → ℝ} (hs0 : ∀ i, y i = c0 → s i = -1) (hs1 : ∀ i, y i = c1 → s i = 1)
    (hbal : P.fit_intercept = true → avg s = 0) :
    ∃ (f : LogFitted L d) (wT bT : Tensor ℝ) (w : Fin d → ℝ) (b : ℝ), logisticFit ext grads solve train init P X y g = .ok f ∧
      f.coef = some wT ∧ IsVec wT w ∧ f.intercept = some bT ∧ IsScalar bT b ∧
      (norm2 (fun j => avg fun i => X i j * (s i / 2)) < rho → (∀ j, w j = 0) ∧ b = 0) ∧
      (rho < norm2 (fun j => avg fun i => X i j * (s i / 2)) → (∀ i, norm2 (X i) ≤ 1000) → ∃ j, w j ≠ 0) := by
  have hn : 0 < n := h0.choose.pos
  obtain ⟨f, wT, bT, lT, w, b, lam, V, k1, -, k2, k3, k4, k5, k6, -, -, -, hV, hM⟩ := C94_logistic (ext := ext) (g := g) hsol (grads := grads)
    (train := train) (init := init) hP hcost hR hr hd X hlt hy h0 h1 hs0 hs1
  have hsv : ∀ i, s i = 1 ∨ s i = -1 := fun i => (hy i).elim (fun h => Or.inr (hs0 i h)) (fun h => Or.inl (hs1 i h))
  have hopt : ∀ w' b' lam' t', (P.fit_intercept = false → b' = 0) → LogFeas 1000 X s w' b' lam' t' → V ≤ lam' * rho + avg t' :=
    fun w' b' lam' t' hb' hf => hM w' b' hb' _ fun Q hQ => (logistic_certificate hsv hf hQ).2
  obtain ⟨lam0, t0, hf0, hV0⟩ := logistic_exact hn (by norm_num : (0 : ℝ) ≤ 1000) hr.le (X := X) hsv w b
  have hVeq : V = lam0 * rho + avg t0 := hV.unique hV0
  have hlow : norm2 w * rho + avg (fun i => cpLogistic (-(s i * Spec.score w (some b) (X i)))) ≤ V := by
    rw [hVeq]
    have := avg_le_avg fun i => (hf0.2 i).2
    nlinarith [hf0.1]
  have hb0 : b * avg s = 0 := by
    cases hfi : P.fit_intercept with
    | true => rw [hbal hfi]; ring
    | false => rw [k6 hfi]; ring
  have hsl := logistic_slope hn (X := X) w hb0
  refine ⟨f, wT, bT, w, b, k1, k2, k3, k4, k5, fun hlt => ?_, fun hgt hX => ?_⟩
  · have hle : V ≤ Real.log 2 := by
      have := hopt 0 0 0 (fun _ => Real.log 2) (fun _ => rfl) ⟨((norm2_zero_iff _).2 rfl).le, fun i => by
        simp [Spec.score, cpLogistic]; norm_num⟩
      rw [avg_const hn] at this
      linarith
    have hw : w = 0 := by
      rw [← norm2_zero_iff]
      have := dot_le_norm2 (fun j => avg fun i => X i j * (s i / 2)) w
      have := l2norm_nonneg w
      nlinarith
    subst hw
    refine ⟨fun _ => rfl, ?_⟩
    by_contra hb
    have hstrict : avg (fun i => Real.log 2 + -(s i * b) / 2) < avg (fun i => cpLogistic (-(s i * Spec.score 0 (some b) (X i)))) := by
      unfold avg
      refine div_lt_div_of_pos_right (Finset.sum_lt_sum_of_nonempty ⟨h0.choose, Finset.mem_univ _⟩ fun i _ => ?_) (by exact_mod_cast hn)
      have : Spec.score (0 : Fin d → ℝ) (some b) (X i) = b := by simp [Spec.score]
      rw [this]
      refine cpLogistic_tangent_lt ?_
      rcases hsv i with h | h <;> rw [h] <;> simpa using hb
    have e : avg (fun i => Real.log 2 + -(s i * b) / 2) = Real.log 2 := by
      have : (fun i => -(s i * b) / 2) = fun i => (-(b / 2)) * s i := by funext i; ring
      rw [avg_add, avg_const hn, this, avg_const_mul]
      linarith
    rw [(norm2_zero_iff (0 : Fin d → ℝ)).2 rfl] at hlow
    linarith
  · by_contra hz
    push Not at hz
    have hw : w = 0 := funext hz
    subst hw
    obtain ⟨w', lam', t', hf', hlt'⟩ := logistic_descent hn hr.le hsv hX hgt
    have := hopt w' 0 lam' t' (fun _ => rfl) hf'
    rw [(norm2_zero_iff (0 : Fin d → ℝ)).2 rfl] at hlow
    simp only [Pi.zero_apply, mul_zero, Finset.sum_const_zero] at hsl
    linarith

end

/-- two points `(0, 0)` and `(2, 1)`, with an intercept: covariance `1/2`, standard deviation `1/2`; the coefficient is zero at radius `2` and not zero
at radius `1/2` -/
example (rho : ℝ) (hr : rho = 2 ∨ rho = 1 / 2) (train : Trainer 1) : ∃ (f : Fitted 1) (wT : Tensor ℝ) (w : Fin 1 → ℝ),
    linregFit counterExt (onesGrad 1) witExact train (fun _ _ => ⟨fun _ _ => 0, none⟩)
      { EstKind.linreg.defaults with rho := .num rho, solver := "dedicated".toList, fit_intercept := true }
      (fun (i : Fin 2) (_ : Fin 1) => 2 * (i : ℝ)) (fun i => (i : ℝ)) 0 = .ok f ∧ f.coef = some wT ∧ IsVec wT w ∧
      (rho = 2 → w 0 = 0) ∧ (rho = 1 / 2 → w 0 ≠ 0) := by
  obtain ⟨f, wT, bT, w, b, h1, h2, h3, -, -, h4, h5⟩ := C132_linreg (ext := counterExt) (g := 0) (grads := onesGrad 1) (train := train)
    (init := fun _ _ => ⟨fun _ _ => 0, none⟩)
    (P := { EstKind.linreg.defaults with rho := .num rho, solver := "dedicated".toList, fit_intercept := true }) witExact_exact rfl ⟨_, rfl⟩ (rho := rho) rfl
    (by rcases hr with rfl | rfl <;> norm_num) two_pos one_pos (fun (i : Fin 2) (_ : Fin 1) => 2 * (i : ℝ)) (fun i => (i : ℝ)) (c := 1 / 2)
    (fun _ => by simp [avg]) (by simp)
  have e1 : norm2 (fun _ : Fin 1 => avg fun i : Fin 2 => 2 * (i : ℝ) * ((i : ℝ) - 1 / 2)) = 1 / 2 := by
    have : (avg fun i : Fin 2 => 2 * ((i : ℕ) : ℝ) * (((i : ℕ) : ℝ) - 1 / 2)) = 1 / 2 := by simp [avg]; norm_num
    unfold norm2
    rw [this]
    simp
  have e2 : Real.sqrt (avg fun i : Fin 2 => ((i : ℝ) - 1 / 2) ^ 2) = 1 / 2 := by
    have : (avg fun i : Fin 2 => (((i : ℕ) : ℝ) - 1 / 2) ^ 2) = (1 / 2) ^ 2 := by simp [avg]; norm_num
    rw [this, Real.sqrt_sq (by norm_num)]
  rw [e1, e2] at h4 h5
  refine ⟨f, wT, w, h1, h2, h3, ?_, ?_⟩
  · rintro rfl
    exact (h4 (Or.inl (by norm_num))).1 0
  · rintro rfl
    obtain ⟨j, hj⟩ := h5 (by norm_num)
    rwa [Subsingleton.elim j 0] at hj

/-- two points `-2` and `2` of different classes: average product `1`; the coefficient is zero at radius `2` and not zero at radius `1/2` -/
example (rho : ℝ) (hr : rho = 2 ∨ rho = 1 / 2) (fi : Bool) (train : Trainer 1) : ∃ (f : LogFitted ℕ 1) (wT : Tensor ℝ) (w : Fin 1 → ℝ),
    logisticFit counterExt (onesGrad 1) witExact train (fun _ _ => ⟨fun _ _ => 0, none⟩)
      { EstKind.logistic.defaults with rho := .num rho, solver := "dedicated".toList, fit_intercept := fi }
      (fun (i : Fin 2) (_ : Fin 1) => if i = 0 then -2 else 2) (fun i => (i : ℕ)) 0 = .ok f ∧ f.coef = some wT ∧ IsVec wT w ∧
      (rho = 2 → w 0 = 0) ∧ (rho = 1 / 2 → w 0 ≠ 0) := by
  obtain ⟨f, wT, bT, w, b, h1, h2, h3, -, -, h4, h5⟩ := C132_logistic (ext := counterExt) (g := 0) (grads := onesGrad 1) (train := train)
    (init := fun _ _ => ⟨fun _ _ => 0, none⟩)
    (P := { EstKind.logistic.defaults with rho := .num rho, solver := "dedicated".toList, fit_intercept := fi }) witExact_exact rfl ⟨_, rfl⟩ (rho := rho) rfl
    (by rcases hr with rfl | rfl <;> norm_num) one_pos (fun (i : Fin 2) (_ : Fin 1) => if i = 0 then -2 else 2) (y := fun i => (i : ℕ)) (c0 := 0) (c1 := 1)
    one_pos (by intro i; fin_cases i <;> simp) ⟨0, rfl⟩ ⟨1, rfl⟩ (s := fun i => if i = 0 then -1 else 1) (by intro i; fin_cases i <;> simp)
    (by intro i; fin_cases i <;> simp) (fun _ => by simp [avg])
  have e1 : norm2 (fun _ : Fin 1 => avg fun i : Fin 2 => (if i = 0 then (-2 : ℝ) else 2) * ((if i = 0 then -1 else 1) / 2)) = 1 := by
    have : (avg fun i : Fin 2 => (if i = 0 then (-2 : ℝ) else 2) * ((if i = 0 then -1 else 1) / 2)) = 1 := by simp [avg]; norm_num
    unfold norm2
    rw [this]
    simp
  rw [e1] at h4 h5
  refine ⟨f, wT, w, h1, h2, h3, ?_, ?_⟩
  · rintro rfl
    exact (h4 (by norm_num)).1 0
  · rintro rfl
    obtain ⟨j, hj⟩ := h5 (by norm_num) (by
      intro i
      have : norm2 (fun _ : Fin 1 => if i = 0 then (-2 : ℝ) else 2) = 2 := by
        unfold norm2
        have : ∑ _j : Fin 1, (if i = 0 then (-2 : ℝ) else 2) ^ 2 = 2 ^ 2 := by fin_cases i <;> simp
        rw [this, Real.sqrt_sq (by norm_num)]
      rw [this]
      norm_num)
    rwa [Subsingleton.elim j 0] at hj

end Skwdro
