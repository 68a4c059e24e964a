import Verif.Spec.Descent
import Verif.Lemmas.Gibbs
import Verif.Props.Regret

/-! Smooth convex functions: their gradients, the log-sum-exp of smooth losses, and one step of gradient descent. -/

namespace Skwdro
open Spec

/-- log-sum-exp lies above its tangents -/
theorem softmax_tangent {n : ℕ} (hn : 0 < n) {eps : ℝ} (he : 0 < eps) (u w : Fin n → ℝ) :
    softmax eps u + ∑ j, tilt eps u j * w j ≤ softmax eps (fun j => u j + w j) := by
  have h1 := gibbs_le hn he (fun j => u j + w j) (tilt_weights hn eps u)
  have h2 := gibbs_eq hn he u
  simp only [mul_add, Finset.sum_add_distrib] at h1
  linarith

/-- and not far above them -/
theorem softmax_upper {n : ℕ} (hn : 0 < n) {eps : ℝ} (he : 0 < eps) (u w : Fin n → ℝ) {S : ℝ} (hw : ∀ j, |w j| ≤ S) :
    softmax eps (fun j => u j + w j) ≤ softmax eps u + ∑ j, tilt eps u j * w j + S ^ 2 / (2 * eps) := by
  have hS := sum_exp_pos hn (fun j => u j / eps)
  have hn' : (0 : ℝ) < n := by exact_mod_cast hn
  have hH := hoeffding_weights (tilt_weights hn eps u) (a := -S) (b := S) w (fun j => abs_le.1 (hw j)) (1 / eps)
  have e : ∑ j, tilt eps u j * Real.exp (1 / eps * w j) = (∑ j, Real.exp ((u j + w j) / eps)) / ∑ j, Real.exp (u j / eps) := by
    rw [Finset.sum_div]
    refine Finset.sum_congr rfl fun j _ => ?_
    rw [tilt, div_mul_eq_mul_div, ← Real.exp_add]
    congr 2; ring
  rw [e] at hH
  have h1 := sum_exp_pos hn (fun j => (u j + w j) / eps)
  have h2 := Real.log_le_log (div_pos h1 hS) hH
  rw [Real.log_exp, Real.log_div h1.ne' hS.ne'] at h2
  simp only [softmax, avg]
  rw [Real.log_div h1.ne' hn'.ne', Real.log_div hS.ne' hn'.ne']
  have h3 := mul_le_mul_of_nonneg_left h2 he.le
  have e2 : eps * (1 / eps * ∑ j, tilt eps u j * w j + (1 / eps) ^ 2 * (S - -S) ^ 2 / 8) = ∑ j, tilt eps u j * w j + S ^ 2 / (2 * eps) := by
    field_simp; ring
  rw [e2] at h3
  linarith

theorem abs_dot_le {N : ℕ} {a h : Fin N → ℝ} {b t ell c : ℝ} (ha : ∑ k, a k ^ 2 ≤ ell ^ 2) (hb : |b| ≤ c) :
    |∑ k, a k * h k + b * t| ≤ Real.sqrt ((ell ^ 2 + c ^ 2) * (∑ k, h k ^ 2 + t ^ 2)) := by
  refine Real.abs_le_sqrt ?_
  have h1 : (∑ k, a k * h k) ^ 2 ≤ (∑ k, a k ^ 2) * ∑ k, h k ^ 2 := Finset.sum_mul_sq_le_sq_mul_sq _ _ _
  have h0 : 0 ≤ ∑ k, h k ^ 2 := Finset.sum_nonneg fun _ _ => sq_nonneg _
  have ha0 : 0 ≤ ∑ k, a k ^ 2 := Finset.sum_nonneg fun _ _ => sq_nonneg _
  have hb2 : b ^ 2 ≤ c ^ 2 := by rw [← sq_abs b]; exact pow_le_pow_left₀ (abs_nonneg _) hb 2
  set A := ∑ k, a k ^ 2
  set H := ∑ k, h k ^ 2
  set X := ∑ k, a k * h k
  -- (X + b t)^2 <= (A + b^2)(H + t^2)
  have h2 : (X + b * t) ^ 2 ≤ (A + b ^ 2) * (H + t ^ 2) := by
    have h3 : (2 * X * (b * t)) ≤ A * t ^ 2 + b ^ 2 * H := by
      by_contra hc
      push Not at hc
      have hnn : 0 ≤ A * t ^ 2 + b ^ 2 * H := by positivity
      have h4 : (A * t ^ 2 + b ^ 2 * H) ^ 2 < (2 * X * (b * t)) ^ 2 := by
        exact pow_lt_pow_left₀ hc hnn (by norm_num)
      have h5 : (2 * X * (b * t)) ^ 2 ≤ 4 * (A * H) * (b * t) ^ 2 := by
        have := mul_le_mul_of_nonneg_right h1 (show 0 ≤ 4 * (b * t) ^ 2 by positivity)
        nlinarith
      nlinarith [sq_nonneg (A * t ^ 2 - b ^ 2 * H)]
    nlinarith
  refine h2.trans ?_
  exact mul_le_mul_of_nonneg_right (by linarith) (by positivity)

/-- the robust loss of smooth losses -/
theorem robust_smooth {N n m : ℕ} (hn : 0 < n) (hm : 0 < m) {rho p eps : ℝ} (he : 0 < eps) {A : Fin n → Fin m → (Fin N → ℝ) → ℝ}
    {R : (Fin N → ℝ) → ℝ} {C : Fin n → Fin m → ℝ} {beta ell betaR : ℝ} {c : ℝ} (hA : ∀ j i, SmoothLoss (A j i) beta ell)
    (hR : ∀ v, ∃ r : Fin N → ℝ, ∀ v', R v + ∑ k, r k * (v' k - v k) ≤ R v' ∧
      R v' ≤ R v + ∑ k, r k * (v' k - v k) + betaR / 2 * ∑ k, (v' k - v k) ^ 2)
    (hC : ∀ j i, |C j i| ≤ c) (hbeta : 0 ≤ beta + betaR) :
    SmoothConvex (fun v l => robust l rho p eps (fun j i => A j i v + R v) C) (beta + betaR + (ell ^ 2 + c ^ 2) / eps) := by
  intro v l
  choose a ha using fun j i => hA j i v
  obtain ⟨r, hr⟩ := hR v
  have hm' : (0 : ℝ) < m := by exact_mod_cast hm
  set T : Fin m → Fin n → ℝ := fun i => tilt eps (fun j => A j i v + R v - l * C j i) with hT
  have hTw : ∀ i, IsWeights (T i) := fun i => tilt_weights hn _ _
  refine ⟨fun k => (∑ i, ∑ j, T i j * (a j i k + r k)) / m, rho ^ p - (∑ i, ∑ j, T i j * C j i) / m, fun v' l' => ?_⟩
  set w : Fin m → Fin n → ℝ := fun i j => ∑ k, (a j i k + r k) * (v' k - v k) - (l' - l) * C j i with hw
  have hlin : ∑ k, (∑ i, ∑ j, T i j * (a j i k + r k)) / m * (v' k - v k) + (rho ^ p - (∑ i, ∑ j, T i j * C j i) / m) * (l' - l) =
      (l' - l) * rho ^ p + (∑ i, ∑ j, T i j * w i j) / m := by
    have e0 : ∀ i, ∑ j, T i j * w i j = ∑ k, (∑ j, T i j * (a j i k + r k)) * (v' k - v k) - (∑ j, T i j * C j i) * (l' - l) := by
      intro i
      have e1 : ∀ j, T i j * ∑ k, (a j i k + r k) * (v' k - v k) = ∑ k, T i j * (a j i k + r k) * (v' k - v k) := by
        intro j; rw [Finset.mul_sum]; exact Finset.sum_congr rfl fun k _ => by ring
      have e2 : ∀ j, T i j * ((l' - l) * C j i) = T i j * C j i * (l' - l) := fun j => by ring
      have e3 : ∑ j, T i j * ∑ k, (a j i k + r k) * (v' k - v k) = ∑ k, (∑ j, T i j * (a j i k + r k)) * (v' k - v k) := by
        simp only [e1, Finset.sum_mul]; exact Finset.sum_comm
      have e4 : ∑ j, T i j * ((l' - l) * C j i) = (∑ j, T i j * C j i) * (l' - l) := by
        simp only [e2, Finset.sum_mul]
      rw [← e3, ← e4, ← Finset.sum_sub_distrib]
      exact Finset.sum_congr rfl fun j _ => by rw [hw]; ring
    have e1 : ∑ i, ∑ j, T i j * w i j = ∑ k, (∑ i, ∑ j, T i j * (a j i k + r k)) * (v' k - v k) - (∑ i, ∑ j, T i j * C j i) * (l' - l) := by
      simp only [e0, Finset.sum_sub_distrib, Finset.sum_mul]
      congr 1
      exact Finset.sum_comm
    rw [e1]
    simp only [div_mul_eq_mul_div]
    rw [← Finset.sum_div]
    ring
  set H := ∑ k, (v' k - v k) ^ 2 with hH
  have hH0 : 0 ≤ H := Finset.sum_nonneg fun _ _ => sq_nonneg _
  set S := Real.sqrt ((ell ^ 2 + c ^ 2) * (H + (l' - l) ^ 2)) with hSdef
  have hS2 : S ^ 2 = (ell ^ 2 + c ^ 2) * (H + (l' - l) ^ 2) := Real.sq_sqrt (by positivity)
  have hws : ∀ i j, w i j = (∑ k, a j i k * (v' k - v k) + -C j i * (l' - l)) + ∑ k, r k * (v' k - v k) := by
    intro i j
    simp only [hw, add_mul, Finset.sum_add_distrib]
    ring
  have hx : ∀ i j, |∑ k, a j i k * (v' k - v k) + -C j i * (l' - l)| ≤ S := fun i j =>
    abs_dot_le (ha j i).1 (by rw [abs_neg]; exact hC j i)
  have hup : ∀ i j, A j i v' + R v' - l' * C j i ≤ (A j i v + R v - l * C j i + w i j) + (beta + betaR) / 2 * H := by
    intro i j
    have h1 := ((ha j i).2 v').2
    have h2 := (hr v').2
    rw [hws]
    nlinarith
  have hlow : ∀ i j, A j i v + R v - l * C j i + w i j ≤ A j i v' + R v' - l' * C j i := by
    intro i j
    have h1 := ((ha j i).2 v').1
    have h2 := (hr v').1
    rw [hws]
    nlinarith
  have hl : ∀ i, softmax eps (fun j => A j i v + R v - l * C j i) + ∑ j, T i j * w i j ≤ softmax eps (fun j => A j i v' + R v' - l' * C j i) :=
    fun i => (softmax_tangent hn he _ (w i)).trans (softmax_mono hn he (hlow i))
  have hu : ∀ i, softmax eps (fun j => A j i v' + R v' - l' * C j i) ≤ softmax eps (fun j => A j i v + R v - l * C j i) + ∑ j, T i j * w i j +
      (S ^ 2 / (2 * eps) + (beta + betaR) / 2 * H) := by
    intro i
    refine (softmax_mono hn he (hup i)).trans ?_
    rw [softmax_add_const hn he]
    have h1 : softmax eps (fun j => A j i v + R v - l * C j i + w i j) =
        softmax eps (fun j => A j i v + R v - l * C j i + (∑ k, a j i k * (v' k - v k) + -C j i * (l' - l))) + ∑ k, r k * (v' k - v k) := by
      rw [← softmax_add_const hn he]
      congr 1
      funext j
      rw [hws]; ring
    have h2 := softmax_upper hn he (fun j => A j i v + R v - l * C j i) (fun j => ∑ k, a j i k * (v' k - v k) + -C j i * (l' - l)) (hx i)
    have h3 : ∑ j, T i j * w i j = ∑ j, T i j * (∑ k, a j i k * (v' k - v k) + -C j i * (l' - l)) + ∑ k, r k * (v' k - v k) := by
      simp only [hws, mul_add _ _ (∑ k, r k * (v' k - v k)), Finset.sum_add_distrib, ← Finset.sum_mul, (hTw i).2, one_mul]
    rw [h1, h3]
    linarith
  have hsl := Finset.sum_le_sum fun i (_ : i ∈ Finset.univ) => hl i
  have hsu := Finset.sum_le_sum fun i (_ : i ∈ Finset.univ) => hu i
  simp only [Finset.sum_add_distrib, Finset.sum_const, Finset.card_univ, Fintype.card_fin, nsmul_eq_mul] at hsl hsu
  have hsl' := div_le_div_of_nonneg_right hsl hm'.le
  have hsu' := div_le_div_of_nonneg_right hsu hm'.le
  simp only [add_div] at hsl' hsu'
  rw [mul_div_cancel_left₀ _ hm'.ne', mul_div_cancel_left₀ _ hm'.ne'] at hsu'
  have hgap : gap2 v' l' v l = H + (l' - l) ^ 2 := rfl
  simp only [robust, avg]
  rw [hlin, hgap]
  constructor
  · linarith
  · have e1 : S ^ 2 / (2 * eps) = (ell ^ 2 + c ^ 2) / eps / 2 * (H + (l' - l) ^ 2) := by rw [hS2]; field_simp
    have h1 : (beta + betaR) / 2 * H ≤ (beta + betaR) / 2 * (H + (l' - l) ^ 2) :=
      mul_le_mul_of_nonneg_left (by nlinarith [sq_nonneg (l' - l)]) (by linarith)
    rw [e1] at hsu'
    nlinarith

theorem hasDerivAt_of_quadratic {phi : ℝ → ℝ} {G K : ℝ} (h : ∀ t, |phi t - phi 0 - t * G| ≤ K * t ^ 2) : HasDerivAt phi G 0 := by
  rw [hasDerivAt_iff_isLittleO]
  have h1 : (fun t : ℝ => phi t - phi 0 - (t - 0) • G) =O[nhds 0] fun t : ℝ => t ^ 2 := by
    refine Asymptotics.IsBigO.of_bound K (Filter.Eventually.of_forall fun t => ?_)
    simpa using h t
  refine h1.trans_isLittleO ?_
  simpa using Asymptotics.isLittleO_pow_pow (𝕜 := ℝ) (m := 1) (n := 2) (by norm_num)

/-- the planes of a smooth convex function are given by its gradient -/
theorem smooth_isGrad {N : ℕ} {f : (Fin N → ℝ) → ℝ → ℝ} {beta : ℝ} {v : Fin N → ℝ} {l : ℝ} {g : Fin N → ℝ} {gl : ℝ}
    (h : ∀ v' l', f v l + (∑ k, g k * (v' k - v k) + gl * (l' - l)) ≤ f v' l' ∧
      f v' l' ≤ f v l + (∑ k, g k * (v' k - v k) + gl * (l' - l)) + beta / 2 * gap2 v' l' v l) : IsGradAt f v l g gl := by
  intro w hl
  refine hasDerivAt_of_quadratic (K := beta / 2 * (∑ k, w k ^ 2 + hl ^ 2)) fun t => ?_
  obtain ⟨h1, h2⟩ := h (fun k => v k + t * w k) (l + t * hl)
  have e1 : ∑ k, g k * (v k + t * w k - v k) + gl * (l + t * hl - l) = t * (∑ k, g k * w k + gl * hl) := by
    rw [mul_add, Finset.mul_sum]
    congr 1
    · exact Finset.sum_congr rfl fun k _ => by ring
    · ring
  have e2 : gap2 (fun k => v k + t * w k) (l + t * hl) v l = (∑ k, w k ^ 2 + hl ^ 2) * t ^ 2 := by
    simp only [gap2, add_sub_cancel_left, mul_pow, ← Finset.mul_sum]
    ring
  rw [e1] at h1 h2
  rw [e2] at h2
  simp only [zero_mul, add_zero]
  rw [abs_le]
  constructor <;> nlinarith

theorem isGrad_unique {N : ℕ} {f : (Fin N → ℝ) → ℝ → ℝ} {v : Fin N → ℝ} {l : ℝ} {g g' : Fin N → ℝ} {gl gl' : ℝ}
    (h : IsGradAt f v l g gl) (h' : IsGradAt f v l g' gl') (w : Fin N → ℝ) (hl : ℝ) : ∑ k, g k * w k + gl * hl = ∑ k, g' k * w k + gl' * hl :=
  (h w hl).unique (h' w hl)

/-- the two inequalities for the gradient, however it was obtained -/
theorem smooth_at_grad {N : ℕ} {f : (Fin N → ℝ) → ℝ → ℝ} {beta : ℝ} (hf : SmoothConvex f beta) {v : Fin N → ℝ} {l : ℝ} {g : Fin N → ℝ} {gl : ℝ}
    (hg : IsGradAt f v l g gl) (v' : Fin N → ℝ) (l' : ℝ) : f v l + (∑ k, g k * (v' k - v k) + gl * (l' - l)) ≤ f v' l' ∧
      f v' l' ≤ f v l + (∑ k, g k * (v' k - v k) + gl * (l' - l)) + beta / 2 * gap2 v' l' v l := by
  obtain ⟨a, al, h⟩ := hf v l
  rw [isGrad_unique hg (smooth_isGrad h)]
  exact h v' l'

theorem smooth_exists_grad {N : ℕ} {f : (Fin N → ℝ) → ℝ → ℝ} {beta : ℝ} (hf : SmoothConvex f beta) (v : Fin N → ℝ) (l : ℝ) :
    ∃ g gl, IsGradAt f v l g gl := by
  obtain ⟨a, al, h⟩ := hf v l
  exact ⟨a, al, smooth_isGrad h⟩

theorem clipped_nonneg {clip : Bool} (h : clip = true) (x : ℝ) : 0 ≤ clipped clip x := by
  subst h
  exact le_max_left _ _

/-- the clipped multiplier is the closest admissible one -/
theorem clipped_project {clip : Bool} (x : ℝ) {y : ℝ} (hy : clip = true → 0 ≤ y) : 0 ≤ (x - clipped clip x) * (clipped clip x - y) := by
  unfold clipped
  split
  · next h =>
    rcases le_total 0 x with hx | hx
    · rw [max_eq_right hx]; simp
    · rw [max_eq_left hx]
      nlinarith [hy h]
  · simp

/-- one step of gradient descent -/
theorem descent_step {N : ℕ} {f : (Fin N → ℝ) → ℝ → ℝ} {beta lr : ℝ} {clip : Bool} (hf : SmoothConvex f beta) (hl : 0 < lr) (hb : lr * beta ≤ 1)
    {v : Fin N → ℝ} {l : ℝ} {g : Fin N → ℝ} {gl : ℝ} (hg : IsGradAt f v l g gl) :
    ((clip = true → 0 ≤ l) → f (fun k => v k - lr * g k) (clipped clip (l - lr * gl)) ≤ f v l) ∧ ∀ q lq, (clip = true → 0 ≤ lq) →
      2 * lr * (f (fun k => v k - lr * g k) (clipped clip (l - lr * gl)) - f q lq) ≤
      gap2 v l q lq - gap2 (fun k => v k - lr * g k) (clipped clip (l - lr * gl)) q lq := by
  set l' := clipped clip (l - lr * gl) with hl'
  set S := ∑ k, g k ^ 2 with hS
  have hS0 : 0 ≤ S := Finset.sum_nonneg fun _ _ => sq_nonneg _
  have key : ∀ q lq, (clip = true → 0 ≤ lq) → 2 * lr * (f (fun k => v k - lr * g k) l' - f q lq) ≤ gap2 v l q lq - gap2 (fun k => v k - lr * g k) l' q lq := by
    intro q lq hlq
    have h1 := (smooth_at_grad hf hg (fun k => v k - lr * g k) l').2
    have e1 : ∑ k, g k * (v k - lr * g k - v k) = -lr * S := by
      rw [hS, Finset.mul_sum]
      exact Finset.sum_congr rfl fun k _ => by ring
    have e2 : gap2 (fun k => v k - lr * g k) l' v l = lr ^ 2 * S + (l' - l) ^ 2 := by
      rw [gap2, hS, Finset.mul_sum]
      congr 1
      exact Finset.sum_congr rfl fun k _ => by ring
    rw [e1, e2] at h1
    have h2 : lr * (beta * (lr ^ 2 * S + (l' - l) ^ 2)) ≤ lr ^ 2 * S + (l' - l) ^ 2 := by
      have := mul_le_mul_of_nonneg_right hb (show 0 ≤ lr ^ 2 * S + (l' - l) ^ 2 by positivity)
      nlinarith
    have h3 := (smooth_at_grad hf hg q lq).1
    have h4 := clipped_project (clip := clip) (l - lr * gl) hlq
    rw [← hl'] at h4
    have e3 : gap2 (fun k => v k - lr * g k) l' q lq =
        gap2 v l q lq + 2 * lr * (∑ k, g k * (q k - v k)) + lr ^ 2 * S + (l' - lq) ^ 2 - (l - lq) ^ 2 := by
      simp only [gap2, hS, Finset.mul_sum]
      have : ∀ k, (v k - lr * g k - q k) ^ 2 = (v k - q k) ^ 2 + 2 * lr * (g k * (q k - v k)) + lr ^ 2 * g k ^ 2 := fun k => by ring
      simp only [this, Finset.sum_add_distrib, ← Finset.mul_sum]
      ring
    rw [e3]
    have h5 := mul_le_mul_of_nonneg_left (sub_nonneg.2 h3) hl.le
    have h6 := mul_le_mul_of_nonneg_left (sub_nonneg.2 h1) hl.le
    nlinarith
  refine ⟨fun h => ?_, key⟩
  have h1 := key v l h
  have h2 : gap2 v l v l = 0 := by simp [gap2]
  have h3 : 0 ≤ gap2 (fun k => v k - lr * g k) l' v l := add_nonneg (Finset.sum_nonneg fun _ _ => sq_nonneg _) (sq_nonneg _)
  rw [h2] at h1
  by_contra hc
  push Not at hc
  nlinarith

end Skwdro
