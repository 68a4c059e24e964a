import Verif.Spec.Dual
import Mathlib.Analysis.Convex.SpecificFunctions.Basic
import Mathlib.Analysis.Convex.Jensen
import Mathlib.Analysis.SpecialFunctions.Log.NegMulLog
import Mathlib.Algebra.BigOperators.Field
import Mathlib.Tactic.FieldSimp
import Mathlib.Tactic.Positivity

/-! Gibbs variational formula for finite log-sum-exp. -/

namespace Skwdro
open Spec

variable {n : ℕ}

theorem sum_exp_pos (hn : 0 < n) (u : Fin n → ℝ) : 0 < ∑ j, Real.exp (u j) := by
  have : Nonempty (Fin n) := ⟨⟨0, hn⟩⟩
  exact Finset.sum_pos (fun j _ => Real.exp_pos _) Finset.univ_nonempty

theorem tilt_weights (hn : 0 < n) (eps : ℝ) (u : Fin n → ℝ) : IsWeights (tilt eps u) := by
  have h := sum_exp_pos hn (fun j => u j / eps)
  refine ⟨fun j => div_nonneg (Real.exp_pos _).le h.le, ?_⟩
  simp only [tilt]
  rw [← Finset.sum_div, div_self h.ne']

/-- pointwise Gibbs inequality: `q log(n q) - q v >= q - e^v / n * ...` in the convenient form -/
theorem gibbs_le (hn : 0 < n) {eps : ℝ} (he : 0 < eps) (u : Fin n → ℝ) {q : Fin n → ℝ} (hq : IsWeights q) :
    ∑ j, q j * u j - eps * KL q ≤ softmax eps u := by
  have hS := sum_exp_pos hn (fun j => u j / eps)
  set S := ∑ j, Real.exp (u j / eps) with hSdef
  have hn' : (0 : ℝ) < n := by exact_mod_cast hn
  have key : ∀ j, q j * (u j / eps) - q j * Real.log (n * q j) ≤
      q j * Real.log (S / n) + (Real.exp (u j / eps) / S - q j) := by
    intro j
    rcases (hq.1 j).eq_or_lt with h0 | h0
    · rw [← h0]; simp; positivity
    · have h1 : Real.log (Real.exp (u j / eps) / (S * q j)) ≤ Real.exp (u j / eps) / (S * q j) - 1 :=
        Real.log_le_sub_one_of_pos (by positivity)
      rw [Real.log_div (Real.exp_pos _).ne' (by positivity), Real.log_exp, Real.log_mul hS.ne' h0.ne'] at h1
      have h2 := mul_le_mul_of_nonneg_left h1 h0.le
      rw [Real.log_mul hn'.ne' h0.ne', Real.log_div hS.ne' hn'.ne']
      have h3 : q j * (Real.exp (u j / eps) / (S * q j) - 1) = Real.exp (u j / eps) / S - q j := by field_simp
      rw [h3] at h2
      nlinarith
  have hsum := Finset.sum_le_sum (fun j (_ : j ∈ Finset.univ) => key j)
  simp only [Finset.sum_sub_distrib, Finset.sum_add_distrib, ← Finset.sum_mul, hq.2, ← Finset.sum_div] at hsum
  rw [← hSdef, div_self hS.ne'] at hsum
  simp only [softmax, avg]
  rw [← hSdef]
  have e1 : ∑ j, q j * (u j / eps) = (∑ j, q j * u j) / eps := by
    rw [Finset.sum_div]; exact Finset.sum_congr rfl fun j _ => by ring
  have e2 : KL q = ∑ j, q j * Real.log (n * q j) := rfl
  rw [e1, ← e2] at hsum
  have := mul_le_mul_of_nonneg_left hsum he.le
  have e3 : eps * ((∑ j, q j * u j) / eps - KL q) = ∑ j, q j * u j - eps * KL q := by field_simp
  rw [e3] at this
  linarith

/-- the tilted weights attain the supremum -/
theorem gibbs_eq (hn : 0 < n) {eps : ℝ} (he : 0 < eps) (u : Fin n → ℝ) :
    ∑ j, tilt eps u j * u j - eps * KL (tilt eps u) = softmax eps u := by
  have hS := sum_exp_pos hn (fun j => u j / eps)
  have hn' : (0 : ℝ) < n := by exact_mod_cast hn
  have hw := tilt_weights hn eps u
  have hl : ∀ j, Real.log (n * tilt eps u j) = u j / eps - Real.log ((∑ k, Real.exp (u k / eps)) / n) := by
    intro j
    simp only [tilt]
    rw [Real.log_mul hn'.ne' (by positivity), Real.log_div (Real.exp_pos _).ne' hS.ne', Real.log_exp,
      Real.log_div hS.ne' hn'.ne']
    ring
  simp only [KL, hl, softmax, avg]
  rw [Finset.mul_sum, ← Finset.sum_sub_distrib]
  have : ∀ j, tilt eps u j * u j - eps * (tilt eps u j * (u j / eps - Real.log ((∑ k, Real.exp (u k / eps)) / n))) =
      tilt eps u j * (eps * Real.log ((∑ k, Real.exp (u k / eps)) / n)) := by
    intro j; field_simp; ring
  simp only [this, ← Finset.sum_mul, hw.2, one_mul]

theorem KL_nonneg (hn : 0 < n) {q : Fin n → ℝ} (hq : IsWeights q) : 0 ≤ KL q := by
  have h := gibbs_le hn one_pos (fun _ => 0) hq
  have e : softmax 1 (fun _ : Fin n => (0 : ℝ)) = 0 := by
    have hn' : (n : ℝ) ≠ 0 := by positivity
    simp [softmax, avg, hn']
  rw [e] at h; simp at h; linarith

theorem softmax_mono (hn : 0 < n) {eps : ℝ} (he : 0 < eps) {u v : Fin n → ℝ} (h : ∀ j, u j ≤ v j) :
    softmax eps u ≤ softmax eps v := by
  rw [← gibbs_eq hn he u]
  refine le_trans ?_ (gibbs_le hn he v (tilt_weights hn eps u))
  have := Finset.sum_le_sum (fun j (_ : j ∈ Finset.univ) =>
    mul_le_mul_of_nonneg_left (h j) ((tilt_weights hn eps u).1 j))
  linarith

theorem softmax_add_const (hn : 0 < n) {eps : ℝ} (he : 0 < eps) (u : Fin n → ℝ) (c : ℝ) :
    softmax eps (fun j => u j + c) = softmax eps u + c := by
  have hS := sum_exp_pos hn (fun j => u j / eps)
  have hn' : (0 : ℝ) < n := by exact_mod_cast hn
  have : ∑ j, Real.exp ((u j + c) / eps) = (∑ j, Real.exp (u j / eps)) * Real.exp (c / eps) := by
    rw [Finset.sum_mul]; exact Finset.sum_congr rfl fun j _ => by rw [← Real.exp_add]; congr 1; ring
  simp only [softmax, avg, this]
  rw [mul_div_right_comm, Real.log_mul (by positivity) (Real.exp_pos _).ne', Real.log_exp]
  field_simp

theorem softmax_antitone_eps (hn : 0 < n) {e e' : ℝ} (he : 0 < e) (h : e ≤ e') (u : Fin n → ℝ) :
    softmax e' u ≤ softmax e u := by
  have he' : 0 < e' := he.trans_le h
  have hw := tilt_weights hn e' u
  rw [← gibbs_eq hn he' u]
  refine le_trans ?_ (gibbs_le hn he u hw)
  have := mul_le_mul_of_nonneg_right h (KL_nonneg hn hw)
  linarith

theorem uniform_weights (hn : 0 < n) : IsWeights (fun _ : Fin n => (1 : ℝ) / n) := by
  have hn' : (n : ℝ) ≠ 0 := by positivity
  exact ⟨fun _ => by positivity, by simp [hn']⟩

theorem avg_le_softmax (hn : 0 < n) {eps : ℝ} (he : 0 < eps) (u : Fin n → ℝ) : avg u ≤ softmax eps u := by
  have h := gibbs_le hn he u (uniform_weights hn)
  have hn' : (n : ℝ) ≠ 0 := by positivity
  have : KL (fun _ : Fin n => (1 : ℝ) / n) = 0 := by simp [KL, hn']
  rw [this] at h
  have e : ∑ j, (1 : ℝ) / n * u j = avg u := by rw [avg, Finset.sum_div]; exact Finset.sum_congr rfl fun j _ => by ring
  rw [e] at h; simpa using h

theorem softmax_le_max (hn : 0 < n) {eps : ℝ} (he : 0 < eps) (u : Fin n → ℝ) {M : ℝ} (hM : ∀ j, u j ≤ M) :
    softmax eps u ≤ M := by
  have hn' : (n : ℝ) ≠ 0 := by positivity
  have e : softmax eps (fun _ : Fin n => (0 : ℝ) + M) = M := by
    rw [softmax_add_const hn he]; simp [softmax, avg, hn']
  calc softmax eps u ≤ softmax eps (fun _ => 0 + M) := softmax_mono hn he (by simpa using hM)
    _ = M := e

theorem point_le_softmax (hn : 0 < n) {eps : ℝ} (he : 0 < eps) (u : Fin n → ℝ) (k : Fin n) :
    u k - eps * Real.log n ≤ softmax eps u := by
  have hw : IsWeights (fun j => if j = k then (1 : ℝ) else 0) :=
    ⟨fun j => by dsimp only; split <;> norm_num, by simp⟩
  have h := gibbs_le hn he u hw
  have : KL (fun j => if j = k then (1 : ℝ) else 0) = Real.log n := by
    simp [KL, ite_mul, mul_ite]
  rw [this] at h
  simpa using h

theorem softmax_perm {eps : ℝ} (u : Fin n → ℝ) (σ : Equiv.Perm (Fin n)) :
    softmax eps (fun j => u (σ j)) = softmax eps u := by
  simp only [softmax, avg]
  rw [Equiv.sum_comp σ (fun j => Real.exp (u j / eps))]

theorem avg_perm {m : ℕ} (f : Fin m → ℝ) (σ : Equiv.Perm (Fin m)) : avg (fun j => f (σ j)) = avg f := by
  simp only [avg]; rw [Equiv.sum_comp σ f]

theorem avg_mono {m : ℕ} {f g : Fin m → ℝ} (h : ∀ i, f i ≤ g i) : avg f ≤ avg g := by
  simp only [avg]
  exact div_le_div_of_nonneg_right (Finset.sum_le_sum fun i _ => h i) (by positivity)

theorem avg_add_const {m : ℕ} (hm : 0 < m) (f : Fin m → ℝ) (c : ℝ) : avg (fun i => f i + c) = avg f + c := by
  have hm' : (m : ℝ) ≠ 0 := by positivity
  simp only [avg, Finset.sum_add_distrib, Finset.sum_const, Finset.card_univ, Fintype.card_fin, nsmul_eq_mul]
  field_simp

/-- convexity of softmax, through the variational formula: if `w ≤ a u + b v` then the same for the values -/
theorem softmax_convex (hn : 0 < n) {eps : ℝ} (he : 0 < eps) {u v w : Fin n → ℝ} {a b : ℝ} (ha : 0 ≤ a) (hb : 0 ≤ b)
    (hab : a + b = 1) (h : ∀ j, w j ≤ a * u j + b * v j) :
    softmax eps w ≤ a * softmax eps u + b * softmax eps v := by
  have hw := tilt_weights hn eps w
  rw [← gibbs_eq hn he w]
  set q := tilt eps w
  have h1 := mul_le_mul_of_nonneg_left (gibbs_le hn he u hw) ha
  have h2 := mul_le_mul_of_nonneg_left (gibbs_le hn he v hw) hb
  have h3 : ∑ j, q j * w j ≤ a * ∑ j, q j * u j + b * ∑ j, q j * v j := by
    rw [Finset.mul_sum, Finset.mul_sum, ← Finset.sum_add_distrib]
    exact Finset.sum_le_sum fun j _ => by nlinarith [mul_le_mul_of_nonneg_left (h j) (hw.1 j)]
  have h4 : eps * KL q = a * (eps * KL q) + b * (eps * KL q) := by rw [← add_mul, hab, one_mul]
  linarith

end Skwdro
