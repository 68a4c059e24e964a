import Verif.Model.Rounding
import Verif.Props.Dual
import Mathlib.Analysis.Complex.ExponentialBounds
import Mathlib.Analysis.SpecialFunctions.Log.Basic
import Mathlib.Analysis.SpecialFunctions.Exponential

/-! # C130: the robust loss computed in floating point -/

namespace Skwdro
open Spec Tensor

/-! ### Rounded operations -/

theorem Near.abs_le {u x r : ℝ} (h : Near u x r) : |r| ≤ (1 + u) * |x| := by
  have := abs_sub_abs_le_abs_sub r x
  unfold Near at h
  linarith

theorem near_self {u : ℝ} (hu : 0 ≤ u) (x : ℝ) : Near u x x := by
  unfold Near
  rw [sub_self, abs_zero]
  positivity

theorem near_zero {x r : ℝ} (h : Near 0 x r) : r = x := by
  unfold Near at h
  rw [zero_mul] at h
  exact sub_eq_zero.1 (abs_nonpos_iff.1 h)

theorem flSum_length {u : ℝ} {l : List ℝ} {s : ℝ} (h : FlSum u l s) : 1 ≤ l.length := by
  induction h with
  | one x => simp
  | add _ _ hp _ h1 _ =>
    rw [hp.length_eq, List.length_append]
    omega

theorem abs_sum_le_list (l : List ℝ) : |l.sum| ≤ (l.map fun x => |x|).sum := by
  induction l with
  | nil => simp
  | cons a l ih =>
    simp only [List.sum_cons, List.map_cons]
    exact (abs_add_le _ _).trans (by linarith)

/-- the classical bound, for every order of summation -/
theorem flSum_error {u : ℝ} (hu : 0 ≤ u) {l : List ℝ} {s : ℝ} (h : FlSum u l s) :
    |s - l.sum| ≤ ((1 + u) ^ (l.length - 1) - 1) * (l.map fun x => |x|).sum := by
  induction h with
  | one x => simp
  | @add l l' l'' a b r ha hb hp hr iha ihb =>
    have hsum : l''.sum = l.sum + l'.sum := by rw [hp.sum_eq, List.sum_append]
    have habs : (l''.map fun x => |x|).sum = (l.map fun x => |x|).sum + (l'.map fun x => |x|).sum := by
      rw [(hp.map _).sum_eq, List.map_append, List.sum_append]
    have hlen : l''.length = l.length + l'.length := by rw [hp.length_eq, List.length_append]
    have h1 := flSum_length ha
    have h2 := flSum_length hb
    set A := (l.map fun x => |x|).sum with hA
    set B := (l'.map fun x => |x|).sum with hB
    have hA0 : 0 ≤ A := (abs_nonneg _).trans (abs_sum_le_list l)
    have hB0 : 0 ≤ B := (abs_nonneg _).trans (abs_sum_le_list l')
    have ea : |a| ≤ (1 + u) ^ (l.length - 1) * A := by
      have := abs_sub_abs_le_abs_sub a l.sum
      have := abs_sum_le_list l
      linarith
    have eb : |b| ≤ (1 + u) ^ (l'.length - 1) * B := by
      have := abs_sub_abs_le_abs_sub b l'.sum
      have := abs_sum_le_list l'
      linarith
    have hab : |a + b| ≤ (1 + u) ^ (l.length - 1) * A + (1 + u) ^ (l'.length - 1) * B := (abs_add_le a b).trans (by linarith)
    have pa : (1 + u) ^ (l.length - 1) * (1 + u) ≤ (1 + u) ^ (l''.length - 1) := by
      rw [← pow_succ]
      exact pow_le_pow_right₀ (by linarith) (by omega)
    have pb : (1 + u) ^ (l'.length - 1) * (1 + u) ≤ (1 + u) ^ (l''.length - 1) := by
      rw [← pow_succ]
      exact pow_le_pow_right₀ (by linarith) (by omega)
    have htri : |r - l''.sum| ≤ |r - (a + b)| + (|a - l.sum| + |b - l'.sum|) := by
      rw [hsum]
      have e : r - (l.sum + l'.sum) = (r - (a + b)) + ((a - l.sum) + (b - l'.sum)) := by ring
      rw [e]
      exact (abs_add_le _ _).trans (by linarith [abs_add_le (a - l.sum) (b - l'.sum)])
    have hr' : |r - (a + b)| ≤ u * ((1 + u) ^ (l.length - 1) * A + (1 + u) ^ (l'.length - 1) * B) :=
      le_trans hr (mul_le_mul_of_nonneg_left hab hu)
    rw [habs]
    have qa := mul_le_mul_of_nonneg_right pa hA0
    have qb := mul_le_mul_of_nonneg_right pb hB0
    nlinarith

theorem flSum_small {u : ℝ} (hu : 0 ≤ u) {l : List ℝ} {s : ℝ} (h : FlSum u l s) (hs : l.length * u ≤ 1 / 16) :
    |s - l.sum| ≤ 2 * (l.length * u) * (l.map fun x => |x|).sum := by
  have hA0 : 0 ≤ (l.map fun x => |x|).sum := (abs_nonneg _).trans (abs_sum_le_list l)
  refine (flSum_error hu h).trans (mul_le_mul_of_nonneg_right ?_ hA0)
  have h1 : (1 + u) ^ (l.length - 1) ≤ (1 + u) ^ l.length := pow_le_pow_right₀ (by linarith) (by omega)
  have h2 : (1 + u) ^ l.length ≤ Real.exp (l.length * u) := by
    rw [Real.exp_nat_mul]
    exact pow_le_pow_left₀ (by linarith) (by linarith [Real.add_one_le_exp u]) _
  have h0 : 0 ≤ l.length * u := by positivity
  have h3 := Real.abs_exp_sub_one_le (x := l.length * u) (by rw [abs_of_nonneg h0]; linarith)
  rw [abs_of_nonneg h0] at h3
  have := (abs_le.1 h3).2
  linarith

theorem exp_lipschitz {a b c : ℝ} (ha : a ≤ c) (hb : b ≤ c) : |Real.exp a - Real.exp b| ≤ |a - b| * Real.exp c := by
  have key : ∀ a b : ℝ, a ≤ b → b ≤ c → Real.exp b - Real.exp a ≤ (b - a) * Real.exp c := by
    intro a b hab hb
    have h1 := Real.add_one_le_exp (a - b)
    have h2 : Real.exp a = Real.exp b * Real.exp (a - b) := by rw [← Real.exp_add]; congr 1; ring
    have h3 : Real.exp b ≤ Real.exp c := Real.exp_le_exp.2 hb
    rw [h2]
    nlinarith [Real.exp_pos b]
  rcases le_total a b with h | h
  · rw [abs_sub_comm, abs_of_nonneg (sub_nonneg.2 (Real.exp_le_exp.2 h)), abs_sub_comm, abs_of_nonneg (sub_nonneg.2 h)]
    exact key a b h hb
  · rw [abs_of_nonneg (sub_nonneg.2 (Real.exp_le_exp.2 h)), abs_of_nonneg (sub_nonneg.2 h)]
    exact key b a h ha

/-- a rounded exponential of a rounded non-positive number -/
theorem near_exp {u t d e : ℝ} (hu : 0 ≤ u) (hu1 : u ≤ 1 / 16) (ht : 0 ≤ t) (hd : Near u (-t) d) (he : Near u (Real.exp d) e) :
    |e - Real.exp (-t)| ≤ 3 * u := by
  unfold Near at hd he
  rw [abs_neg, abs_of_nonneg ht] at hd
  have hd1 : d ≤ -((1 - u) * t) := by
    have := (abs_le.1 hd).2
    linarith
  have hc0 : 0 ≤ (1 - u) * t := mul_nonneg (by linarith) ht
  have hL := exp_lipschitz hd1 (b := -t) (by nlinarith)
  have hE : (1 - u) * t * Real.exp (-((1 - u) * t)) ≤ 1 := by
    have h1 := Real.add_one_le_exp ((1 - u) * t)
    have h2 : Real.exp ((1 - u) * t) * Real.exp (-((1 - u) * t)) = 1 := by rw [← Real.exp_add]; simp
    nlinarith [Real.exp_pos (-((1 - u) * t))]
  have h1 : |Real.exp d - Real.exp (-t)| ≤ 2 * u := by
    refine hL.trans ?_
    have : |d - -t| * Real.exp (-((1 - u) * t)) ≤ u * t * Real.exp (-((1 - u) * t)) := mul_le_mul_of_nonneg_right hd (Real.exp_pos _).le
    refine this.trans ?_
    have h3 : t * Real.exp (-((1 - u) * t)) ≤ 2 := by
      have h4 : 0 ≤ t * Real.exp (-((1 - u) * t)) := mul_nonneg ht (Real.exp_pos _).le
      nlinarith
    nlinarith
  have h2 : Real.exp d ≤ 1 := by
    rw [← Real.exp_zero]
    exact Real.exp_le_exp.2 (by linarith)
  rw [abs_of_pos (Real.exp_pos d)] at he
  have : |e - Real.exp (-t)| ≤ |e - Real.exp d| + |Real.exp d - Real.exp (-t)| := abs_sub_le _ _ _
  nlinarith

theorem abs_ofFn_sum {n : ℕ} (f : Fin n → ℝ) : ((List.ofFn f).map fun x => |x|).sum = ∑ j, |f j| := by
  rw [List.map_ofFn, List.sum_ofFn]
  rfl

theorem exists_sup {n : ℕ} (hn : 0 < n) (x : Fin n → ℝ) : (∃ j, x j = ⨆ i, x i) ∧ ∀ j, x j ≤ ⨆ i, x i := by
  haveI : Nonempty (Fin n) := ⟨⟨0, hn⟩⟩
  exact ⟨exists_eq_ciSup_of_finite, fun j => le_ciSup (Set.finite_range x).bddAbove j⟩

theorem log_add_one_le {n : ℕ} (hn : 0 < n) : Real.log n + 1 ≤ n := by
  have : (0 : ℝ) < n := by exact_mod_cast hn
  linarith [Real.log_le_sub_one_of_pos this]

/-- the rounded log-sum-exp -/
theorem flLSE_error {n : ℕ} (hn : 0 < n) {u : ℝ} (hu : 0 ≤ u) (hnu : n * u ≤ 1 / 16) {x : Fin n → ℝ} {r A : ℝ} (hA : ∀ j, |x j| ≤ A) (h : FlLSE u x r) :
    |r - Real.log (∑ j, Real.exp (x j))| ≤ 12 * (n * u) + u * A := by
  obtain ⟨d, e, s, t, hd, he, hs, ht, hr⟩ := h
  obtain ⟨⟨j0, hj0⟩, hM⟩ := exists_sup hn x
  set M := ⨆ i, x i with hMdef
  have hnR : (1 : ℝ) ≤ n := by exact_mod_cast hn
  have hu1 : u ≤ 1 / 16 := by nlinarith
  have hnu0 : 0 ≤ n * u := by positivity
  set E : Fin n → ℝ := fun j => Real.exp (x j - M) with hE
  have hE1 : ∀ j, E j ≤ 1 := fun j => by
    simp only [hE]
    rw [← Real.exp_zero]
    exact Real.exp_le_exp.2 (by linarith [hM j])
  have hE0 : ∀ j, 0 < E j := fun j => Real.exp_pos _
  have hSE : 1 ≤ ∑ j, E j := by
    have h1 : E j0 = 1 := by simp only [hE, hj0, sub_self, Real.exp_zero]
    rw [← h1]
    exact Finset.single_le_sum (fun j _ => (hE0 j).le) (Finset.mem_univ j0)
  have hSEn : ∑ j, E j ≤ n := by
    calc ∑ j, E j ≤ ∑ _j : Fin n, (1 : ℝ) := Finset.sum_le_sum fun j _ => hE1 j
      _ = n := by simp
  set T := ∑ j, E j with hT
  have heE : ∀ j, |e j - E j| ≤ 3 * u := by
    intro j
    have := near_exp (t := M - x j) hu hu1 (by linarith [hM j]) (d := d j) (by rw [neg_sub]; exact hd j) (he j)
    rwa [neg_sub] at this
  have h1 : |∑ j, e j - T| ≤ 3 * (n * u) := by
    rw [hT, ← Finset.sum_sub_distrib]
    refine (Finset.abs_sum_le_sum_abs _ _).trans ?_
    calc ∑ j, |e j - E j| ≤ ∑ _j : Fin n, 3 * u := Finset.sum_le_sum fun j _ => heE j
      _ = 3 * (n * u) := by simp; ring
  have h2 : ∑ j, |e j| ≤ T + 3 * (n * u) := by
    calc ∑ j, |e j| ≤ ∑ j, (E j + 3 * u) := Finset.sum_le_sum fun j _ => by
          have := abs_sub_abs_le_abs_sub (e j) (E j)
          rw [abs_of_pos (hE0 j)] at this
          linarith [heE j]
      _ = T + 3 * (n * u) := by rw [Finset.sum_add_distrib]; simp; ring
  have h3 := flSum_small hu hs (by simpa using hnu)
  rw [abs_ofFn_sum, List.sum_ofFn, List.length_ofFn] at h3
  have h4 : |s - T| ≤ 6 * (n * u) * T := by
    have := abs_sub_le s (∑ j, e j) T
    have h5 : 2 * (n * u) * ∑ j, |e j| ≤ 2 * (n * u) * (T + 3 * (n * u)) := mul_le_mul_of_nonneg_left h2 (by linarith)
    nlinarith
  have hT0 : 0 < T := by linarith
  set q := s / T with hq
  have hq1 : |q - 1| ≤ 6 * (n * u) := by
    have e1 : q - 1 = (s - T) / T := by rw [hq]; field_simp
    rw [e1, abs_div, abs_of_pos hT0, div_le_iff₀ hT0]
    exact h4
  have hq2 := abs_le.1 hq1
  have hq0 : 5 / 8 ≤ q := by linarith
  have hs0 : 0 < s := by
    have : s = q * T := by rw [hq]; field_simp
    rw [this]
    exact mul_pos (by linarith) hT0
  have hlog : Real.log s - Real.log T = Real.log q := by rw [hq, Real.log_div hs0.ne' hT0.ne']
  have hl1 : |Real.log s - Real.log T| ≤ 10 * (n * u) := by
    rw [hlog, abs_le]
    have a1 := Real.log_le_sub_one_of_pos (show 0 < q by linarith)
    have a2 := Real.one_sub_inv_le_log_of_pos (show 0 < q by linarith)
    refine ⟨?_, by linarith⟩
    have a3 : q * q⁻¹ = 1 := mul_inv_cancel₀ (by linarith)
    have a4 : 0 < q⁻¹ := by positivity
    have a5 : q⁻¹ ≤ 8 / 5 := by
      rw [inv_le_comm₀ (by linarith) (by norm_num)]
      linarith
    have a6 : 1 - q⁻¹ = (q - 1) * q⁻¹ := by rw [sub_mul, a3, one_mul]
    rw [a6] at a2
    nlinarith
  have hlS0 : 0 ≤ Real.log T := Real.log_nonneg hSE
  have hlSn : Real.log T ≤ Real.log n := Real.log_le_log hT0 hSEn
  have hlogn := log_add_one_le hn
  have hls : |Real.log s| ≤ Real.log n + 10 * (n * u) := by
    have := abs_sub_abs_le_abs_sub (Real.log s) (Real.log T)
    rw [abs_of_nonneg hlS0] at this
    linarith
  have ht1 : |t - Real.log T| ≤ 11 * (n * u) := by
    have := abs_sub_le t (Real.log s) (Real.log T)
    unfold Near at ht
    have b1 : u * |Real.log s| ≤ u * n := mul_le_mul_of_nonneg_left (by linarith) hu
    linarith
  have hMA : |M| ≤ A := by rw [← hj0]; exact hA j0
  have ht2 : |M + t| ≤ A + n := by
    have := abs_add_le M t
    have := abs_sub_abs_le_abs_sub t (Real.log T)
    rw [abs_of_nonneg hlS0] at this
    linarith
  have hlse : Real.log (∑ j, Real.exp (x j)) = M + Real.log T := by
    have : ∑ j, Real.exp (x j) = Real.exp M * T := by
      rw [hT, Finset.mul_sum]
      refine Finset.sum_congr rfl fun j _ => ?_
      simp only [hE]
      rw [← Real.exp_add]
      congr 1
      ring
    rw [this, Real.log_mul (Real.exp_ne_zero _) hT0.ne', Real.log_exp]
  rw [hlse]
  have hr1 : |r - (M + t)| ≤ u * (A + n) := le_trans hr (mul_le_mul_of_nonneg_left ht2 hu)
  have e1 : r - (M + Real.log T) = (r - (M + t)) + (t - Real.log T) := by ring
  rw [e1]
  refine (abs_add_le _ _).trans ?_
  nlinarith

/-- the rounded integrand -/
theorem flIntegrand_error {u lam eps l c r F : ℝ} (hu : 0 ≤ u) (hu1 : u ≤ 1 / 16) (he : 0 < eps) (hF : |l| + |lam * c| ≤ F) (h : FlIntegrand u lam eps l c r) :
    |r - (l - lam * c) / eps| ≤ 4 * (u * (F / eps)) := by
  obtain ⟨p, q, hp, hq, hr⟩ := h
  have hpa := hp.abs_le
  have hqa := hq.abs_le
  unfold Near at hp hq hr
  have h0 : 0 ≤ |l| := abs_nonneg l
  have h1 : 0 ≤ |lam * c| := abs_nonneg _
  have hlp : |l - p| ≤ 17 / 16 * F := by
    have := abs_sub l p
    nlinarith
  have hqF : |q| ≤ 5 / 4 * F := by nlinarith [abs_nonneg (l - p)]
  have e1 : |q - (l - lam * c)| ≤ u * F + u * (17 / 16 * F) := by
    have e : q - (l - lam * c) = (q - (l - p)) - (p - lam * c) := by ring
    rw [e]
    refine (abs_sub _ _).trans ?_
    have := mul_le_mul_of_nonneg_left hlp hu
    have : u * |lam * c| ≤ u * F := mul_le_mul_of_nonneg_left (by linarith) hu
    linarith
  have e2 : |r - q / eps| ≤ u * (5 / 4 * F) / eps := by
    refine hr.trans ?_
    rw [abs_div, abs_of_pos he, mul_div_assoc]
    exact mul_le_mul_of_nonneg_left (div_le_div_of_nonneg_right hqF he.le) hu
  have e3 : |q / eps - (l - lam * c) / eps| ≤ (u * F + u * (17 / 16 * F)) / eps := by
    rw [← sub_div, abs_div, abs_of_pos he]
    exact div_le_div_of_nonneg_right e1 he.le
  have := abs_sub_le r (q / eps) ((l - lam * c) / eps)
  have hF0 : 0 ≤ u * F := mul_nonneg hu (by linarith)
  have e4 : u * (5 / 4 * F) / eps + (u * F + u * (17 / 16 * F)) / eps ≤ 4 * (u * (F / eps)) := by
    rw [← add_div, ← mul_div_assoc, ← mul_div_assoc]
    apply div_le_div_of_nonneg_right _ he.le
    linarith
  linarith

theorem lse_stable {n : ℕ} (hn : 0 < n) {x y : Fin n → ℝ} {δ : ℝ} (h : ∀ j, |x j - y j| ≤ δ) :
    |Real.log (∑ j, Real.exp (x j)) - Real.log (∑ j, Real.exp (y j))| ≤ δ := by
  haveI : Nonempty (Fin n) := ⟨⟨0, hn⟩⟩
  have pos : ∀ z : Fin n → ℝ, 0 < ∑ j, Real.exp (z j) := fun z => Finset.sum_pos (fun j _ => Real.exp_pos _) Finset.univ_nonempty
  have key : ∀ x y : Fin n → ℝ, (∀ j, |x j - y j| ≤ δ) → Real.log (∑ j, Real.exp (x j)) ≤ Real.log (∑ j, Real.exp (y j)) + δ := by
    intro x y h
    have h1 : ∑ j, Real.exp (x j) ≤ (∑ j, Real.exp (y j)) * Real.exp δ := by
      rw [Finset.sum_mul]
      refine Finset.sum_le_sum fun j _ => ?_
      rw [← Real.exp_add]
      exact Real.exp_le_exp.2 (by linarith [(abs_le.1 (h j)).2])
    have h2 := Real.log_le_log (pos x) h1
    rwa [Real.log_mul (pos y).ne' (Real.exp_ne_zero _), Real.log_exp] at h2
  rw [abs_le]
  have h1 := key x y h
  have h2 := key y x fun j => by rw [abs_sub_comm]; exact h j
  constructor <;> linarith

theorem lse_size {n : ℕ} (hn : 0 < n) {x : Fin n → ℝ} {A : ℝ} (h : ∀ j, |x j| ≤ A) :
    |Real.log (∑ j, Real.exp (x j)) - Real.log n| ≤ A := by
  have := lse_stable hn (x := x) (y := fun _ => 0) (δ := A) (by simpa using h)
  simpa using this

/-! ### The robust loss -/

section
variable {n m : ℕ} {u v lam rho p eps : ℝ} {L C : Fin n → Fin m → ℝ} {r : ℝ}

theorem softmax_lse (hn : 0 < n) (he : 0 < eps) (x : Fin n → ℝ) :
    softmax eps x = eps * (Real.log (∑ j, Real.exp (x j / eps)) - Real.log n) := by
  haveI : Nonempty (Fin n) := ⟨⟨0, hn⟩⟩
  have pos : 0 < ∑ j, Real.exp (x j / eps) := Finset.sum_pos (fun j _ => Real.exp_pos _) Finset.univ_nonempty
  have hn0 : (n : ℝ) ≠ 0 := by positivity
  unfold softmax avg
  rw [Real.log_div pos.ne' hn0]

/-- the rounded mean -/
theorem flMean_error (hm : 0 < m) (hu : 0 ≤ u) (hmu : m * u ≤ 1 / 16) {a : Fin m → ℝ} {S mean H : ℝ} (hH : 0 ≤ H) (ha : ∀ i, |a i| ≤ H)
    (hs : FlSum u (List.ofFn a) S) (hmean : Near u (S / m) mean) : |mean - avg a| ≤ 4 * (m * u) * H ∧ |mean| ≤ 2 * H := by
  have hm0 : (0 : ℝ) < m := by exact_mod_cast hm
  have hmR : (1 : ℝ) ≤ m := by exact_mod_cast hm
  have humu : u ≤ m * u := le_mul_of_one_le_left hu hmR
  have hsum : ∑ i, |a i| ≤ m * H := by
    calc ∑ i, |a i| ≤ ∑ _i : Fin m, H := Finset.sum_le_sum fun i _ => ha i
      _ = m * H := by simp
  have hS : |S - ∑ i, a i| ≤ 2 * (m * u) * (m * H) := by
    have a1 := flSum_small hu hs (by simpa using hmu)
    rw [abs_ofFn_sum, List.sum_ofFn, List.length_ofFn] at a1
    exact a1.trans (mul_le_mul_of_nonneg_left hsum (by positivity))
  have hSm : |S / m - avg a| ≤ 2 * (m * u) * H := by
    unfold avg
    rw [← sub_div, abs_div, abs_of_pos hm0, div_le_iff₀ hm0]
    linarith
  have havg : |avg a| ≤ H := by
    unfold avg
    rw [abs_div, abs_of_pos hm0, div_le_iff₀ hm0]
    linarith [Finset.abs_sum_le_sum_abs a Finset.univ]
  have hmH : m * u * H ≤ 1 / 16 * H := mul_le_mul_of_nonneg_right hmu hH
  have huH : u * H ≤ m * u * H := mul_le_mul_of_nonneg_right humu hH
  have hSmH : |S / m| ≤ 2 * H := by
    have := abs_sub_abs_le_abs_sub (S / m) (avg a)
    linarith
  have a2 : |mean - S / m| ≤ u * (2 * H) := le_trans hmean (mul_le_mul_of_nonneg_left hSmH hu)
  have a1 := abs_sub_le mean (S / m) (avg a)
  have a3 := abs_sub_abs_le_abs_sub mean (avg a)
  constructor <;> linarith

/-- the last operations -/
theorem flFinish_error {M0 M1 k ln second e rp first R H mu δ mean : ℝ} (hu : 0 ≤ u) (hu1 : u ≤ 1 / 16) (humu : u ≤ mu) (hl : 0 ≤ lam) (he : 0 < eps) (hR : 0 ≤ R)
    (hH : 0 ≤ H) (hln : 0 ≤ ln) (hlnH : ln ≤ H) (hv1 : v ≤ 1) (hmu1 : mu ≤ 1 / 16)
    (hmean : |mean - M1| ≤ 4 * mu * H) (hmeanH : |mean| ≤ 2 * H) (h01 : |M1 - M0| ≤ δ) (hk : Near v ln k) (h6 : Near u (mean - k) second)
    (h7 : Near u (eps * second) e) (h8 : Near u R rp) (h9 : Near u (lam * rp) first) (h10 : Near u (first + e) r) :
    |r - (lam * R + eps * (M0 - ln))| ≤ 5 * (u * (lam * R)) + 19 * (mu * (eps * H)) + eps * δ + v * (eps * ln) := by
  unfold Near at hk h6 h7 h8 h9 h10
  rw [abs_of_nonneg hln] at hk
  rw [abs_of_nonneg hR] at h8
  have hkH : |k| ≤ 2 * H := by
    have := abs_sub_abs_le_abs_sub k ln
    rw [abs_of_nonneg hln] at this
    have : v * ln ≤ 1 * ln := mul_le_mul_of_nonneg_right hv1 hln
    linarith
  have hmk : |mean - k| ≤ 4 * H := (abs_sub _ _).trans (by linarith)
  have huH : u * H ≤ mu * H := mul_le_mul_of_nonneg_right humu hH
  have hmH : mu * H ≤ 1 / 16 * H := mul_le_mul_of_nonneg_right hmu1 hH
  have hsec0 : |second - (mean - k)| ≤ 4 * (mu * H) := by
    have := mul_le_mul_of_nonneg_left hmk hu
    linarith
  have hsec : |second - (M0 - ln)| ≤ 8 * (mu * H) + δ + v * ln := by
    have e1 : second - (M0 - ln) = (second - (mean - k)) + ((mean - M1) + ((M1 - M0) - (k - ln))) := by ring
    rw [e1]
    have b1 := abs_add_le (second - (mean - k)) ((mean - M1) + ((M1 - M0) - (k - ln)))
    have b2 := abs_add_le (mean - M1) ((M1 - M0) - (k - ln))
    have b3 := abs_sub (M1 - M0) (k - ln)
    linarith
  have hsecH : |second| ≤ 5 * H := by
    have := abs_sub_abs_le_abs_sub second (mean - k)
    linarith
  have hes : |eps * second| ≤ 5 * (eps * H) := by
    rw [abs_mul, abs_of_pos he]
    have := mul_le_mul_of_nonneg_left hsecH he.le
    linarith
  have hHe : 0 ≤ eps * H := by positivity
  have hue : u * (eps * H) ≤ mu * (eps * H) := mul_le_mul_of_nonneg_right humu hHe
  have hme : mu * (eps * H) ≤ 1 / 16 * (eps * H) := mul_le_mul_of_nonneg_right hmu1 hHe
  have hee : |e - eps * second| ≤ 5 * (mu * (eps * H)) := by
    have := mul_le_mul_of_nonneg_left hes hu
    linarith
  have heH : |e| ≤ 6 * (eps * H) := by
    have := abs_sub_abs_le_abs_sub e (eps * second)
    linarith
  have hlR : 0 ≤ lam * R := mul_nonneg hl hR
  have huR : u * (lam * R) ≤ 1 / 16 * (lam * R) := mul_le_mul_of_nonneg_right hu1 hlR
  have hrp : |lam * rp - lam * R| ≤ u * (lam * R) := by
    rw [← mul_sub, abs_mul, abs_of_nonneg hl]
    have := mul_le_mul_of_nonneg_left h8 hl
    linarith
  have a2 := abs_sub_abs_le_abs_sub (lam * rp) (lam * R)
  rw [abs_of_nonneg hlR] at a2
  have a4 : |first - lam * rp| ≤ u * (2 * (lam * R)) := le_trans h9 (mul_le_mul_of_nonneg_left (by linarith) hu)
  have hfirst : |first - lam * R| ≤ 3 * (u * (lam * R)) := by
    have a1 := abs_sub_le first (lam * rp) (lam * R)
    linarith
  have hfirstR : |first| ≤ 2 * (lam * R) := by
    have a2 := abs_sub_abs_le_abs_sub first (lam * R)
    rw [abs_of_nonneg hlR] at a2
    linarith
  have hout : |r - (first + e)| ≤ u * (2 * (lam * R) + 6 * (eps * H)) :=
    le_trans h10 (mul_le_mul_of_nonneg_left ((abs_add_le _ _).trans (by linarith)) hu)
  have e1 : r - (lam * R + eps * (M0 - ln)) = (r - (first + e)) + ((first - lam * R) + ((e - eps * second) + eps * (second - (M0 - ln)))) := by ring
  rw [e1]
  have b1 := abs_add_le (r - (first + e)) ((first - lam * R) + ((e - eps * second) + eps * (second - (M0 - ln))))
  have b2 := abs_add_le (first - lam * R) ((e - eps * second) + eps * (second - (M0 - ln)))
  have b3 := abs_add_le (e - eps * second) (eps * (second - (M0 - ln)))
  have b4 : |eps * (second - (M0 - ln))| ≤ eps * (8 * (mu * H) + δ + v * ln) := by
    rw [abs_mul, abs_of_pos he]
    exact mul_le_mul_of_nonneg_left hsec he.le
  linarith

theorem robust_lse (hn : 0 < n) (hm : 0 < m) (he : 0 < eps) : robust lam rho p eps L C =
    lam * rho ^ p + eps * (avg (fun i => Real.log (∑ j, Real.exp ((L j i - lam * C j i) / eps))) - Real.log n) := by
  have hm0 : (m : ℝ) ≠ 0 := by positivity
  unfold robust
  congr 1
  simp only [softmax_lse hn he]
  unfold avg
  rw [← Finset.mul_sum, Finset.sum_sub_distrib]
  simp only [Finset.sum_const, Finset.card_univ, Fintype.card_fin, nsmul_eq_mul]
  field_simp

/-- **C130** (rounding) Whatever the way each operation rounds, with relative error at most `u` (and `v` for the logarithm of the number of samples), and
whatever the order of the sums, the robust loss computed from the losses `L` and costs `C` of the samples is within
`u * (5 lam rho^p + 44 m F + 19 m eps (log n + 1) + 12 n eps) + v eps log n` of the formula, `F` bounding losses plus penalties: the bound does not
grow when `eps` goes to zero. -/
theorem C130_error (hn : 0 < n) (hm : 0 < m) (hu : 0 ≤ u) (hv1 : v ≤ 1) (hnu : n * u ≤ 1 / 16) (hmu : m * u ≤ 1 / 16) (hl : 0 ≤ lam)
    (hrho : 0 ≤ rho) (he : 0 < eps) {F : ℝ} (hF : ∀ j i, |L j i| + |lam * C j i| ≤ F) (h : FlDual u v lam rho p eps L C r) :
    |r - robust lam rho p eps L C| ≤
      u * (5 * (lam * rho ^ p) + 44 * m * F + 19 * m * (eps * (Real.log n + 1)) + 12 * n * eps) + v * (eps * Real.log n) := by
  obtain ⟨integ, lse, S, mean, k, second, e, rp, first, h1, h2, h3, h4, h5, h6, h7, h8, h9, h10⟩ := h
  have hnR : (1 : ℝ) ≤ n := by exact_mod_cast hn
  have hmR : (1 : ℝ) ≤ m := by exact_mod_cast hm
  have hu1 : u ≤ 1 / 16 := le_trans (le_mul_of_one_le_left hu hnR) hnu
  have humu : u ≤ m * u := le_mul_of_one_le_left hu hmR
  have hF0 : 0 ≤ F := by
    have := hF ⟨0, hn⟩ ⟨0, hm⟩
    linarith [abs_nonneg (L ⟨0, hn⟩ ⟨0, hm⟩), abs_nonneg (lam * C ⟨0, hn⟩ ⟨0, hm⟩)]
  have hlogn : 0 ≤ Real.log n := Real.log_nonneg hnR
  have hFe0 : 0 ≤ F / eps := div_nonneg hF0 he.le
  have huF : u * (F / eps) ≤ 1 / 16 * (F / eps) := mul_le_mul_of_nonneg_right hu1 hFe0
  have huF0 : 0 ≤ u * (F / eps) := mul_nonneg hu hFe0
  have hxa : ∀ j i, |(L j i - lam * C j i) / eps| ≤ F / eps := by
    intro j i
    rw [abs_div, abs_of_pos he]
    exact div_le_div_of_nonneg_right ((abs_sub _ _).trans (hF j i)) he.le
  have hin : ∀ j i, |integ j i - (L j i - lam * C j i) / eps| ≤ 4 * (u * (F / eps)) := fun j i => flIntegrand_error hu hu1 he (hF j i) (h1 j i)
  have hina : ∀ j i, |integ j i| ≤ 5 / 4 * (F / eps) := by
    intro j i
    have := abs_sub_abs_le_abs_sub (integ j i) ((L j i - lam * C j i) / eps)
    linarith [hin j i, hxa j i]
  have hlse : ∀ i, |lse i - Real.log (∑ j, Real.exp ((L j i - lam * C j i) / eps))| ≤ 12 * (n * u) + 6 * (u * (F / eps)) := by
    intro i
    have a1 := flLSE_error hn hu hnu (fun j => hina j i) (h2 i)
    have a2 := lse_stable hn (fun j => hin j i)
    have a3 := abs_sub_le (lse i) (Real.log (∑ j, Real.exp (integ j i))) (Real.log (∑ j, Real.exp ((L j i - lam * C j i) / eps)))
    linarith
  have hlseH : ∀ i, |lse i| ≤ 2 * (F / eps) + Real.log n + 1 := by
    intro i
    have a1 := abs_sub_abs_le_abs_sub (lse i) (Real.log (∑ j, Real.exp ((L j i - lam * C j i) / eps)))
    have a2 := abs_sub_abs_le_abs_sub (Real.log (∑ j, Real.exp ((L j i - lam * C j i) / eps))) (Real.log n)
    rw [abs_of_nonneg hlogn] at a2
    have a3 := lse_size hn (fun j => hxa j i)
    linarith [hlse i]
  obtain ⟨hmean, hmeanH⟩ := flMean_error hm hu hmu (by linarith) hlseH h3 h4
  have hm0 : (0 : ℝ) < m := by linarith
  have havl : |avg lse - avg (fun i => Real.log (∑ j, Real.exp ((L j i - lam * C j i) / eps)))| ≤ 12 * (n * u) + 6 * (u * (F / eps)) := by
    unfold avg
    rw [← sub_div, abs_div, abs_of_pos hm0, div_le_iff₀ hm0, ← Finset.sum_sub_distrib]
    refine (Finset.abs_sum_le_sum_abs _ _).trans ?_
    calc ∑ i, |lse i - Real.log (∑ j, Real.exp ((L j i - lam * C j i) / eps))| ≤ ∑ _i : Fin m, (12 * (n * u) + 6 * (u * (F / eps))) :=
          Finset.sum_le_sum fun i _ => hlse i
      _ = (12 * (n * u) + 6 * (u * (F / eps))) * m := by simp; ring
  rw [robust_lse hn hm he]
  refine (flFinish_error hu hu1 humu hl he (Real.rpow_nonneg hrho p) (by linarith) hlogn (by linarith) hv1 hmu hmean hmeanH havl h5 h6 h7 h8 h9 h10).trans ?_
  have hFF : eps * (F / eps) = F := by field_simp
  have c4 : m * u * (eps * (2 * (F / eps) + Real.log n + 1)) = 2 * (m * u * F) + m * u * (eps * (Real.log n + 1)) := by
    rw [show eps * (2 * (F / eps) + Real.log n + 1) = 2 * (eps * (F / eps)) + eps * (Real.log n + 1) by ring, hFF]
    ring
  have c5 : eps * (12 * (n * u) + 6 * (u * (F / eps))) = 12 * (n * u) * eps + 6 * (u * F) := by
    rw [mul_add, show eps * (6 * (u * (F / eps))) = 6 * (u * (eps * (F / eps))) by ring, hFF]; ring
  have c6 : u * F ≤ m * u * F := mul_le_mul_of_nonneg_right humu hF0
  rw [c4, c5]
  linarith

/-! ### Exact operations -/

theorem flSum_exact (hu : 0 ≤ u) {l : List ℝ} (hl : l ≠ []) : FlSum u l l.sum := by
  induction l with
  | nil => exact absurd rfl hl
  | cons a l ih =>
    rcases eq_or_ne l [] with rfl | h
    · simpa using FlSum.one (u := u) a
    · exact FlSum.add (FlSum.one a) (ih h) (List.Perm.refl _) (by rw [List.sum_cons]; exact near_self hu _)

theorem flLSE_exact (hn : 0 < n) (hu : 0 ≤ u) (x : Fin n → ℝ) : FlLSE u x (Real.log (∑ j, Real.exp (x j))) := by
  haveI : Nonempty (Fin n) := ⟨⟨0, hn⟩⟩
  have hpos : 0 < ∑ j, Real.exp (x j - ⨆ i, x i) := Finset.sum_pos (fun j _ => Real.exp_pos _) Finset.univ_nonempty
  refine ⟨_, _, _, _, fun j => near_self hu _, fun j => near_self hu _, flSum_exact hu (by simp [List.ofFn_eq_nil_iff]; omega), near_self hu _, ?_⟩
  convert near_self hu _ using 1
  rw [List.sum_ofFn]
  have : ∑ j, Real.exp (x j) = Real.exp (⨆ i, x i) * ∑ j, Real.exp (x j - ⨆ i, x i) := by
    rw [Finset.mul_sum]
    refine Finset.sum_congr rfl fun j _ => ?_
    rw [← Real.exp_add]
    congr 1
    ring
  rw [this, Real.log_mul (Real.exp_ne_zero _) hpos.ne', Real.log_exp]

/-- all operations exact but the logarithm of the number of samples -/
theorem flDual_log (hn : 0 < n) (hm : 0 < m) (hu : 0 ≤ u) {k : ℝ} (hk : Near v (Real.log n) k) :
    FlDual u v lam rho p eps L C (lam * rho ^ p + eps * (avg (fun i => Real.log (∑ j, Real.exp ((L j i - lam * C j i) / eps))) - k)) := by
  refine ⟨fun j i => (L j i - lam * C j i) / eps, fun i => Real.log (∑ j, Real.exp ((L j i - lam * C j i) / eps)), _, _, k, _, _, _, _,
    fun j i => ⟨_, _, near_self hu _, near_self hu _, near_self hu _⟩, fun i => flLSE_exact hn hu _,
    flSum_exact hu (by simp [List.ofFn_eq_nil_iff]; omega), near_self hu _, hk, near_self hu _, near_self hu _, near_self hu _, near_self hu _, ?_⟩
  convert near_self hu _ using 1
  rw [List.sum_ofFn]
  rfl

/-- the exact value is one of the possible results -/
theorem flDual_exact (hn : 0 < n) (hm : 0 < m) (hu : 0 ≤ u) (hv : 0 ≤ v) (he : 0 < eps) : FlDual u v lam rho p eps L C (robust lam rho p eps L C) := by
  rw [robust_lse hn hm he]
  exact flDual_log hn hm hu (near_self hv _)

theorem exists_size (L C : Fin n → Fin m → ℝ) (lam : ℝ) : ∃ F, ∀ j i, |L j i| + |lam * C j i| ≤ F := by
  refine ⟨∑ j, ∑ i, (|L j i| + |lam * C j i|), fun j i => ?_⟩
  have h0 : ∀ j i, 0 ≤ |L j i| + |lam * C j i| := fun j i => by positivity
  exact (Finset.single_le_sum (f := fun i => |L j i| + |lam * C j i|) (fun i _ => h0 j i) (Finset.mem_univ i)).trans
    (Finset.single_le_sum (f := fun j => ∑ i, (|L j i| + |lam * C j i|)) (fun j _ => Finset.sum_nonneg fun i _ => h0 j i) (Finset.mem_univ j))

end

section
variable {G : Type} (ext : TorchExt G) {n m : ℕ} {D : DualLoss} {xi zeta : Tensor ℝ} {xl zl : Option (Tensor ℝ)} {rho : ℝ} {L C : Fin n → Fin m → ℝ}

/-- **C130** Without rounding the sequence of operations gives the value of the model, and only this one. -/
theorem C130_exact (h : Plain D xi xl zeta zl rho L C) (hr : D.reduction = .mean) (hl : 0 ≤ D.lam) (r : ℝ) :
    FlDual 0 0 D.lam rho D.cost.power D.epsilon L C r ↔ r = num (computeDual ext D xi xl zeta zl) := by
  rw [num_plain ext h hr]
  constructor
  · intro hf
    obtain ⟨F, hF⟩ := exists_size L C D.lam
    have := C130_error h.n_pos h.m_pos le_rfl zero_le_one (by norm_num) (by norm_num) hl h.rho_pos.le h.eps_pos hF hf
    rw [zero_mul, zero_mul, add_zero] at this
    exact sub_eq_zero.1 (abs_nonpos_iff.1 this)
  · rintro rfl
    exact flDual_exact h.n_pos h.m_pos le_rfl le_rfl h.eps_pos

/-- **C130** The robust loss returned by rounded operations is close to the exact one. -/
theorem C130_computed (h : Plain D xi xl zeta zl rho L C) (hr : D.reduction = .mean) (hl : 0 ≤ D.lam) {u v : ℝ} (hu : 0 ≤ u) (hv1 : v ≤ 1)
    (hnu : n * u ≤ 1 / 16) (hmu : m * u ≤ 1 / 16) {F : ℝ} (hF : ∀ j i, |L j i| + |D.lam * C j i| ≤ F) {r : ℝ}
    (hf : FlDual u v D.lam rho D.cost.power D.epsilon L C r) :
    |r - num (computeDual ext D xi xl zeta zl)| ≤
      u * (5 * (D.lam * rho ^ D.cost.power) + 44 * m * F + 19 * m * (D.epsilon * (Real.log n + 1)) + 12 * n * D.epsilon) +
        v * (D.epsilon * Real.log n) := by
  rw [num_plain ext h hr]
  exact C130_error h.n_pos h.m_pos hu hv1 hnu hmu hl h.rho_pos.le h.eps_pos hF hf

end

/-! ### Single precision -/

/-- single-precision numbers between 1/2 and 1 are multiples of `2^-24`, and all of them are far from `log 2` -/
theorem log_two_single (a : ℤ) : (1 : ℝ) / 10 ^ 9 ≤ |a / 2 ^ 24 - Real.log 2| := by
  have h1 := Real.log_two_gt_d9
  have h2 := Real.log_two_lt_d9
  rcases le_or_gt a 11629079 with h | h
  · have ha : (a : ℝ) ≤ 11629079 := by exact_mod_cast h
    rw [abs_sub_comm]
    refine le_trans ?_ (le_abs_self _)
    have : (a : ℝ) / 2 ^ 24 ≤ 11629079 / 2 ^ 24 := div_le_div_of_nonneg_right ha (by positivity)
    norm_num at this ⊢
    linarith
  · have ha : (11629080 : ℝ) ≤ a := by exact_mod_cast h
    refine le_trans ?_ (le_abs_self _)
    have : (11629080 : ℝ) / 2 ^ 24 ≤ a / 2 ^ 24 := div_le_div_of_nonneg_right ha (by positivity)
    norm_num at this ⊢
    linarith

/-- C130 is false for double precision: the logarithm of the number of samples is computed in single precision.  With two samples per point, even if all the
other operations are exact, the value is off by at least `10^-9 eps`, whatever the data (the relative accuracy of double precision is about `10^-16`). -/
theorem C130_double_false {m : ℕ} (hm : 0 < m) {lam rho p eps : ℝ} (he : 0 < eps) (L C : Fin 2 → Fin m → ℝ) :
    (∃ a : ℤ, Near ((1 / 2) ^ 24) (Real.log (2 : ℕ)) (a / 2 ^ 24)) ∧
    ∀ a : ℤ, Near ((1 / 2) ^ 24) (Real.log (2 : ℕ)) (a / 2 ^ 24) → ∃ r, FlDual 0 ((1 / 2) ^ 24) lam rho p eps L C r ∧
      eps * (1 / 10 ^ 9) ≤ |r - robust lam rho p eps L C| := by
  constructor
  · refine ⟨11629080, ?_⟩
    have h1 := Real.log_two_gt_d9
    have h2 := Real.log_two_lt_d9
    unfold Near
    push_cast
    rw [abs_of_pos (Real.log_pos (by norm_num)), abs_le]
    constructor <;> norm_num <;> linarith
  · intro a ha
    refine ⟨_, flDual_log (by norm_num) hm le_rfl ha, ?_⟩
    rw [robust_lse (by norm_num) hm he]
    have e : ∀ x y k l : ℝ, x + eps * (y - k) - (x + eps * (y - l)) = eps * (l - k) := fun x y k l => by ring
    rw [e, abs_mul, abs_of_pos he, abs_sub_comm]
    have := log_two_single a
    exact mul_le_mul_of_nonneg_left (by simpa using this) he.le

/-- the hypotheses of `C130_error` can hold: two samples of one point, in single precision -/
example : ∃ r, FlDual ((1 / 2) ^ 24) ((1 / 2) ^ 24) 1 1 2 (1 / 10) (fun (j : Fin 2) (_ : Fin 1) => (j : ℝ)) (fun _ _ => 1 / 4) r ∧
    |r - robust 1 1 2 (1 / 10) (fun (j : Fin 2) (_ : Fin 1) => (j : ℝ)) (fun _ _ => 1 / 4)| ≤ 1 / 10 ^ 5 := by
  refine ⟨_, flDual_exact (by norm_num) (by norm_num) (by norm_num) (by norm_num) (by norm_num), ?_⟩
  rw [sub_self, abs_zero]
  positivity

end Skwdro
