import Verif.Props.Dedicated
import Verif.Props.Sweep
import Verif.Props.MoreData
import Mathlib.Analysis.Convex.StrictConvexSpace
import Mathlib.Analysis.InnerProductSpace.Convex

/-!
# Dedicated regressions have one solution (C138)
-/

namespace Skwdro
open Spec Tensor MeasureTheory

/-- midpoints -/
noncomputable def mid {d : ℕ} (v w : Fin d → ℝ) : Fin d → ℝ := fun j => (v j + w j) / 2

theorem norm2_mid {d : ℕ} (v w : Fin d → ℝ) :
    norm2 (mid v w) ≤ (norm2 v + norm2 w) / 2 ∧ (norm2 (mid v w) = (norm2 v + norm2 w) / 2 → SameRay ℝ (WithLp.toLp 2 v : EuclideanSpace ℝ (Fin d)) (WithLp.toLp 2 w)) := by
  have e : (WithLp.toLp 2 (mid v w) : EuclideanSpace ℝ (Fin d)) = (1 / 2 : ℝ) • (WithLp.toLp 2 v + WithLp.toLp 2 w) := by
    ext j
    simp [mid]
    ring
  have h : norm2 (mid v w) = ‖(WithLp.toLp 2 v : EuclideanSpace ℝ (Fin d)) + WithLp.toLp 2 w‖ / 2 := by
    rw [norm2_euclid, e, norm_smul]
    norm_num
    ring
  rw [h, norm2_euclid, norm2_euclid]
  refine ⟨?_, fun h' => ?_⟩
  · have := norm_add_le (WithLp.toLp 2 v : EuclideanSpace ℝ (Fin d)) (WithLp.toLp 2 w)
    linarith
  · rw [sameRay_iff_norm_add]
    linarith

theorem rmse_norm2 {n d : ℕ} (X : Fin n → Fin d → ℝ) (y : Fin n → ℝ) (w : Fin d → ℝ) (b : ℝ) :
    rmse X y w b = norm2 (fun i => ∑ j, X i j * w j + b - y i) / Real.sqrt n := by
  unfold rmse avg norm2
  rw [Real.sqrt_div (Finset.sum_nonneg fun _ _ => sq_nonneg _)]

/-- the regularised error has one minimiser, unless some linear model fits the data exactly -/
theorem linreg_unique {n d : ℕ} (hn : 0 < n) {rho : ℝ} (hr : 0 < rho) {X : Fin n → Fin d → ℝ} {y : Fin n → ℝ} {ok : ℝ → Prop}
    (hok : ∀ a b s : ℝ, ok a → ok b → ok (a + s * (b - a))) (hfit : ¬ ∃ (w : Fin d → ℝ) (b : ℝ), ok b ∧ ∀ i, ∑ j, X i j * w j + b = y i) {w1 w2 : Fin d → ℝ} {b1 b2 : ℝ}
    (k1 : ok b1) (k2 : ok b2) (o1 : ∀ w b, ok b → rmse X y w1 b1 + rho * norm2 w1 ≤ rmse X y w b + rho * norm2 w)
    (o2 : ∀ w b, ok b → rmse X y w2 b2 + rho * norm2 w2 ≤ rmse X y w b + rho * norm2 w) : w1 = w2 ∧ b1 = b2 := by
  have hnR : (0 : ℝ) < Real.sqrt n := Real.sqrt_pos.2 (by exact_mod_cast hn)
  set r1 : Fin n → ℝ := fun i => ∑ j, X i j * w1 j + b1 - y i with hr1
  set r2 : Fin n → ℝ := fun i => ∑ j, X i j * w2 j + b2 - y i with hr2
  have hmid : (fun i => ∑ j, X i j * mid w1 w2 j + (b1 + b2) / 2 - y i) = mid r1 r2 := by
    funext i
    simp only [mid, hr1, hr2]
    have : ∑ j, X i j * ((w1 j + w2 j) / 2) = (∑ j, X i j * w1 j + ∑ j, X i j * w2 j) / 2 := by
      rw [← Finset.sum_add_distrib, Finset.sum_div]
      exact Finset.sum_congr rfl fun j _ => by ring
    rw [this]; ring
  have km : ok ((b1 + b2) / 2) := by
    have := hok b1 b2 (1 / 2) k1 k2
    rwa [show b1 + 1 / 2 * (b2 - b1) = (b1 + b2) / 2 by ring] at this
  have e12 := le_antisymm (o1 w2 b2 k2) (o2 w1 b1 k1)
  have hm := o1 (mid w1 w2) ((b1 + b2) / 2) km
  rw [rmse_norm2, rmse_norm2 X y (mid w1 w2), hmid] at hm
  rw [rmse_norm2, rmse_norm2] at e12
  change norm2 r1 / Real.sqrt n + rho * norm2 w1 = norm2 r2 / Real.sqrt n + rho * norm2 w2 at e12
  change norm2 r1 / Real.sqrt n + rho * norm2 w1 ≤ _ at hm
  obtain ⟨a1, a2⟩ := norm2_mid r1 r2
  obtain ⟨c1, c2⟩ := norm2_mid w1 w2
  have a1' : norm2 (mid r1 r2) / Real.sqrt n ≤ (norm2 r1 + norm2 r2) / 2 / Real.sqrt n := by gcongr
  have c1' := mul_le_mul_of_nonneg_left c1 hr.le
  have hd : (norm2 r1 + norm2 r2) / 2 / Real.sqrt n = (norm2 r1 / Real.sqrt n + norm2 r2 / Real.sqrt n) / 2 := by ring
  have aeq : norm2 (mid r1 r2) = (norm2 r1 + norm2 r2) / 2 := by
    refine le_antisymm a1 ?_
    by_contra hlt
    have : norm2 (mid r1 r2) / Real.sqrt n < (norm2 r1 + norm2 r2) / 2 / Real.sqrt n := by
      gcongr
      exact not_le.1 hlt
    linarith
  have ceq : norm2 (mid w1 w2) = (norm2 w1 + norm2 w2) / 2 := by
    refine le_antisymm c1 ?_
    by_contra hlt
    have := mul_lt_mul_of_pos_left (not_le.1 hlt) hr
    linarith
  -- the residuals are not zero, hence proportional
  have n1 : (WithLp.toLp 2 r1 : EuclideanSpace ℝ (Fin n)) ≠ 0 := by
    intro h0
    refine hfit ⟨w1, b1, k1, fun i => ?_⟩
    have := congrFun (congrArg WithLp.ofLp h0) i
    simp [hr1] at this
    linarith
  have n2 : (WithLp.toLp 2 r2 : EuclideanSpace ℝ (Fin n)) ≠ 0 := by
    intro h0
    refine hfit ⟨w2, b2, k2, fun i => ?_⟩
    have := congrFun (congrArg WithLp.ofLp h0) i
    simp [hr2] at this
    linarith
  obtain ⟨s, hs, hrs⟩ := (a2 aeq).exists_pos_left n1 n2
  have hrs' : ∀ i, s * r1 i = r2 i := fun i => by
    have := congrFun (congrArg WithLp.ofLp hrs) i
    simpa using this
  have hs1 : s = 1 := by
    by_contra hne
    have hne' : 1 - s ≠ 0 := sub_ne_zero.2 (Ne.symm hne)
    refine hfit ⟨fun j => (w2 j - s * w1 j) / (1 - s), b1 + 1 / (1 - s) * (b2 - b1), hok _ _ _ k1 k2, fun i => ?_⟩
    have h1 := hrs' i
    simp only [hr1, hr2] at h1
    have : ∑ j, X i j * ((w2 j - s * w1 j) / (1 - s)) = (∑ j, X i j * w2 j - s * ∑ j, X i j * w1 j) / (1 - s) := by
      rw [Finset.mul_sum, ← Finset.sum_sub_distrib, Finset.sum_div]
      exact Finset.sum_congr rfl fun j _ => by ring
    rw [this]
    field_simp
    linear_combination -h1
  have hres : ∀ i, r1 i = r2 i := fun i => by rw [← hrs' i, hs1, one_mul]
  have hres' : r1 = r2 := funext hres
  rw [hres'] at e12
  have hnorm : norm2 w1 = norm2 w2 := by
    have : rho * norm2 w1 = rho * norm2 w2 := by linarith
    exact mul_left_cancel₀ hr.ne' this
  have hw : w1 = w2 := by
    have h1 := (c2 ceq).norm_sub
    rw [norm2_euclid, norm2_euclid] at hnorm
    rw [hnorm, sub_self, abs_zero, norm_eq_zero, sub_eq_zero] at h1
    funext j
    exact congrFun (congrArg WithLp.ofLp h1) j
  refine ⟨hw, ?_⟩
  have := hres ⟨0, hn⟩
  simp only [hr1, hr2, hw] at this
  linarith

theorem cpLogistic_strict {a b : ℝ} (h : a ≠ b) : cpLogistic ((a + b) / 2) < (cpLogistic a + cpLogistic b) / 2 := by
  unfold cpLogistic
  have ha := Real.exp_pos (a / 2)
  have hb := Real.exp_pos (b / 2)
  have ea : Real.exp a = Real.exp (a / 2) ^ 2 := by rw [← Real.exp_nat_mul]; congr 1; push_cast; ring
  have eb : Real.exp b = Real.exp (b / 2) ^ 2 := by rw [← Real.exp_nat_mul]; congr 1; push_cast; ring
  have em : Real.exp ((a + b) / 2) = Real.exp (a / 2) * Real.exp (b / 2) := by rw [← Real.exp_add]; congr 1; ring
  have hne : Real.exp (a / 2) ≠ Real.exp (b / 2) := fun h' => h (by have := Real.exp_injective h'; linarith)
  have key : (1 + Real.exp ((a + b) / 2)) ^ 2 < (1 + Real.exp a) * (1 + Real.exp b) := by
    rw [ea, eb, em]
    have := sq_pos_of_ne_zero (sub_ne_zero.2 hne)
    nlinarith
  have h1 : Real.log ((1 + Real.exp ((a + b) / 2)) ^ 2) < Real.log ((1 + Real.exp a) * (1 + Real.exp b)) :=
    Real.log_lt_log (by positivity) key
  rw [Real.log_pow, Real.log_mul (by positivity) (by positivity)] at h1
  push_cast at h1
  linarith

theorem cpLogistic_mid (a b : ℝ) : cpLogistic ((a + b) / 2) ≤ (cpLogistic a + cpLogistic b) / 2 := by
  rcases eq_or_ne a b with h | h
  · subst h
    rw [show (a + a) / 2 = a by ring]
    linarith
  · exact (cpLogistic_strict h).le

theorem score_mid {d : ℕ} (w1 w2 : Fin d → ℝ) (b1 b2 : ℝ) (x : Fin d → ℝ) :
    Spec.score (mid w1 w2) (some ((b1 + b2) / 2)) x = (Spec.score w1 (some b1) x + Spec.score w2 (some b2) x) / 2 := by
  unfold Spec.score mid
  have : ∑ j, (w1 j + w2 j) / 2 * x j = (∑ j, w1 j * x j + ∑ j, w2 j * x j) / 2 := by
    rw [← Finset.sum_add_distrib, Finset.sum_div]
    exact Finset.sum_congr rfl fun j _ => by ring
  simp only [this, Option.getD_some]
  ring

/-- models of least worst-case logistic loss agree on the data -/
theorem logistic_unique {n d : ℕ} (hn : 0 < n) {kappa rho : ℝ} (hk : 0 ≤ kappa) (hr : 0 ≤ rho) {X : Fin n → Fin d → ℝ} {y : Fin n → ℝ}
    (hy : ∀ i, y i = 1 ∨ y i = -1) {w1 w2 : Fin d → ℝ} {b1 b2 V : ℝ} (l1 : IsLUB {e | ∃ Q ∈ LabelBall X y kappa rho, e = logRisk w1 b1 Q} V)
    (l2 : IsLUB {e | ∃ Q ∈ LabelBall X y kappa rho, e = logRisk w2 b2 Q} V)
    (hmin : ∀ M, (∀ Q ∈ LabelBall X y kappa rho, logRisk (mid w1 w2) ((b1 + b2) / 2) Q ≤ M) → V ≤ M) (i : Fin n) :
    Spec.score w1 (some b1) (X i) = Spec.score w2 (some b2) (X i) := by
  classical
  by_contra hne
  obtain ⟨lam1, s1, f1, v1⟩ := logistic_exact hn hk hr (X := X) hy w1 b1
  obtain ⟨lam2, s2, f2, v2⟩ := logistic_exact hn hk hr (X := X) hy w2 b2
  have e1 := l1.unique v1
  have e2 := l2.unique v2
  have hnR : (0 : ℝ) < n := by exact_mod_cast hn
  -- the midpoint is feasible, with slack at the sample
  have hA : ∀ k, cpLogistic (y k * Spec.score (mid w1 w2) (some ((b1 + b2) / 2)) (X k)) - kappa * ((lam1 + lam2) / 2) ≤ (s1 k + s2 k) / 2 ∧
      cpLogistic (-(y k * Spec.score (mid w1 w2) (some ((b1 + b2) / 2)) (X k))) ≤ (s1 k + s2 k) / 2 := by
    intro k
    have m1 := cpLogistic_mid (y k * Spec.score w1 (some b1) (X k)) (y k * Spec.score w2 (some b2) (X k))
    have m2 := cpLogistic_mid (-(y k * Spec.score w1 (some b1) (X k))) (-(y k * Spec.score w2 (some b2) (X k)))
    have a1 := f1.2 k
    have a2 := f2.2 k
    rw [score_mid, show y k * ((Spec.score w1 (some b1) (X k) + Spec.score w2 (some b2) (X k)) / 2) =
      (y k * Spec.score w1 (some b1) (X k) + y k * Spec.score w2 (some b2) (X k)) / 2 by ring]
    rw [show (-(y k * Spec.score w1 (some b1) (X k)) + -(y k * Spec.score w2 (some b2) (X k))) / 2 =
      -((y k * Spec.score w1 (some b1) (X k) + y k * Spec.score w2 (some b2) (X k)) / 2) by ring] at m2
    constructor <;> linarith [a1.1, a1.2, a2.1, a2.2]
  have hB : cpLogistic (y i * Spec.score (mid w1 w2) (some ((b1 + b2) / 2)) (X i)) - kappa * ((lam1 + lam2) / 2) < (s1 i + s2 i) / 2 ∧
      cpLogistic (-(y i * Spec.score (mid w1 w2) (some ((b1 + b2) / 2)) (X i))) < (s1 i + s2 i) / 2 := by
    have hyi : y i ≠ 0 := by rcases hy i with h | h <;> rw [h] <;> norm_num
    have m1 := cpLogistic_strict (a := y i * Spec.score w1 (some b1) (X i)) (b := y i * Spec.score w2 (some b2) (X i))
      fun h => hne (mul_left_cancel₀ hyi h)
    have m2 := cpLogistic_strict (a := -(y i * Spec.score w1 (some b1) (X i))) (b := -(y i * Spec.score w2 (some b2) (X i)))
      fun h => hne (mul_left_cancel₀ hyi (neg_injective h))
    have a1 := f1.2 i
    have a2 := f2.2 i
    rw [score_mid, show y i * ((Spec.score w1 (some b1) (X i) + Spec.score w2 (some b2) (X i)) / 2) =
      (y i * Spec.score w1 (some b1) (X i) + y i * Spec.score w2 (some b2) (X i)) / 2 by ring]
    rw [show (-(y i * Spec.score w1 (some b1) (X i)) + -(y i * Spec.score w2 (some b2) (X i))) / 2 =
      -((y i * Spec.score w1 (some b1) (X i) + y i * Spec.score w2 (some b2) (X i)) / 2) by ring] at m2
    constructor <;> linarith [a1.1, a1.2, a2.1, a2.2]
  set t : Fin n → ℝ := fun k => max (cpLogistic (y k * Spec.score (mid w1 w2) (some ((b1 + b2) / 2)) (X k)) - kappa * ((lam1 + lam2) / 2))
    (cpLogistic (-(y k * Spec.score (mid w1 w2) (some ((b1 + b2) / 2)) (X k)))) with ht
  have hfeas : LogFeas kappa X y (mid w1 w2) ((b1 + b2) / 2) ((lam1 + lam2) / 2) t :=
    ⟨(norm2_mid w1 w2).1.trans (by linarith [f1.1, f2.1]), fun k => ⟨le_max_left _ _, le_max_right _ _⟩⟩
  have hV := hmin ((lam1 + lam2) / 2 * rho + avg t) fun Q hQ => (logistic_certificate hy hfeas hQ).2
  have hlt : avg t < (avg s1 + avg s2) / 2 := by
    have : ∑ k, t k < ∑ k, (s1 k + s2 k) / 2 :=
      Finset.sum_lt_sum (fun k _ => max_le (hA k).1 (hA k).2) ⟨i, Finset.mem_univ i, max_lt hB.1 hB.2⟩
    have e : (avg s1 + avg s2) / 2 = (∑ k, (s1 k + s2 k) / 2) / n := by
      unfold avg
      rw [← Finset.sum_div, Finset.sum_add_distrib]
      ring
    rw [e]
    unfold avg
    gcongr
  linarith

section
variable {n d : ℕ} {G : Type} {ext : TorchExt G} {solve solve' : Oracle} {g g' : G} {P : EstParams}

/-- **C138** Linear regression with `solver="dedicated"` and a positive radius, on data that no allowed linear model (intercept zero if none is
fitted) fits exactly: two fits with any two exact solvers, training settings and generators store the same coefficients and intercept. -/
theorem C138_linreg (hs : ExactSolver solve) (hs' : ExactSolver solve') {grads grads' : Autograd d} {train train' : Trainer d} {init init' : LinInit d}
    (hP : P.solver = "dedicated".toList) (hc : ∃ c, cost_from_str P.cost = .ok c) {rho : ℝ} (hR : P.rho = .num rho) (hr : 0 < rho) (hn : 0 < n)
    (hd : 0 < d) (X : Fin n → Fin d → ℝ) (y : Fin n → ℝ)
    (hfit : ¬ ∃ (w : Fin d → ℝ) (b : ℝ), (P.fit_intercept = false → b = 0) ∧ ∀ i, ∑ j, X i j * w j + b = y i) :
    ∃ f, linregFit ext grads solve train init P X y g = .ok f ∧ linregFit ext grads' solve' train' init' P X y g' = .ok f := by
  obtain ⟨c, hc⟩ := hc
  have hr' : route .linreg P.solver = .ok .dedicated := by rw [(C66_route_partial .linreg P.solver).2.1 hP]; rfl
  have key : ∀ (solve : Oracle) (_ : ExactSolver solve) (grads : Autograd d) (train : Trainer d) (init : LinInit d) (g : G),
      ∃ v, (linregProgram rho X y P.fit_intercept).Optimal v ∧
        linregFit ext grads solve train init P X y g = .ok { coef := some (listT (List.ofFn v.1)), intercept := some (listT [v.2]) } := by
    intro solve hs grads train init g
    obtain ⟨v, hv⟩ := (hs _ (linregProgram rho X y P.fit_intercept)).2 (linreg_exists hn hr X y P.fit_intercept)
    refine ⟨v, (hs _ _).1 v hv, ?_⟩
    obtain ⟨r', hw, hu⟩ := wrap3 (some (.vec (List.ofFn v.1))) (some (.vec [v.2])) none
    unfold linregFit
    rw [if_neg (by omega), hc, hr', hR]
    simp only [ok_bind, linregAt, linregDedicated, if_pos hr, hv, hw, hu]
    rfl
  obtain ⟨⟨w1, b1⟩, o1, e1⟩ := key solve hs grads train init g
  obtain ⟨⟨w2, b2⟩, o2, e2⟩ := key solve' hs' grads' train' init' g'
  have hopt : ∀ {w b}, (linregProgram rho X y P.fit_intercept).Optimal (w, b) → ∀ w' b', (P.fit_intercept = false → b' = 0) →
      rmse X y w b + rho * norm2 w ≤ rmse X y w' b' + rho * norm2 w' := by
    intro w b o w' b' hb'
    have := o.2 (w', b') ((linreg_feasible ..).2 hb')
    rwa [linreg_objective, linreg_objective] at this
  obtain ⟨hw, hb⟩ := linreg_unique hn hr (ok := fun b => P.fit_intercept = false → b = 0)
    (fun a b s ha hb h => by rw [ha h, hb h]; ring) hfit ((linreg_feasible ..).1 o1.1) ((linreg_feasible ..).1 o2.1) (hopt o1) (hopt o2)
  subst hw hb
  exact ⟨_, e1, e2⟩

/-- **C138** (violated without this condition) For data fitted exactly by a linear model, two exact solvers may give different coefficients:
with one sample `x = 1`, `y = 1`, a radius of 1 and no intercept, this happens. -/
theorem C138_linreg_false {grads : Autograd 1} {train : Trainer 1} {init : LinInit 1} (hP : P.solver = "dedicated".toList)
    (hc : ∃ c, cost_from_str P.cost = .ok c) (hR : P.rho = .num 1) (hi : P.fit_intercept = false) :
    ∃ (solve solve' : Oracle) (f f' : Fitted 1) (wT wT' : Tensor ℝ) (w w' : Fin 1 → ℝ), ExactSolver solve ∧ ExactSolver solve' ∧
      linregFit ext grads solve train init P (fun _ _ => 1) (fun _ : Fin 1 => 1) g = .ok f ∧
      linregFit ext grads solve' train init P (fun _ _ => 1) (fun _ : Fin 1 => 1) g = .ok f' ∧
      f.coef = some wT ∧ IsVec wT w ∧ f'.coef = some wT' ∧ IsVec wT' w' ∧ w ≠ w' := by
  classical
  obtain ⟨c, hc⟩ := hc
  have hr' : route .linreg P.solver = .ok .dedicated := by rw [(C66_route_partial .linreg P.solver).2.1 hP]; rfl
  obtain ⟨solve, hs⟩ := exactSolver_exists
  -- a solver that returns another solution whenever there is one
  set alt : Oracle := fun V Q => if h : ∃ v, Q.Optimal v ∧ solve V Q ≠ some v then some h.choose else solve V Q with halt
  have hs' : ExactSolver alt := by
    intro V Q
    constructor
    · intro v hv
      simp only [halt] at hv
      split_ifs at hv with h
      · cases hv
        exact h.choose_spec.1
      · exact (hs V Q).1 v hv
    · intro hex
      simp only [halt]
      split_ifs with h
      · exact ⟨_, rfl⟩
      · exact (hs V Q).2 hex
  set Q := linregProgram 1 (fun (_ : Fin 1) (_ : Fin 1) => (1 : ℝ)) (fun _ => 1) P.fit_intercept with hQ
  have hopt : ∀ a : ℝ, 0 ≤ a → a ≤ 1 → Q.Optimal (fun _ => a, 0) := by
    intro a h0 h1
    refine ⟨(linreg_feasible ..).2 fun _ => rfl, fun v hv => ?_⟩
    obtain ⟨w, b⟩ := v
    have hb : b = 0 := (linreg_feasible ..).1 hv hi
    subst hb
    rw [hQ, linreg_objective, linreg_objective]
    have e : ∀ w : Fin 1 → ℝ, rmse (fun (_ : Fin 1) (_ : Fin 1) => (1 : ℝ)) (fun _ => 1) w 0 + 1 * norm2 w = |w 0 - 1| + |w 0| := by
      intro w
      simp [rmse, avg, norm2, Real.sqrt_sq_eq_abs]
    rw [e, e, abs_of_nonpos (by linarith : a - 1 ≤ 0), abs_of_nonneg h0]
    have h2 := neg_abs_le (w 0 - 1)
    have h3 := le_abs_self (w 0)
    linarith
  obtain ⟨v, hv⟩ := (hs _ Q).2 ⟨_, hopt 0 le_rfl zero_le_one⟩
  have hb : ∀ v, Q.Optimal v → v.2 = 0 := fun v o => (linreg_feasible ..).1 o.1 hi
  have hother : ∃ u, Q.Optimal u ∧ solve _ Q ≠ some u := by
    by_cases h : v.1 = fun _ => (0 : ℝ)
    · refine ⟨_, hopt 1 zero_le_one le_rfl, fun hu => ?_⟩
      rw [hv] at hu
      cases hu
      have := congrFun h 0
      norm_num at this
    · refine ⟨_, hopt 0 le_rfl zero_le_one, fun hu => ?_⟩
      rw [hv] at hu
      cases hu
      exact h rfl
  have hv' : alt _ Q = some hother.choose := by simp only [halt]; rw [dif_pos hother]
  have fit : ∀ (solve : Oracle) v, solve _ Q = some v → linregFit ext grads solve train init P (fun _ _ => 1) (fun _ : Fin 1 => 1) g =
      .ok { coef := some (listT (List.ofFn v.1)), intercept := some (listT [v.2]) } := by
    intro solve v hv
    obtain ⟨r', hw, hu⟩ := wrap3 (some (.vec (List.ofFn v.1))) (some (.vec [v.2])) none
    unfold linregFit
    rw [if_neg (by omega), hc, hr', hR]
    simp only [ok_bind, linregAt, linregDedicated, Radius.toNum, zero_lt_one, if_true]
    rw [← hQ, hv]
    simp only [hw, hu, ok_bind]
    rfl
  refine ⟨solve, alt, _, _, _, _, v.1, hother.choose.1, hs, hs', fit _ _ hv, fit _ _ hv', rfl, listT_ofFn v.1, rfl, listT_ofFn _, fun heq => ?_⟩
  refine hother.choose_spec.2 (hv.trans (congrArg some (Prod.ext heq ?_)))
  rw [hb _ ((hs _ _).1 v hv), hb _ hother.choose_spec.1]

/-- **C138** Binary logistic regression with `solver="dedicated"` and a positive radius: two fits with any two exact solvers, training settings
and generators give the same decision value `x . coef + intercept` at every sample of the data, hence the same probabilities and classes there;
and the same coefficients and intercept, when no allowed affine function other than zero vanishes at all samples. -/
theorem C138_logistic {L : Type} [LinearOrder L] (hs : ExactSolver solve) (hs' : ExactSolver solve') {grads grads' : Autograd d}
    {train train' : Trainer d} {init init' : LinInit d} (hP : P.solver = "dedicated".toList) (hc : ∃ c, cost_from_str P.cost = .ok c) {rho : ℝ}
    (hR : P.rho = .num rho) (hr : 0 < rho) (hd : 0 < d) (X : Fin n → Fin d → ℝ) {y : Fin n → L} {c0 c1 : L} (hlt : c0 < c1)
    (hy : ∀ i, y i = c0 ∨ y i = c1) (h0 : ∃ i, y i = c0) (h1 : ∃ i, y i = c1) :
    ∃ f f' wT wT' bT bT' w w' b b', logisticFit ext grads solve train init P X y g = .ok f ∧
      logisticFit ext grads' solve' train' init' P X y g' = .ok f' ∧ f.coef = some wT ∧ IsVec wT w ∧ f.intercept = some bT ∧ IsScalar bT b ∧
      f'.coef = some wT' ∧ IsVec wT' w' ∧ f'.intercept = some bT' ∧ IsScalar bT' b' ∧
      (∀ i, ∑ j, w j * X i j + b = ∑ j, w' j * X i j + b') ∧
      ((∀ (v : Fin d → ℝ) (a : ℝ), (P.fit_intercept = false → a = 0) → (∀ i, ∑ j, v j * X i j + a = 0) → v = 0 ∧ a = 0) → w = w' ∧ b = b') := by
  classical
  have hn : 0 < n := h0.choose.pos
  set s : Fin n → ℝ := fun i => if y i = c0 then -1 else 1 with hsdef
  have hs0 : ∀ i, y i = c0 → s i = -1 := fun i h => by simp [hsdef, h]
  have hs1 : ∀ i, y i = c1 → s i = 1 := fun i h => by simp [hsdef, h, hlt.ne']
  have hsv : ∀ i, s i = 1 ∨ s i = -1 := fun i => (hy i).elim (fun h => Or.inr (hs0 i h)) (fun h => Or.inl (hs1 i h))
  obtain ⟨f, wT, bT, -, w, b, -, V, k1, -, k2, k3, k4, k5, k6, -, -, -, hV, hM⟩ := C94_logistic (ext := ext) (g := g) hs (grads := grads)
    (train := train) (init := init) hP hc hR hr hd X hlt hy h0 h1 hs0 hs1
  obtain ⟨f', wT', bT', -, w', b', -, V', k1', -, k2', k3', k4', k5', k6', -, -, -, hV', hM'⟩ := C94_logistic (ext := ext) (g := g') hs'
    (grads := grads') (train := train') (init := init') hP hc hR hr hd X hlt hy h0 h1 hs0 hs1
  have hVV : V' = V := le_antisymm (hM' w b k6 V fun Q hQ => hV.1 ⟨Q, hQ, rfl⟩) (hM w' b' k6' V' fun Q hQ => hV'.1 ⟨Q, hQ, rfl⟩)
  rw [hVV] at hV'
  have hsc : ∀ i, ∑ j, w j * X i j + b = ∑ j, w' j * X i j + b' := by
    intro i
    have := logistic_unique hn (by norm_num : (0 : ℝ) ≤ 1000) hr.le hsv hV hV' (hM _ _ fun h => by rw [k6 h, k6' h]; ring) i
    simpa [Spec.score] using this
  refine ⟨f, f', wT, wT', bT, bT', w, w', b, b', k1, k1', k2, k3, k4, k5, k2', k3', k4', k5', hsc, fun hspan => ?_⟩
  obtain ⟨hv, ha⟩ := hspan (fun j => w j - w' j) (b - b') (fun h => by rw [k6 h, k6' h]; ring) fun i => by
    have := hsc i
    simp only [sub_mul, Finset.sum_sub_distrib]
    linarith
  exact ⟨funext fun j => sub_eq_zero.1 (congrFun hv j), sub_eq_zero.1 ha⟩

end

end Skwdro
