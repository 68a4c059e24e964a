import Verif.Props.Optimizers
import Verif.Lemmas.Gibbs
import Mathlib.Probability.Moments.SubGaussian
import Mathlib.Probability.ProbabilityMassFunction.Integrals
import Mathlib.Analysis.Convex.Jensen

/-! # C115: guarantees of the hybrid optimizers on convex problems -/

namespace Skwdro
open Spec

section C115

theorem zipWith_ofFn' {n : ℕ} (f : ℝ → ℝ → ℝ) (a b : Fin n → ℝ) :
    List.zipWith f (List.ofFn a) (List.ofFn b) = List.ofFn fun i => f (a i) (b i) := by
  apply List.ext_getElem
  · simp
  · intro i h1 h2; simp

/-- the values after a step, by the specification of the rules -/
theorem stepsTo_iff {lr : ℝ} {rule : Option Rule} {n : ℕ} {p g p' : Fin n → ℝ}
    (hp : rule = some .mwu ∨ rule = some .mwuSimplex → ∀ i, 0 < p i) :
    StepsTo lr rule p g p' ↔ ruleStep lr rule (List.ofFn p) (List.ofFn g) = List.ofFn p' := by
  have h1 : HSingle [⟨rule.toList, [⟨List.ofFn p, some (List.ofFn g)⟩]⟩] := by
    intro x hx; simp only [List.mem_singleton] at hx; exact ⟨rule, by rw [hx]⟩
  have h2 : HPositive [⟨rule.toList, [⟨List.ofFn p, some (List.ofFn g)⟩]⟩] := by
    intro x hx hr q hq a ha
    simp only [List.mem_singleton] at hx; subst hx
    simp only [List.mem_singleton] at hq; subst hq
    simp only [Option.mem_toList] at hr
    simp only [List.mem_ofFn] at ha
    obtain ⟨i, rfl⟩ := ha
    exact hp hr i
  have h3 : HReady [⟨rule.toList, [⟨List.ofFn p, some (List.ofFn g)⟩]⟩] := by
    intro x hx hr q hq
    simp only [List.mem_singleton] at hx; subst hx
    simp only [List.mem_singleton] at hq; subst hq
    simp
  obtain ⟨gs', k1, -, k3⟩ := C55_sgd lr h1 h2 h3
  have k4 : hvals gs' = [[ruleStep lr rule (List.ofFn p) (List.ofFn g)]] := by
    have : rule.toList.head? = rule := by cases rule <;> rfl
    simpa [hvals, this] using k3
  constructor
  · rintro ⟨gs, e1, e2⟩
    rw [k1] at e1
    cases e1
    rw [k4] at e2
    simpa using e2
  · intro h
    exact ⟨gs', k1, by rw [k4, h]⟩

open MeasureTheory ProbabilityTheory in
/-- Hoeffding's lemma for finitely many weights -/
theorem hoeffding_weights {n : ℕ} {p : Fin n → ℝ} (hp : IsWeights p) {a b : ℝ} (u : Fin n → ℝ) (hu : ∀ j, u j ∈ Set.Icc a b) (t : ℝ) :
    ∑ j, p j * Real.exp (t * u j) ≤ Real.exp (t * ∑ j, p j * u j + t ^ 2 * (b - a) ^ 2 / 8) := by
  have hsum : ∑ j, ENNReal.ofReal (p j) = 1 := by
    rw [← ENNReal.ofReal_sum_of_nonneg fun j _ => hp.1 j, hp.2, ENNReal.ofReal_one]
  let P := PMF.ofFintype (fun j => ENNReal.ofReal (p j)) hsum
  let μ := P.toMeasure
  have hint : ∀ f : Fin n → ℝ, ∫ j, f j ∂μ = ∑ j, p j * f j := by
    intro f
    rw [PMF.integral_eq_sum]
    simp [P, PMF.ofFintype_apply, ENNReal.toReal_ofReal (hp.1 _)]
  have hs := hasSubgaussianMGF_of_mem_Icc (μ := μ) (X := u) (a := a) (b := b) (measurable_of_countable u).aemeasurable
    (Filter.Eventually.of_forall hu)
  have h1 := hs.mgf_le t
  simp only [mgf, hint] at h1
  have hab : ((‖b - a‖₊ / 2 : NNReal) ^ 2 : NNReal) = (((b - a) / 2) ^ 2 : ℝ) := by
    push_cast; rw [Real.norm_eq_abs, div_pow, sq_abs, div_pow]
  rw [hab] at h1
  have e : ∑ j, p j * Real.exp (t * u j) = Real.exp (t * ∑ j, p j * u j) * ∑ j, p j * Real.exp (t * (u j - ∑ j, p j * u j)) := by
    rw [Finset.mul_sum]
    refine Finset.sum_congr rfl fun j _ => ?_
    rw [mul_sub, sub_eq_add_neg, Real.exp_add, Real.exp_neg]
    field_simp
  rw [e, Real.exp_add]
  refine mul_le_mul_of_nonneg_left (h1.trans (le_of_eq ?_)) (Real.exp_pos _).le
  congr 1; ring

/-- the potential of one step on the simplex -/
theorem simplex_step {lr : ℝ} {n : ℕ} {p g p' : Fin n → ℝ} (hp : ∀ i, 0 < p i) (hw : ∑ i, p i = 1)
    {a b : ℝ} (hg : ∀ i, g i ∈ Set.Icc a b) (h : StepsTo lr (some .mwuSimplex) p g p') :
    (∀ i, 0 < p' i) ∧ ∑ i, p' i = 1 ∧ ∀ q : Fin n → ℝ, IsWeights q →
      lr * ∑ i, (p i - q i) * g i ≤ ∑ i, q i * Real.log (p' i) - ∑ i, q i * Real.log (p i) + lr ^ 2 * (b - a) ^ 2 / 8 := by
  rw [stepsTo_iff fun _ => hp] at h
  simp only [ruleStep, zipWith_ofFn', List.map_ofFn, List.sum_ofFn, Function.comp_def] at h
  have h' : ∀ i, p i * Real.exp (-lr * g i) / ∑ j, p j * Real.exp (-lr * g j) = p' i := fun i => congrFun (List.ofFn_injective h) i
  have hn : 0 < n := by
    rcases Nat.eq_zero_or_pos n with rfl | h
    · simp at hw
    · exact h
  have hne : Nonempty (Fin n) := ⟨⟨0, hn⟩⟩
  have hZ : 0 < ∑ j, p j * Real.exp (-lr * g j) :=
    Finset.sum_pos (fun j _ => mul_pos (hp j) (Real.exp_pos _)) Finset.univ_nonempty
  refine ⟨fun i => ?_, ?_, fun q hq => ?_⟩
  · rw [← h' i]; exact div_pos (mul_pos (hp i) (Real.exp_pos _)) hZ
  · simp only [← h', ← Finset.sum_div]; exact div_self hZ.ne'
  · have hlog : ∀ i, Real.log (p' i) = Real.log (p i) + -lr * g i - Real.log (∑ j, p j * Real.exp (-lr * g j)) := by
      intro i
      rw [← h' i, Real.log_div (mul_pos (hp i) (Real.exp_pos _)).ne' hZ.ne', Real.log_mul (hp i).ne' (Real.exp_pos _).ne', Real.log_exp]
    have hH := hoeffding_weights ⟨fun i => (hp i).le, hw⟩ g hg (-lr)
    rw [← Real.log_le_iff_le_exp hZ] at hH
    have e1 : ∑ i, q i * Real.log (p' i) = ∑ i, q i * Real.log (p i) - lr * ∑ i, q i * g i -
        Real.log (∑ j, p j * Real.exp (-lr * g j)) := by
      have : ∀ i, q i * Real.log (p' i) = q i * Real.log (p i) - lr * (q i * g i) -
          q i * Real.log (∑ j, p j * Real.exp (-lr * g j)) := fun i => by rw [hlog i]; ring
      simp only [this, Finset.sum_sub_distrib, ← Finset.mul_sum, ← Finset.sum_mul, hq.2, one_mul]
    have e2 : ∑ i, (p i - q i) * g i = ∑ i, p i * g i - ∑ i, q i * g i := by
      simp only [sub_mul, Finset.sum_sub_distrib]
    rw [e1, e2]
    nlinarith [hH]

/-- **C115** (simplex) Multiplicative weights on the simplex with SGD, from any positive weights: whatever the gradients, in `[a, b]`,
that come at each step, after `T` steps the accumulated linear loss exceeds that of any fixed weights `q` by at most
`log(1/p0)` averaged by `q`, over the learning rate, plus `lr * T * (b - a)^2 / 8`. -/
theorem C115_simplex {lr : ℝ} (hl : 0 < lr) {n : ℕ} (p g : ℕ → Fin n → ℝ) (h0 : ∀ i, 0 < p 0 i) (h1 : ∑ i, p 0 i = 1)
    {a b : ℝ} (hg : ∀ t i, g t i ∈ Set.Icc a b) (hs : ∀ t, StepsTo lr (some .mwuSimplex) (p t) (g t) (p (t + 1)))
    (q : Fin n → ℝ) (hq : IsWeights q) (T : ℕ) :
    ∑ t ∈ Finset.range T, ∑ i, (p t i - q i) * g t i ≤ (∑ i, q i * Real.log (1 / p 0 i)) / lr + lr * T * (b - a) ^ 2 / 8 := by
  have hinv : ∀ t, (∀ i, 0 < p t i) ∧ ∑ i, p t i = 1 := by
    intro t
    induction t with
    | zero => exact ⟨h0, h1⟩
    | succ t ih => obtain ⟨k1, k2, -⟩ := simplex_step ih.1 ih.2 (hg t) (hs t); exact ⟨k1, k2⟩
  have hpot : lr * ∑ t ∈ Finset.range T, ∑ i, (p t i - q i) * g t i ≤
      ∑ i, q i * Real.log (p T i) - ∑ i, q i * Real.log (p 0 i) + T * (lr ^ 2 * (b - a) ^ 2 / 8) := by
    induction T with
    | zero => simp
    | succ T ih =>
      have := (simplex_step (hinv T).1 (hinv T).2 (hg T) (hs T)).2.2 q hq
      rw [Finset.sum_range_succ, mul_add]
      push_cast
      linarith
  have hle : ∑ i, q i * Real.log (p T i) ≤ 0 := by
    refine Finset.sum_nonpos fun i _ => mul_nonpos_of_nonneg_of_nonpos (hq.1 i) (Real.log_nonpos ((hinv T).1 i).le ?_)
    rw [← (hinv T).2]
    exact Finset.single_le_sum (fun j _ => ((hinv T).1 j).le) (Finset.mem_univ i)
  have e : ∑ i, q i * Real.log (1 / p 0 i) = -∑ i, q i * Real.log (p 0 i) := by
    simp only [one_div, Real.log_inv, mul_neg, Finset.sum_neg_distrib]
  rw [e]
  have : ∑ t ∈ Finset.range T, ∑ i, (p t i - q i) * g t i ≤
      (-∑ i, q i * Real.log (p 0 i) + T * (lr ^ 2 * (b - a) ^ 2 / 8)) / lr := by
    rw [le_div_iff₀ hl]; linarith
  refine this.trans (le_of_eq ?_)
  field_simp

/-- **C115** (simplex, convex problem) The same for a problem `f` on the simplex with uniform first weights and the gradients of
`f`: the average of the iterates is optimal up to `log n / (lr T) + lr (b - a)^2 / 8`.  `f` is only asked to be convex on weights
and to lie above its tangents there. -/
theorem C115_simplex_convex {lr : ℝ} (hl : 0 < lr) {n : ℕ} (f : (Fin n → ℝ) → ℝ) (df : (Fin n → ℝ) → Fin n → ℝ)
    (hf : ConvexOn ℝ {q | IsWeights q} f) (hdf : ∀ x y, IsWeights x → IsWeights y → f x + ∑ i, (y i - x i) * df x i ≤ f y)
    {a b : ℝ} (hg : ∀ x, IsWeights x → ∀ i, df x i ∈ Set.Icc a b) (p : ℕ → Fin n → ℝ) (hn : 0 < n) (h0 : ∀ i, p 0 i = 1 / n)
    (hs : ∀ t, StepsTo lr (some .mwuSimplex) (p t) (df (p t)) (p (t + 1)))
    (q : Fin n → ℝ) (hq : IsWeights q) {T : ℕ} (hT : 0 < T) :
    f (fun i => (∑ t ∈ Finset.range T, p t i) / T) ≤ f q + Real.log n / (lr * T) + lr * (b - a) ^ 2 / 8 := by
  have hn' : (0 : ℝ) < n := by exact_mod_cast hn
  have hT' : (0 : ℝ) < T := by exact_mod_cast hT
  have hp0 : ∀ i, 0 < p 0 i := fun i => by rw [h0]; positivity
  have hp1 : ∑ i, p 0 i = 1 := by simp [h0, hn'.ne']
  have hinv : ∀ t, (∀ i, 0 < p t i) ∧ ∑ i, p t i = 1 := by
    intro t
    induction t with
    | zero => exact ⟨hp0, hp1⟩
    | succ t ih => obtain ⟨k1, k2, -⟩ := simplex_step ih.1 ih.2 (hg (p t) ⟨fun i => (ih.1 i).le, ih.2⟩) (hs t); exact ⟨k1, k2⟩
  have hw : ∀ t, IsWeights (p t) := fun t => ⟨fun i => ((hinv t).1 i).le, (hinv t).2⟩
  have hreg := C115_simplex hl p (fun t => df (p t)) hp0 hp1 (fun t => hg (p t) (hw t)) hs q hq T
  have e0 : ∑ i, q i * Real.log (1 / p 0 i) = Real.log n := by
    simp only [h0, one_div, inv_inv, ← Finset.sum_mul, hq.2, one_mul]
  rw [e0] at hreg
  have hsum : ∑ t ∈ Finset.range T, f (p t) ≤ T * f q + ∑ t ∈ Finset.range T, ∑ i, (p t i - q i) * df (p t) i := by
    have : ∀ t ∈ Finset.range T, f (p t) ≤ f q + ∑ i, (p t i - q i) * df (p t) i := by
      intro t _
      have := hdf (p t) q (hw t) hq
      have e : ∑ i, (p t i - q i) * df (p t) i = -∑ i, (q i - p t i) * df (p t) i := by
        rw [← Finset.sum_neg_distrib]; exact Finset.sum_congr rfl fun i _ => by ring
      rw [e]; linarith
    refine (Finset.sum_le_sum this).trans (le_of_eq ?_)
    rw [Finset.sum_add_distrib]; simp
  have hj := hf.map_sum_le (t := Finset.range T) (w := fun _ => 1 / (T : ℝ)) (p := p) (fun _ _ => by positivity)
    (by simp [hT'.ne']) (fun t _ => hw t)
  have e1 : ∑ t ∈ Finset.range T, (1 / (T : ℝ)) • p t = fun i => (∑ t ∈ Finset.range T, p t i) / T := by
    funext i
    simp only [Finset.sum_apply, Pi.smul_apply, smul_eq_mul, ← Finset.mul_sum]
    ring
  rw [e1] at hj
  refine hj.trans ?_
  simp only [smul_eq_mul, ← Finset.mul_sum]
  rw [one_div, inv_mul_le_iff₀ hT']
  have e2 : (T : ℝ) * (f q + Real.log n / (lr * T) + lr * (b - a) ^ 2 / 8) = T * f q + (Real.log n / lr + lr * T * (b - a) ^ 2 / 8) := by
    field_simp
    ring
  rw [e2]
  linarith

theorem proj_step (x y : ℝ) (hy : 0 ≤ y) : (max 0 x - y) ^ 2 ≤ (x - y) ^ 2 := by
  rcases le_total 0 x with h | h
  · rw [max_eq_right h]
  · rw [max_eq_left h]; nlinarith

/-- **C115** (plain and non-negative parameters) SGD on a tensor without rule, or kept non-negative: whatever the gradients that come at
each step, the accumulated linear loss exceeds that of any fixed `q` (non-negative in the second case) by at most
`|p0 - q|^2 / (2 lr)` plus `lr / 2` times the accumulated squared norms of the gradients. -/
theorem C115_descent {lr : ℝ} (hl : 0 < lr) {n : ℕ} {rule : Option Rule} (hrule : rule = none ∨ rule = some .nonNeg) (p g : ℕ → Fin n → ℝ)
    (hs : ∀ t, StepsTo lr rule (p t) (g t) (p (t + 1))) (q : Fin n → ℝ) (hq : rule = some .nonNeg → ∀ i, 0 ≤ q i) (T : ℕ) :
    ∑ t ∈ Finset.range T, ∑ i, (p t i - q i) * g t i ≤
      (∑ i, (p 0 i - q i) ^ 2) / (2 * lr) + lr / 2 * ∑ t ∈ Finset.range T, ∑ i, g t i ^ 2 := by
  have hstep : ∀ t i, (p (t + 1) i - q i) ^ 2 ≤ (p t i - lr * g t i - q i) ^ 2 := by
    intro t i
    have h := hs t
    rw [stepsTo_iff (by rcases hrule with h | h <;> simp [h])] at h
    rcases hrule with rfl | rfl
    · simp only [ruleStep, zipWith_ofFn', reduceCtorEq, if_false] at h
      rw [← congrFun (List.ofFn_injective h) i]
    · simp only [ruleStep, zipWith_ofFn'] at h
      rw [← congrFun (List.ofFn_injective h) i]
      exact proj_step _ _ (hq rfl i)
  have hpot : 2 * lr * ∑ t ∈ Finset.range T, ∑ i, (p t i - q i) * g t i ≤
      ∑ i, (p 0 i - q i) ^ 2 - ∑ i, (p T i - q i) ^ 2 + lr ^ 2 * ∑ t ∈ Finset.range T, ∑ i, g t i ^ 2 := by
    induction T with
    | zero => simp
    | succ T ih =>
      have h1 : ∑ i, (p (T + 1) i - q i) ^ 2 ≤ ∑ i, (p T i - q i) ^ 2 - 2 * lr * ∑ i, (p T i - q i) * g T i + lr ^ 2 * ∑ i, g T i ^ 2 := by
        refine (Finset.sum_le_sum fun i _ => hstep T i).trans (le_of_eq ?_)
        rw [Finset.mul_sum, Finset.mul_sum, ← Finset.sum_sub_distrib, ← Finset.sum_add_distrib]
        exact Finset.sum_congr rfl fun i _ => by ring
      rw [Finset.sum_range_succ, Finset.sum_range_succ, mul_add, mul_add]
      linarith
  have hnn : 0 ≤ ∑ i, (p T i - q i) ^ 2 := Finset.sum_nonneg fun i _ => sq_nonneg _
  have : ∑ t ∈ Finset.range T, ∑ i, (p t i - q i) * g t i ≤
      (∑ i, (p 0 i - q i) ^ 2 + lr ^ 2 * ∑ t ∈ Finset.range T, ∑ i, g t i ^ 2) / (2 * lr) := by
    rw [le_div_iff₀ (by positivity)]; linarith
  refine this.trans (le_of_eq ?_)
  field_simp

/-- non-vacuity: two weights, the linear loss `x 1`; the iterates are `exp(-t x) / sum` -/
noncomputable def exSimplexRun (t : ℕ) (i : Fin 2) : ℝ := Real.exp (-(t * (i : ℝ))) / ∑ j : Fin 2, Real.exp (-(t * (j : ℝ)))

theorem exSimplexRun_pos (t : ℕ) (i : Fin 2) : 0 < exSimplexRun t i :=
  div_pos (Real.exp_pos _) (Finset.sum_pos (fun _ _ => Real.exp_pos _) ⟨0, Finset.mem_univ _⟩)

theorem exSimplexRun_steps (t : ℕ) : StepsTo 1 (some .mwuSimplex) (exSimplexRun t) (fun i : Fin 2 => (i : ℝ)) (exSimplexRun (t + 1)) := by
  rw [stepsTo_iff fun _ => exSimplexRun_pos t]
  simp only [ruleStep, zipWith_ofFn', List.map_ofFn, List.sum_ofFn, Function.comp_def]
  congr 1
  funext i
  have hS : 0 < ∑ j : Fin 2, Real.exp (-(t * (j : ℝ))) := Finset.sum_pos (fun _ _ => Real.exp_pos _) ⟨0, Finset.mem_univ _⟩
  have e : ∀ i : Fin 2, exSimplexRun t i * Real.exp (-1 * (i : ℝ)) =
      Real.exp (-(((t + 1 : ℕ) : ℝ) * (i : ℝ))) / ∑ j : Fin 2, Real.exp (-(t * (j : ℝ))) := by
    intro i
    rw [exSimplexRun, div_mul_eq_mul_div, ← Real.exp_add]
    congr 2
    push_cast; ring
  simp only [e, ← Finset.sum_div]
  rw [exSimplexRun, div_div_div_cancel_right₀ hS.ne']

theorem exSimplexRun_zero (i : Fin 2) : exSimplexRun 0 i = 1 / 2 := by
  simp [exSimplexRun]

example (q : Fin 2 → ℝ) (hq : IsWeights q) := C115_simplex (lr := 1) one_pos exSimplexRun (fun _ i => (i : ℝ)) (exSimplexRun_pos 0)
  (by simp [exSimplexRun_zero]) (a := 0) (b := 1) (by intro _ i; fin_cases i <;> simp) exSimplexRun_steps q hq 10

example (q : Fin 2 → ℝ) (hq : IsWeights q) := C115_simplex_convex (lr := 1) one_pos (fun x => ∑ i : Fin 2, x i * (i : ℝ)) (fun _ i => (i : ℝ))
  ⟨fun x hx y hy a b ha hb hab => ⟨fun i => add_nonneg (mul_nonneg ha (hx.1 i)) (mul_nonneg hb (hy.1 i)), by
      have := hx.2; have := hy.2
      simp only [Pi.add_apply, Pi.smul_apply, smul_eq_mul, Finset.sum_add_distrib, ← Finset.mul_sum] at *
      simp_all⟩,
    fun x _ y _ a b _ _ _ => le_of_eq (by
      simp only [Pi.add_apply, Pi.smul_apply, smul_eq_mul, add_mul, Finset.sum_add_distrib, mul_assoc, ← Finset.mul_sum])⟩
  (fun x y _ _ => le_of_eq (by simp only [sub_mul, Finset.sum_sub_distrib]; ring)) (a := 0) (b := 1)
  (by intro _ _ i; fin_cases i <;> simp) exSimplexRun two_pos exSimplexRun_zero exSimplexRun_steps q hq (T := 10) (by norm_num)

/-- non-vacuity: descent on a half-line with the gradient one; the iterates stop at zero -/
example (q : Fin 1 → ℝ) (hq : ∀ i, 0 ≤ q i) := C115_descent (lr := 1) one_pos (rule := some .nonNeg) (Or.inr rfl)
  (fun t (_ : Fin 1) => max 0 (3 - (t : ℝ))) (fun _ _ => 1) (fun t => by
    rw [stepsTo_iff (by simp)]
    simp only [ruleStep, zipWith_ofFn']
    congr 1
    funext i
    push_cast
    rcases le_total (3 - (t : ℝ)) 0 with h | h
    · rw [max_eq_left h, max_eq_left (by linarith), max_eq_left (by linarith)]
    · rw [max_eq_right h]; congr 1; ring) q (fun _ => hq) 10

end C115
end Skwdro
