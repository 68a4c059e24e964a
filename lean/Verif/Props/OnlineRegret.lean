import Verif.Props.Convergence

/-! # C123: post-sampled gradient descent has a small regret -/

namespace Skwdro
open Spec Tensor

/-- a plane below a function, touching it where it has a gradient, has the slope of this gradient -/
theorem plane_eq_grad {N : ℕ} {f : (Fin N → ℝ) → ℝ → ℝ} {v : Fin N → ℝ} {l : ℝ} {a g : Fin N → ℝ} {al gl : ℝ}
    (h : ∀ v' l', f v l + (∑ k, a k * (v' k - v k) + al * (l' - l)) ≤ f v' l') (hg : IsGradAt f v l g gl) (w : Fin N → ℝ) (hl : ℝ) :
    ∑ k, a k * w k + al * hl = ∑ k, g k * w k + gl * hl := by
  have h1 := hg w hl
  have h2 : HasDerivAt (fun t : ℝ => f (fun k => v k + t * w k) (l + t * hl) - t * (∑ k, a k * w k + al * hl))
      (∑ k, g k * w k + gl * hl - 1 * (∑ k, a k * w k + al * hl)) 0 := h1.sub ((hasDerivAt_id 0).mul_const _)
  have hmin : IsLocalMin (fun t : ℝ => f (fun k => v k + t * w k) (l + t * hl) - t * (∑ k, a k * w k + al * hl)) 0 := by
    refine Filter.Eventually.of_forall fun t => ?_
    have h3 := h (fun k => v k + t * w k) (l + t * hl)
    have e1 : ∑ k, a k * (v k + t * w k - v k) + al * (l + t * hl - l) = t * (∑ k, a k * w k + al * hl) := by
      rw [mul_add, Finset.mul_sum]
      congr 1
      · exact Finset.sum_congr rfl fun k _ => by ring
      · ring
    rw [e1] at h3
    simp only [zero_mul, add_zero, sub_zero]
    linarith
  have := hmin.hasDerivAt_eq_zero h2
  linarith

/-- the gradient of a convex function is a subgradient -/
theorem grad_subgrad {N : ℕ} {f : (Fin N → ℝ) → ℝ → ℝ} (hf : PlanesBelow f) {v : Fin N → ℝ} {l : ℝ} {g : Fin N → ℝ} {gl : ℝ} (hg : IsGradAt f v l g gl) :
    IsSubgradAt f v l g gl := by
  intro q lq
  obtain ⟨a, al, h⟩ := hf v l
  have h1 := h q lq
  rwa [plane_eq_grad h hg] at h1

/-- one step of subgradient descent -/
theorem online_step {N : ℕ} {f : (Fin N → ℝ) → ℝ → ℝ} {lr : ℝ} {clip : Bool} (hl : 0 < lr) {v : Fin N → ℝ} {l : ℝ} {g : Fin N → ℝ} {gl : ℝ}
    (hg : IsSubgradAt f v l g gl) (q : Fin N → ℝ) {lq : ℝ} (hq : clip = true → 0 ≤ lq) :
    2 * lr * (f v l - f q lq) ≤ gap2 v l q lq - gap2 (fun k => v k - lr * g k) (clipped clip (l - lr * gl)) q lq + lr ^ 2 * (∑ k, g k ^ 2 + gl ^ 2) := by
  have h1 := hg q lq
  have e3 : gap2 (fun k => v k - lr * g k) (l - lr * gl) q lq =
      gap2 v l q lq + 2 * lr * (∑ k, g k * (q k - v k) + gl * (lq - l)) + lr ^ 2 * (∑ k, g k ^ 2 + gl ^ 2) := by
    simp only [gap2, mul_add, Finset.mul_sum]
    have : ∀ k, (v k - lr * g k - q k) ^ 2 = (v k - q k) ^ 2 + 2 * lr * (g k * (q k - v k)) + lr ^ 2 * g k ^ 2 := fun k => by ring
    simp only [this, Finset.sum_add_distrib]
    ring
  have h4 : gap2 (fun k => v k - lr * g k) (clipped clip (l - lr * gl)) q lq ≤ gap2 (fun k => v k - lr * g k) (l - lr * gl) q lq := by
    have h2 := clipped_project (clip := clip) (l - lr * gl) hq
    simp only [gap2]
    nlinarith [sq_nonneg (l - lr * gl - clipped clip (l - lr * gl))]
  rw [e3] at h4
  nlinarith

/-- the sum of the losses met by gradient descent -/
theorem online_sum {G : Type} {N : ℕ} {clip : Bool} {lr : ℝ} {S : G → (Fin N → ℝ) → ℝ → (Fin N → ℝ) → ℝ → Prop}
    {F : G → (Fin N → ℝ) → ℝ → ℝ} {next : G → G} {K : ℕ} {v : ℕ → Fin N → ℝ} {l : ℕ → ℝ} {gens : ℕ → G} {L : G → ℝ}
    (h : OnlineDescent clip lr S next K v l gens) (hF : ∀ gen v l g gl, S gen v l g gl → IsSubgradAt (F gen) v l g gl) (hL : ∀ g, SlopeAtMost (S g) (L g)) (hl : 0 < lr) (q : Fin N → ℝ) {lq : ℝ} (hq : clip = true → 0 ≤ lq) :
    2 * lr * (∑ k ∈ Finset.range K, F (gens k) (v k) (l k) - ∑ k ∈ Finset.range K, F (gens k) q lq) ≤
      gap2 (v 0) (l 0) q lq - gap2 (v K) (l K) q lq + lr ^ 2 * ∑ k ∈ Finset.range K, L (gens k) ^ 2 := by
  induction K with
  | zero => simp
  | succ K ih =>
    have h1 := ih ⟨fun k hk => h.draws k (by omega), fun k hk => h.moves k (by omega)⟩
    obtain ⟨g, gl, h2, h3, h4⟩ := h.moves K (by omega)
    have h5 := online_step hl (hF _ _ _ _ _ h2) q hq
    rw [← h3, ← h4] at h5
    have h6 := mul_le_mul_of_nonneg_left (hL (gens K) _ _ _ _ h2) (sq_nonneg lr)
    simp only [Finset.sum_range_succ]
    nlinarith

section
variable {G : Type} {d N : ℕ} {ext : TorchExt G} {cfg : OCConfig} {fl : ℝ → ℝ} {args : Module d → DualizeArgs}
  {M0 : Module d} {D : DualLoss} {clip : Bool} {lr : ℝ} {back : Tape G → List ℝ × ℝ} {next : G → G} {F : G → (Fin N → ℝ) → ℝ → ℝ}
  {S : G → (Fin N → ℝ) → ℝ → (Fin N → ℝ) → ℝ → Prop}

theorem online_update (hf : PostLossIs ext args D M0 next F) (hb : PostBackIs ext args D M0 back S) {x : XNum ℝ} {s t : OptView Unit × G}
    (h : PostUpdate ext (descentTorch clip lr back) args D M0 x s t) {v : Fin N → ℝ} (hv : s.1.params = List.ofFn v) :
    ∃ g gl, S s.2 v s.1.lam g gl ∧ t.1.params = List.ofFn (fun k => v k - lr * g k) ∧ t.1.lam = clipped clip (s.1.lam - lr * gl) ∧
      x = .fin (F s.2 v s.1.lam) ∧ t.2 = next s.2 := by
  obtain ⟨q, D', h1, h2, h3⟩ := h
  obtain ⟨g, gl, hg1, hg2⟩ := hb s.2 v s.1.lam
  have e : lossFor args D M0 false s.1 = lossFor args D M0 false (⟨List.ofFn v, s.1.lam, none, none, ()⟩ : OptView Unit) := by
    simp only [lossFor, hv]
  rw [e] at h1 h3
  obtain ⟨T, D'', hT1, hT2, hT3⟩ := hf s.2 v s.1.lam
  rw [hT1] at h1
  simp only [Except.ok.injEq, Prod.mk.injEq] at h1
  obtain ⟨rfl, -, h1⟩ := h1
  refine ⟨g, gl, hg2, ?_, ?_, ?_, h1.symm⟩
  · simp only [descentTorch, withGrad, Except.ok.injEq, hg1] at h3
    rw [← h3]
    simp only [descentStep, Option.getD_some, hv, mapIdx_ofFn_sub]
  · simp only [descentTorch, withGrad, Except.ok.injEq, hg1] at h3
    rw [← h3]
    simp only [descentStep, Option.getD_some]
  · have hl : T.toList = [T.get []] := by
      cases T with
      | mk shape get => cases hT2; rfl
    simp only [DualVal.item, hl, Except.ok.injEq] at h2
    rw [← h2, hT3]

theorem online_trained (hf : PostLossIs ext args D M0 next F) (hb : PostBackIs ext args D M0 back S) {n k : ℕ} {s u : (OptView Unit × G) × OCState} {x : XNum ℝ}
    (h : Trained (PostIter ext (descentTorch clip lr back) cfg n args D M0) n k s u x) : ∀ v0 : Fin N → ℝ, s.1.1.params = List.ofFn v0 →
    ∃ K v l gens, 1 ≤ K ∧ k + K ≤ n ∧ v 0 = v0 ∧ l 0 = s.1.1.lam ∧ gens 0 = s.1.2 ∧ OnlineDescent clip lr S next K v l gens ∧
      u.1.1.params = List.ofFn (v K) ∧ u.1.1.lam = l K ∧ x = .fin (F (gens (K - 1)) (v (K - 1)) (l (K - 1))) ∧
      (k + K < n → ∃ m m', ocCall cfg m ⟨0, fun _ => u.1.1.lam, u.1.1.lgrad, [(u.1.1.params, u.1.1.pgrad)], n⟩ ((k + K - 1 : ℕ) : ℤ) = (.ok true, m')) := by
  induction h with
  | last k s t x b hk hb' hI =>
    intro v0 hv
    obtain ⟨g, gl, h1, h2, h3, h4, h5⟩ := online_update hf hb hI.1 hv
    refine ⟨1, fun k => if k = 0 then v0 else fun j => v0 j - lr * g j, fun k => if k = 0 then s.1.1.lam else clipped clip (s.1.1.lam - lr * gl),
      fun k => if k = 0 then s.1.2 else next s.1.2, le_refl _, by omega, rfl, rfl, rfl, ⟨?_, ?_⟩, h2, h3, h4, fun hlt => ?_⟩
    · intro k hk
      obtain rfl : k = 0 := by omega
      rfl
    · intro k hk
      obtain rfl : k = 0 := by omega
      exact ⟨g, gl, h1, rfl, rfl⟩
    · rcases hb' with rfl | hb'
      · have h6 := hI.2
        unfold Verdict at h6
        rw [if_neg (by rw [h4]; simp)] at h6
        simp only [Nat.add_sub_cancel]
        exact ⟨_, _, h6⟩
      · omega
  | next k s t u x y hk hI _ ih =>
    intro v0 hv
    obtain ⟨g, gl, h1, h2, h3, h4, h5⟩ := online_update hf hb hI.1 hv
    obtain ⟨K, v, l, gens, i1, i2, i3, i4, i5, i6, i7, i8, i9, i10⟩ := ih _ h2
    refine ⟨K + 1, fun k => if k = 0 then v0 else v (k - 1), fun k => if k = 0 then s.1.1.lam else l (k - 1),
      fun k => if k = 0 then s.1.2 else gens (k - 1), by omega, by omega, rfl, rfl, rfl, ⟨?_, ?_⟩, by simpa using i7, by simpa using i8, ?_, fun hlt => ?_⟩
    · intro k hk
      cases k with
      | zero => simpa [i5] using h5
      | succ k => simpa using i6.draws k (by omega)
    · intro k hk
      cases k with
      | zero => exact ⟨g, gl, h1, by simpa using i3, by simpa [h3] using i4⟩
      | succ k => simpa using i6.moves k (by omega)
    · simpa [show K ≠ 0 by omega] using i9
    · rw [show k + (K + 1) - 1 = k + 1 + K - 1 by omega]
      exact i10 (by omega)

/-- **C125** Post-sampled training with gradient descent, on a robust loss `F gen` (of parameters and multiplier, on the samples drawn by the generator in state
`gen`) which need not have gradients, with any learning rate, when the backward pass gives subgradients of length at most `L gen`.  Whatever the schedule and the
optimality condition, a training that returns has met, on average, losses hardly above those of any fixed parameters and multiplier on the same draws.  The robust
phase starts at the parameters and the state of the generator reached by the pre-training steps and at the initial guess of the multiplier there. -/
theorem C125_regret {g g' : G} (hD : dualize ext (args M0) g = .ok (D, g')) (hpost : (args M0).post_sample = true) (hrho : (args M0).rho.isPos = true)
    {steps : ℤ ⊕ (ℤ × ℤ)} {p q0 : ℤ} (hst : interpretSteps fl split03 (toSteps steps) = .ok (p, q0)) {n : ℕ} (hn : (toSteps steps).iterations = n) (hn0 : 0 < n)
    (oc : OCState) (hN : M0.theta.length = N) (hf : PostLossIs ext args D M0 next F) (hb : PostBackIs ext args D M0 back S) {L : G → ℝ}
    (hF : ∀ gen v l g gl, S gen v l g gl → IsSubgradAt (F gen) v l g gl) (hL : ∀ gen, SlopeAtMost (S gen) (L gen)) (hl : 0 < lr)
    {M : Module d} {r : Solved (List ℝ)} (h : solveTorch ext (descentTorch clip lr back) cfg fl args M0 steps oc g = .ok (M, r)) :
    ∃ v0 v1 g1 v2, Iterated (fun a b => ∃ x, PostUpdate ext (descentTorch clip lr back) args D M0 x a b) p.toNat (⟨M0.theta, D.lam, none, none, ()⟩, g') (v1, g1) ∧
      DualGuessed args D M0 v1 v2 ∧ v2.params = List.ofFn v0 ∧ SmallRegret cfg clip lr S F L next n v0 v2.lam g1 M0 M r := by
  obtain ⟨v1, g1, v2, v3, g3, oc', h1, h2, h3, h4, h5, h6, -⟩ := C101_postsampled (descent_inPlace clip lr back) hD hpost hst hn hn0 oc h
  have hlen : ∀ (j : ℕ) (a b : OptView Unit × G), Iterated (fun a b => ∃ x, PostUpdate ext (descentTorch clip lr back) args D M0 x a b) j a b →
      b.1.params.length = a.1.params.length := by
    intro j a b hj
    induction hj with
    | zero => rfl
    | succ _ _ _ _ h1 _ ih =>
      obtain ⟨x, q, D', -, -, h⟩ := h1
      refine ih.trans ?_
      simp only [descentTorch, Except.ok.injEq] at h
      rw [← h]
      simp [descentStep, withGrad]
  have h9 : v2.params.length = N := by
    obtain ⟨D', -, rfl⟩ := h2
    rw [← hN]
    exact hlen _ _ _ h1
  obtain ⟨v0, hv0⟩ : ∃ v0 : Fin N → ℝ, v2.params = List.ofFn v0 := by
    subst h9
    exact ⟨v2.params.get, (List.ofFn_get _).symm⟩
  obtain ⟨K, v, l, gens, i1, i2, i3, i4, i5, i6, i7, i8, i9, i10⟩ := online_trained hf hb h3 v0 hv0
  rw [hrho, if_pos rfl] at h5
  simp only at i4 i5 i7 i8 i10
  refine ⟨v0, v1, g1, v2, h1, h2, hv0, K, v, l, gens, i1, by omega, i3, i4, i5, i6, h4.trans i7, h5.trans i8, by rw [h4]; exact h6, i9, fun hk => ?_, fun hc => ?_, fun q lq hq => ?_⟩
  · obtain ⟨m, m', h⟩ := i10 (by omega)
    rw [← h4, ← h5, zero_add] at h
    exact ⟨m, m', _, _, h⟩
  · obtain ⟨K, rfl⟩ : ∃ K', K = K' + 1 := ⟨K - 1, by omega⟩
    obtain ⟨_, gl, -, -, h⟩ := i6.moves K (by omega)
    rw [h5, i8, h]
    exact clipped_nonneg hc _
  · have hk : (0 : ℝ) < K := by exact_mod_cast i1
    have h10 := online_sum i6 hF hL hl q hq
    have h11 : 0 ≤ gap2 (v K) (l K) q lq := add_nonneg (Finset.sum_nonneg fun _ _ => sq_nonneg _) (sq_nonneg _)
    rw [i3, i4] at h10
    set A := ∑ k ∈ Finset.range K, F (gens k) (v k) (l k)
    set B := ∑ k ∈ Finset.range K, F (gens k) q lq
    set C := ∑ k ∈ Finset.range K, L (gens k) ^ 2
    rw [← sub_nonneg]
    have e : B / K + gap2 v0 v2.lam q lq / (2 * lr * K) + lr / 2 * (C / K) - A / K =
        (gap2 v0 v2.lam q lq + lr ^ 2 * C - 2 * lr * (A - B)) / (2 * lr * K) := by
      field_simp; ring
    rw [e]
    exact div_nonneg (by linarith) (by positivity)

/-- **C123** Post-sampled training with gradient descent, on a robust loss `F gen` (of parameters and multiplier, on the samples drawn by the generator in state
`gen`) which is convex and of slope at most `L gen`, with any learning rate and exact gradients.  Whatever the schedule and the optimality condition, a training that
returns has met, on average, losses hardly above those of any fixed parameters and multiplier on the same draws.  The robust phase starts at the parameters and the
state of the generator reached by the pre-training steps and at the initial guess of the multiplier there. -/
theorem C123_regret {g g' : G} (hD : dualize ext (args M0) g = .ok (D, g')) (hpost : (args M0).post_sample = true) (hrho : (args M0).rho.isPos = true)
    {steps : ℤ ⊕ (ℤ × ℤ)} {p q0 : ℤ} (hst : interpretSteps fl split03 (toSteps steps) = .ok (p, q0)) {n : ℕ} (hn : (toSteps steps).iterations = n) (hn0 : 0 < n)
    (oc : OCState) (hN : M0.theta.length = N) (hf : PostLossIs ext args D M0 next F) (hb : PostBackIs ext args D M0 back fun gen => IsGradAt (F gen)) {L : G → ℝ}
    (hF : ∀ gen, PlanesBelow (F gen)) (hL : ∀ gen, SlopeAtMost (IsGradAt (F gen)) (L gen)) (hl : 0 < lr)
    {M : Module d} {r : Solved (List ℝ)} (h : solveTorch ext (descentTorch clip lr back) cfg fl args M0 steps oc g = .ok (M, r)) :
    ∃ v0 v1 g1 v2, Iterated (fun a b => ∃ x, PostUpdate ext (descentTorch clip lr back) args D M0 x a b) p.toNat (⟨M0.theta, D.lam, none, none, ()⟩, g') (v1, g1) ∧
      DualGuessed args D M0 v1 v2 ∧ v2.params = List.ofFn v0 ∧ SmallRegret cfg clip lr (fun gen => IsGradAt (F gen)) F L next n v0 v2.lam g1 M0 M r :=
  C125_regret hD hpost hrho hst hn hn0 oc hN hf hb (fun gen _ _ _ _ hg => grad_subgrad (hF gen) hg) hL hl h

end

/-! ## Logistic regression -/

theorem smooth_planes {N : ℕ} {f : (Fin N → ℝ) → ℝ → ℝ} {beta : ℝ} (h : SmoothConvex f beta) : PlanesBelow f := fun v l => by
  obtain ⟨g, gl, h⟩ := h v l
  exact ⟨g, gl, fun v' l' => (h v' l').1⟩

/-- a function that changes at bounded rates has bounded gradients -/
theorem slope_of_lipschitz {N : ℕ} {f : (Fin N → ℝ) → ℝ → ℝ} {B R : ℝ} (hB : 0 ≤ B) (hR : 0 ≤ R)
    (h : ∀ v l v' l', f v' l' - f v l ≤ B * Real.sqrt (∑ k, (v' k - v k) ^ 2) + R * |l' - l|) : SlopeAtMost (IsGradAt f) (Real.sqrt (B ^ 2 + R ^ 2)) := by
  intro v l g gl hg
  have key : ∀ (w : Fin N → ℝ) (hl : ℝ), ∑ k, g k * w k + gl * hl ≤ B * Real.sqrt (∑ k, w k ^ 2) + R * |hl| := by
    intro w hl
    have h1 : Filter.Tendsto (slope (fun t : ℝ => f (fun k => v k + t * w k) (l + t * hl)) 0) (nhdsWithin 0 (Set.Ioi 0)) (nhds (∑ k, g k * w k + gl * hl)) :=
      (hasDerivAt_iff_tendsto_slope.1 (hg w hl)).mono_left (nhdsWithin_mono _ fun x hx => ne_of_gt hx)
    refine le_of_tendsto h1 (Filter.eventually_of_mem self_mem_nhdsWithin fun t ht => ?_)
    have ht : 0 < t := ht
    have h2 := h v l (fun k => v k + t * w k) (l + t * hl)
    have e1 : ∑ k, (v k + t * w k - v k) ^ 2 = t ^ 2 * ∑ k, w k ^ 2 := by
      rw [Finset.mul_sum]; exact Finset.sum_congr rfl fun k _ => by ring
    rw [e1, Real.sqrt_mul (sq_nonneg t), Real.sqrt_sq ht.le, add_sub_cancel_left, abs_mul, abs_of_pos ht] at h2
    simp only [slope, sub_zero, vsub_eq_sub, smul_eq_mul, zero_mul, add_zero]
    rw [inv_mul_le_iff₀ ht]
    linarith
  have h0 : 0 ≤ ∑ k, g k ^ 2 := Finset.sum_nonneg fun _ _ => sq_nonneg _
  rw [Real.sq_sqrt (by positivity)]
  have h1 := key g 0
  have h2 := key (fun _ => 0) gl
  have e : ∑ k, g k * g k = ∑ k, g k ^ 2 := Finset.sum_congr rfl fun k _ => by ring
  simp only [mul_zero, add_zero, abs_zero, e] at h1
  simp only [mul_zero, Finset.sum_const_zero, zero_add, ne_eq, OfNat.ofNat_ne_zero, not_false_eq_true, zero_pow, Real.sqrt_zero] at h2
  set s := Real.sqrt (∑ k, g k ^ 2) with hs
  have hs2 : s ^ 2 = ∑ k, g k ^ 2 := Real.sq_sqrt h0
  have hs0 : 0 ≤ s := Real.sqrt_nonneg _
  have h3 : s ≤ B := by
    by_contra hc
    push Not at hc
    rw [← hs2] at h1
    nlinarith
  have h4 : |gl| ≤ R := by
    by_contra hc
    push Not at hc
    have : gl * gl = |gl| * |gl| := (abs_mul_abs_self gl).symm
    nlinarith [abs_nonneg gl]
  have h5 : gl ^ 2 ≤ R ^ 2 := by rw [← sq_abs]; exact pow_le_pow_left₀ (abs_nonneg _) h4 2
  have h6 : s ^ 2 ≤ B ^ 2 := pow_le_pow_left₀ hs0 h3 2
  linarith

theorem smoothLoss_lipschitz {N : ℕ} {A : (Fin N → ℝ) → ℝ} {beta ell : ℝ} (h : SmoothLoss A beta ell) (hl : 0 ≤ ell) (v v' : Fin N → ℝ) :
    A v' - A v ≤ ell * Real.sqrt (∑ k, (v' k - v k) ^ 2) := by
  obtain ⟨a, h1, h2⟩ := h v'
  have h3 := (h2 v).1
  have h4 : (∑ k, a k * (v' k - v k)) ≤ ell * Real.sqrt (∑ k, (v' k - v k) ^ 2) := by
    refine (le_abs_self _).trans ?_
    have h5 : (∑ k, a k * (v' k - v k)) ^ 2 ≤ (∑ k, a k ^ 2) * ∑ k, (v' k - v k) ^ 2 := Finset.sum_mul_sq_le_sq_mul_sq _ _ _
    have h0 : 0 ≤ ∑ k, (v' k - v k) ^ 2 := Finset.sum_nonneg fun _ _ => sq_nonneg _
    have h6 := Real.abs_le_sqrt (h5.trans (mul_le_mul_of_nonneg_right h1 h0))
    rwa [Real.sqrt_mul (sq_nonneg ell), Real.sqrt_sq hl] at h6
  have e : ∑ k, a k * (v k - v' k) = -∑ k, a k * (v' k - v k) := by
    rw [← Finset.sum_neg_distrib]; exact Finset.sum_congr rfl fun k _ => by ring
  rw [e] at h3
  linarith

/-- **C123** (constants) Without ridge penalty, the robust logistic loss on given samples has a slope at most `B` in the parameters and at most `rho ^ p + K` in the
multiplier. -/
theorem C123_slope {m n d N : ℕ} (hn : 0 < n) (hm : 0 < m) {l0 : LinMap d 1} (hN : l0.params.length = N) (c : CostR) {rho eps r2 : ℝ} (hr : 0 < rho) (he : 0 < eps)
    (hr2 : r2 ≤ 0) {X : Fin m → Fin d → ℝ} {y : Fin m → ℝ} {Z : Fin n → Fin m → Fin d → ℝ} {W : Fin n → Fin m → ℝ} {B K : ℝ} (hB0 : 0 ≤ B)
    (hB : ∀ j i, W j i ^ 2 * (∑ k, Z j i k ^ 2 + 1) ≤ B ^ 2)
    (hK : ∀ j i, |costAt c (X i) (Z j i) (fun (_ : Fin 1) => y i) (fun _ => W j i)| ≤ K) :
    SlopeAtMost (IsGradAt (logisticObjective (N := N) l0 c rho eps r2 X y Z W)) (Real.sqrt (B ^ 2 + (rho ^ c.power + K) ^ 2)) := by
  have hm' : (0 : ℝ) < m := by exact_mod_cast hm
  have hK0 : 0 ≤ K := (abs_nonneg _).trans (hK ⟨0, hn⟩ ⟨0, hm⟩)
  have hp := Real.rpow_pos_of_pos hr c.power
  refine slope_of_lipschitz hB0 (by positivity) fun v l v' l' => ?_
  set S := Real.sqrt (∑ k, (v' k - v k) ^ 2) with hS
  set A : Fin n → Fin m → (Fin N → ℝ) → ℝ := fun j i v => logloss (W j i) ((l0.withParams (List.ofFn v)).out (Z j i) 0) with hA
  set C : Fin n → Fin m → ℝ := fun j i => costAt c (X i) (Z j i) (fun (_ : Fin 1) => y i) (fun _ => W j i) with hC
  have hridge : ∀ v : Fin N → ℝ, ridge (some r2) (List.ofFn v) = 0 := fun v => by simp [ridge, hr2]
  have e : ∀ v l, logisticObjective (N := N) l0 c rho eps r2 X y Z W v l = l * rho ^ c.power + avg (fun i => softmax eps (fun j => A j i v - l * C j i)) := by
    intro v l
    simp only [logisticObjective, hridge, add_zero, avg, softmax, hA, hC]
  have h1 : ∀ i, softmax eps (fun j => A j i v' - l' * C j i) ≤ softmax eps (fun j => A j i v - l * C j i) + (B * S + K * |l' - l|) := by
    intro i
    rw [← softmax_add_const hn he]
    refine softmax_mono hn he fun j => ?_
    have h2 := smoothLoss_lipschitz (logloss_smoothLoss l0 hN (Z j i) (hB j i)) hB0 v v'
    have h3 : -((l' - l) * C j i) ≤ K * |l' - l| := by
      refine (neg_le_abs _).trans ?_
      rw [abs_mul, mul_comm]
      exact mul_le_mul_of_nonneg_right (hK j i) (abs_nonneg _)
    simp only [hA] at *
    nlinarith
  have h4 := Finset.sum_le_sum fun i (_ : i ∈ Finset.univ) => h1 i
  simp only [Finset.sum_add_distrib, Finset.sum_const, Finset.card_univ, Fintype.card_fin, nsmul_eq_mul] at h4
  have h5 := div_le_div_of_nonneg_right h4 hm'.le
  simp only [← mul_add, add_div] at h5
  rw [mul_div_cancel_left₀ _ hm'.ne'] at h5
  rw [e, e]
  simp only [avg]
  have h6 : (l' - l) * rho ^ c.power ≤ |l' - l| * rho ^ c.power := mul_le_mul_of_nonneg_right (le_abs_self _) hp.le
  nlinarith

/-- the post-sampled loss with a positive radius is the robust loss on the samples drawn after the reset -/
theorem postForward_draws {G : Type} {ext : TorchExt G} {D : DualLoss} {xi Zt : Tensor ℝ} {xl Wt : Option (Tensor ℝ)} {s : Sampler} {rho : ℝ} {n : ℕ} {g g' : G}
    {v : DualVal} (hst : Steady ext D xi xl) (hs : D.sampler = some s) (hr : D.rho = .num rho) (hpos : 0 < rho) (hn : D.nSamples = n) (hd : s.sample ext n (seedGlobal ext s.seed g) = (Zt, Wt, g'))
    (hv : computeDual ext D xi xl Zt Wt = .ok v) : postForward ext D xi xl true g = .ok (v, D, g') := by
  rw [postForward_steady hst, show D.seeded ext g = seedGlobal ext s.seed g by simp only [DualLoss.seeded, hs, Option.bind_some]]
  have e : { D with sampler := some s } = D := by rw [← hs]
  unfold postForward
  rw [hs]
  simp only [Bool.false_eq_true, if_false, ok_bind, e]
  rw [hr]
  simp only [if_neg (not_lt.2 hpos.le), if_neg hpos.ne', hn, hd, hv, ok_bind]

section
variable {G : Type} {ext : TorchExt G} {cfg : OCConfig} {fl : ℝ → ℝ} {clip : Bool}

/-- **C123** (logistic regression) Post-sampled two-class logistic regression without ridge penalty and with a cost for which importance sampling is off, trained by
gradient descent with exact gradients and any learning rate from any initial layer, on any data.  If all samples `z` with label `w` drawn in the state `gen` of the
generator have `w ^ 2 (|z| ^ 2 + 1) ≤ (B gen) ^ 2` and a ground cost at most `K gen`, then the losses met are on average hardly above those of any fixed parameters. -/
theorem C123_logistic {m d n : ℕ} {grads : Autograd d} {P : EstParams} (hsig : ∀ s, P.sampler_reg = some s → 0 < s)
    (heps : ∀ e, P.solver_reg = some e → 0 < e) {rho : ℝ} (hrho : P.rho = .num rho) (hpos : 0 < rho) (hz : P.n_zeta_samples = n) (hn : 0 < n) (hm : 0 < m)
    (hl2 : P.l2_reg ≤ 0) (X : Fin m → Fin d → ℝ) (y : Fin m → ℝ) (l0 : LinMap d 1) {g g' : G} {D : DualLoss}
    (hD : dualize ext (torchArgs grads .logistic P true false (matT X) (some (matT fun i (_ : Fin 1) => y i)) (.softMargin l0)) g = .ok (D, g'))
    (himp : D.impSamp = false) {s : Sampler} (hs : D.sampler = some s) {next : G → G} {Z : G → Fin n → Fin m → Fin d → ℝ} {W : G → Fin n → Fin m → ℝ}
    (hZ : DrawsAre ext s next Z W) {B K : G → ℝ} (hB0 : ∀ gen, 0 ≤ B gen) (hB : ∀ gen j i, W gen j i ^ 2 * (∑ k, Z gen j i k ^ 2 + 1) ≤ B gen ^ 2)
    (hK : ∀ gen j i, |costAt D.cost (X i) (Z gen j i) (fun (_ : Fin 1) => y i) (fun _ => W gen j i)| ≤ K gen) {lr : ℝ} (hl : 0 < lr)
    {N : ℕ} (hN : l0.params.length = N) {back : Tape G → List ℝ × ℝ}
    (hback : PostBackIs ext (torchArgs grads .logistic P true false (matT X) (some (matT fun i (_ : Fin 1) => y i))) D (.softMargin l0) back
      fun gen => IsGradAt (logisticObjective (N := N) l0 D.cost rho D.epsilon P.l2_reg X y (Z gen) (W gen)))
    {steps : ℤ ⊕ (ℤ × ℤ)} {p q0 : ℤ} (hst : interpretSteps fl split03 (toSteps steps) = .ok (p, q0))
    {T : ℕ} (hT : (toSteps steps).iterations = T) (hT0 : 0 < T) (oc : OCState) {M : Module d} {r : Solved (List ℝ)}
    (h : solveTorch ext (descentTorch clip lr back) cfg fl (torchArgs grads .logistic P true false (matT X) (some (matT fun i (_ : Fin 1) => y i)))
      (.softMargin l0) steps oc g = .ok (M, r)) :
    ∃ v0 v1 g1 v2, Iterated (fun a b => ∃ x, PostUpdate ext (descentTorch clip lr back) (torchArgs grads .logistic P true false (matT X)
        (some (matT fun i (_ : Fin 1) => y i))) D (.softMargin l0) x a b) p.toNat (⟨l0.params, D.lam, none, none, ()⟩, g') (v1, g1) ∧
      DualGuessed (torchArgs grads .logistic P true false (matT X) (some (matT fun i (_ : Fin 1) => y i))) D (.softMargin l0) v1 v2 ∧
      v2.params = List.ofFn v0 ∧
      SmallRegret cfg clip lr (fun gen => IsGradAt (logisticObjective (N := N) l0 D.cost rho D.epsilon P.l2_reg X y (Z gen) (W gen)))
        (fun gen => logisticObjective (N := N) l0 D.cost rho D.epsilon P.l2_reg X y (Z gen) (W gen))
        (fun gen => Real.sqrt (B gen ^ 2 + (rho ^ D.cost.power + K gen) ^ 2)) next T v0 v2.lam g1 (.softMargin l0) M r := by
  have hL := (dualize_labelled_off hD rfl rfl himp hsig hrho hpos heps rfl one_pos (softMargin_rows l0) 0).1
  have heps0 : 0 < D.epsilon := hL.eps_pos
  have hDr : D.rho = .num rho := hL.rho_eq
  have hDn : D.nSamples = n := by
    obtain ⟨parsed, obj, c, s', -, -, -, -, rfl⟩ := dualize_ok hD
    show P.n_zeta_samples.toNat = n
    rw [hz]; simp
  refine C123_regret hD rfl (by show P.rho.isPos = true; rw [hrho]; simpa [Radius.isPos] using hpos) hst hT hT0 oc hN ?_ hback
    (fun gen => smooth_planes (C120_curvature hn hm hN D.cost heps0 (hB gen) (hK gen)))
    (fun gen => C123_slope hn hm hN D.cost hpos heps0 hl2 (hB0 gen) (hB gen) (hK gen)) hl h
  intro gen v lam
  obtain ⟨Zt, Wt, h1, h2, h3⟩ := hZ gen
  obtain ⟨t, h4, h5⟩ := logistic_lossIs hsig heps hrho hpos hn hm X y l0 hD himp h2 h3 hN v lam
  have hst := dualize_steady hD
  exact ⟨t, _, postForward_draws hst hs hDr hpos hDn h1 h4, h5⟩

theorem seedGlobal_idem (ext : TorchExt G) (seed : Option ℤ) (g : G) : seedGlobal ext seed (seedGlobal ext seed g) = seedGlobal ext seed g := by
  cases seed <;> rfl

/-- a labelled sampler always draws such samples, which do not change when the generator has been seeded already -/
theorem draws_exist (ext : TorchExt G) {s : Sampler} {m d : ℕ} (h : SamplerFits s m d 1 true) (n : ℕ) :
    ∃ (next : G → G) (Z : G → Fin n → Fin m → Fin d → ℝ) (W : G → Fin n → Fin m → ℝ), DrawsAre ext s next Z W ∧
      ∀ gen, Z (seedGlobal ext s.seed gen) = Z gen ∧ W (seedGlobal ext s.seed gen) = W gen := by
  have key : ∀ gen, ∃ (g' : G) (Z : Fin n → Fin m → Fin d → ℝ) (W : Fin n → Fin m → ℝ) (Zt Wt : Tensor ℝ), s.sample ext n gen = (Zt, some Wt, g') ∧ IsTen Zt Z ∧
      IsTen Wt fun j i (_ : Fin 1) => W j i := by
    intro gen
    obtain ⟨z1, z2, z3⟩ := sample_shapes ext h gen n
    obtain ⟨Wt, hW⟩ := Option.isSome_iff_exists.1 z2
    refine ⟨(s.sample ext n gen).2.2, _, fun j i => Wt.get [j.1, i.1, 0], (s.sample ext n gen).1, Wt, Prod.ext rfl (Prod.ext hW rfl), isTen_get z1, z3 Wt hW, fun j i k => ?_⟩
    have : k = 0 := Subsingleton.elim _ _
    subst this
    rfl
  choose next Z W hZ using key
  refine ⟨fun gen => next (seedGlobal ext s.seed gen), fun gen => Z (seedGlobal ext s.seed gen), fun gen => W (seedGlobal ext s.seed gen), fun gen => hZ _, fun gen => ?_⟩
  dsimp only
  rw [seedGlobal_idem]
  exact ⟨rfl, rfl⟩

end

/-- logistic regression with default arguments but the cost, for which there is no importance sampling -/
noncomputable def exPlain : EstParams := { EstKind.logistic.defaults with cost := "t-NLC-1-2".toList }

theorem exPlain_ready : FitReady exPlain true := by
  refine ⟨⟨_, (C01_decimal_roundtrip 1 2 5).2.1⟩, ⟨_, _, code_parse "NLC".toList 1 2 (by decide) true, rfl, Or.inl ⟨rfl, Or.inr (Or.inl rfl)⟩, by simp⟩, fun s hs => ?_,
    fun r hr => ?_, fun s hs => ?_⟩ <;> simp only [exPlain, EstKind.defaults, Radius.num.injEq, Option.some.injEq] at * <;>
    first | (subst hs; norm_num) | (subst hr; norm_num) | cases hs

/-- Two-class logistic regression with the post-sampled solver, on any data and for any learning rate: there is a backward pass that gives exact gradients, and then
the training returns and has a small regret. -/
theorem regret_applies (clip : Bool) {m d : ℕ} (hm : 0 < m) (X : Fin m → Fin d → ℝ) (y : Fin m → ℝ) (oc : OCState) {lr : ℝ} (hlr : 0 < lr) : ∃ (back : Tape ℕ → List ℝ × ℝ)
    (M : Module d) (r : Solved (List ℝ)) (F : ℕ → (Fin (d + 1) → ℝ) → ℝ → ℝ) (L : ℕ → ℝ) (next : ℕ → ℕ) (v0 : Fin (d + 1) → ℝ) (lam0 : ℝ) (g0 : ℕ),
    solveTorch counterExt (descentTorch clip lr back) defaultCond (fun x => x) (torchArgs (thetaGrad d) .logistic exPlain true false (matT X)
      (some (matT fun i (_ : Fin 1) => y i))) (.softMargin ⟨fun _ _ => 3, some fun _ => 1⟩) (.inr (200, 2800)) oc 7 = .ok (M, r) ∧
    SmallRegret defaultCond clip lr (fun gen => IsGradAt (F gen)) F L next 2800 v0 lam0 g0 (.softMargin ⟨fun _ _ => 3, some fun _ => 1⟩) M r := by
  have h' := exPlain_ready
  set l0 : LinMap d 1 := ⟨fun _ _ => 3, some fun _ => 1⟩ with hl0
  have hlen : l0.params.length = d + 1 := by simp [LinMap.params, hl0]
  have ha := torch_argsFit (thetaGrad_shapes d) .logistic exPlain true (mc := false) (X := matT X)
    (y := some (matT fun i (_ : Fin 1) => y i)) (k := 1) (M0 := .softMargin l0) rfl (by intro t ht; cases ht; rfl) ⟨rfl, rfl, rfl⟩
  have hr := torch_costReady (grads := thetaGrad d) (e := .logistic) (post := true) (mc := false) (X := matT X)
    (y := some (matT fun i (_ : Fin 1) => y i)) (M0 := .softMargin l0) h'
  obtain ⟨D, g', s, hD, hs, -⟩ := costReady_dualize (ext := counterExt) hr 7
  have hsig : ∀ s, exPlain.sampler_reg = some s → 0 < s := h'.sigma
  obtain ⟨rho, hrho, hpos⟩ : ∃ rho, exPlain.rho = .num rho ∧ 0 < rho := ⟨_, rfl, by norm_num⟩
  have heps : ∀ e, exPlain.solver_reg = some e → 0 < e := fun e he => by cases he
  obtain ⟨n, hz, hn⟩ : ∃ n : ℕ, exPlain.n_zeta_samples = n ∧ 0 < n := ⟨10, rfl, by norm_num⟩
  have himp : D.impSamp = false := by
    obtain ⟨parsed, obj, c, s', hp, -, -, -, rfl⟩ := dualize_ok hD
    have e : parse_code_torch (some exPlain.cost) true = .ok parsed := hp
    rw [show exPlain.cost = "t-NLC-1-2".toList from rfl, show parse_code_torch (some "t-NLC-1-2".toList) true = _ from code_parse "NLC".toList 1 2 (by decide) true] at e
    simp only [Except.ok.injEq] at e
    subst e
    simp [dualOf, decideOnImpsamp, ParsedCost.can_imp_samp, XNum.eqLit]
  have hfits : SamplerFits s m d 1 true := by
    obtain ⟨parsed, obj, c, s', -, -, -, hsm, rfl⟩ := dualize_ok hD
    have : s' = s := by simpa [dualOf] using hs
    subst this
    exact dualizeSampler_fits hsm rfl (by intro t ht; cases ht; rfl)
  obtain ⟨next, Z, W, hZ, hZs⟩ := draws_exist counterExt hfits n
  have heps0 : 0 < D.epsilon := (dualize_labelled_off hD rfl rfl himp hsig hrho hpos heps rfl one_pos (softMargin_rows l0) 0).1.eps_pos
  have hb : ∀ gen, ∃ b, ∀ j i, W gen j i ^ 2 * (∑ k, Z gen j i k ^ 2 + 1) ≤ b := by
    intro gen
    obtain ⟨b, hb⟩ := (Set.finite_range fun q : Fin n × Fin m => W gen q.1 q.2 ^ 2 * (∑ k, Z gen q.1 q.2 k ^ 2 + 1)).bddAbove
    exact ⟨b, fun j i => hb ⟨(j, i), rfl⟩⟩
  have hk : ∀ gen, ∃ K, ∀ j i, |costAt D.cost (X i) (Z gen j i) (fun (_ : Fin 1) => y i) (fun _ => W gen j i)| ≤ K := by
    intro gen
    obtain ⟨b, hb⟩ := (Set.finite_range fun q : Fin n × Fin m =>
      |costAt D.cost (X q.2) (Z gen q.1 q.2) (fun (_ : Fin 1) => y q.2) (fun _ => W gen q.1 q.2)|).bddAbove
    exact ⟨b, fun j i => hb ⟨(j, i), rfl⟩⟩
  choose b hb using hb
  choose K hK using hk
  have hB : ∀ gen j i, W gen j i ^ 2 * (∑ k, Z gen j i k ^ 2 + 1) ≤ Real.sqrt (max (b gen) 0) ^ 2 := fun gen j i => by
    rw [Real.sq_sqrt (le_max_right _ _)]; exact le_max_of_le_left (hb gen j i)
  choose gr gl hgr using fun gen => smooth_exists_grad (C120_curvature (rho := rho) (r2 := exPlain.l2_reg) hn hm hlen D.cost heps0 (hB gen) (hK gen))
  set back : Tape ℕ → List ℝ × ℝ := fun t =>
    (List.ofFn (gr t.gen (fun k => (t.loss.grads (scalar 0) none).1.get [k.1]) t.loss.lam), gl t.gen (fun k => (t.loss.grads (scalar 0) none).1.get [k.1]) t.loss.lam) with hback
  have hbk : PostBackIs counterExt (torchArgs (thetaGrad d) .logistic exPlain true false (matT X) (some (matT fun i (_ : Fin 1) => y i))) D (.softMargin l0) back
      (fun gen => IsGradAt (logisticObjective (N := d + 1) l0 D.cost rho D.epsilon exPlain.l2_reg X y (Z gen) (W gen))) := by
    intro gen v l
    refine ⟨gr (D.seeded counterExt gen) v l, gl (D.seeded counterExt gen) v l, ?_, ?_⟩
    swap
    · have := hgr (D.seeded counterExt gen) v l
      have e : D.seeded counterExt gen = seedGlobal counterExt s.seed gen := by simp only [DualLoss.seeded, hs, Option.bind_some]
      rwa [show Z (D.seeded counterExt gen) = Z gen by rw [e]; exact (hZs gen).1, show W (D.seeded counterExt gen) = W gen by rw [e]; exact (hZs gen).2] at this
    have e : (fun k : Fin (d + 1) => ((lossFor (torchArgs (thetaGrad d) .logistic exPlain true false (matT X)
        (some (matT fun i (_ : Fin 1) => y i))) D (.softMargin l0) false (⟨List.ofFn v, l, none, none, ()⟩ : OptView Unit)).grads (scalar 0) none).1.get [k.1]) = v := by
      funext k
      have e1 : (l0.withParams (List.ofFn v)).params = List.ofFn v := linMap_params_withParams l0 (by simpa using hlen.symm)
      show (l0.withParams (List.ofFn v)).params.getD k.1 0 = v k
      rw [e1, getD_ofFn k.2]
    rw [hback]
    dsimp only
    rw [e]
    rfl
  obtain ⟨M, r, h1, -⟩ := C86_fits_return_partial (ext := counterExt) (fl := fun x => x) (steps := .inr (200, 2800)) (descent_good clip lr back)
    ha hr h'.rho (by decide) (defaultCond_ready oc _ _) 7
  obtain ⟨v0, v1, g1, v2, -, -, -, h2⟩ := C123_logistic hsig heps hrho hpos hz hn hm le_rfl X y l0 hD himp hs hZ (fun gen => Real.sqrt_nonneg _) hB hK hlr hlen hbk
    (steps := .inr (200, 2800)) rfl rfl (T := 2800) (by norm_num) oc h1
  exact ⟨back, M, r, _, _, next, v0, v2.lam, g1, h1, h2⟩

end Skwdro
