import Verif.Lemmas.Descent
import Verif.Props.Trajectory

/-! # C120: gradient descent reaches the robust optimum -/

namespace Skwdro
open Spec Tensor

/-- one step of gradient descent in place with step size `lr`, keeping the multiplier non-negative if `clip`; a parameter without gradient is left as it is -/
noncomputable def descentStep {O : Type} (clip : Bool) (lr : ℝ) (v : OptView O) : OptView O :=
  { v with params := v.params.mapIdx fun i p => p - lr * (v.pgrad.getD []).getD i 0, lam := clipped clip (v.lam - lr * v.lgrad.getD 0) }

/-- `torch.optim.SGD` without momentum, for an autograd `back`; with `clip`, `HybridSGD` with the rule `non_neg` on the multiplier, hybrid_opt.py:46-48 and 62-88 -/
noncomputable def descentTorch {G : Type} (clip : Bool) (lr : ℝ) (back : Tape G → List ℝ × ℝ) : Torch G Unit where
  o0 := ()
  backward t := (some (back t).1, some (back t).2)
  step v := .ok (descentStep clip lr v)
  prog _ := .eval fun _ => .act (descentStep clip lr) fun _ => .done
  resetLbd := none
  composite := false

theorem descent_inPlace {G : Type} (clip : Bool) (lr : ℝ) (back : Tape G → List ℝ × ℝ) : InPlace (descentTorch clip lr back) :=
  ⟨fun _ => .eval _ fun _ => .act _ _ (fun v => by simp [descentStep]) fun _ => .done, fun v v' h => by cases h; simp [descentStep], fun f hf => by cases hf⟩

theorem descent_good {G : Type} (clip : Bool) (lr : ℝ) (back : Tape G → List ℝ × ℝ) : GoodTorch (descentTorch clip lr back) :=
  ⟨fun _ => .eval _ fun _ => .act _ _ fun _ => .done, fun v => ⟨_, rfl, fun h => h, fun h => h⟩, fun f hf v => (by cases hf), fun _ _ => rfl, fun _ _ _ _ => rfl⟩

theorem mapIdx_ofFn_sub {N : ℕ} (lr : ℝ) (v g : Fin N → ℝ) :
    (List.ofFn v).mapIdx (fun i p => p - lr * (List.ofFn g).getD i 0) = List.ofFn fun k => v k - lr * g k := by
  apply List.ext_getElem
  · simp
  · intro i h1 h2
    simp only [List.length_ofFn] at h2
    simp [h2]

section
variable {G : Type} {d N : ℕ} {ext : TorchExt G} {cfg : OCConfig} {fl : ℝ → ℝ} {args : Module d → DualizeArgs}
  {M0 : Module d} {D : DualLoss} {Z : Tensor ℝ × Option (Tensor ℝ)} {gen : G} {clip : Bool} {lr beta : ℝ} {back : Tape G → List ℝ × ℝ}
  {f : (Fin N → ℝ) → ℝ → ℝ}

theorem descent_iter (hf : LossIs ext args D M0 Z f) (hb : BackIs args D M0 gen Z back f) (hi : D.impSamp = false) {n : ℤ} {k : ℕ} {s t : OptView Unit × OCState}
    {x : XNum ℝ} {b : Bool} (h : PreIter ext (descentTorch clip lr back) cfg n args D M0 gen Z k s t x b) {v : Fin N → ℝ} (hv : s.1.params = List.ofFn v) :
    ∃ g gl, IsGradAt f v s.1.lam g gl ∧ t.1.params = List.ofFn (fun k => v k - lr * g k) ∧ t.1.lam = clipped clip (s.1.lam - lr * gl) ∧
      x = .fin (f (fun k => v k - lr * g k) (clipped clip (s.1.lam - lr * gl))) ∧
      (b = true → ∃ m m', ocCall cfg m ⟨0, fun _ => t.1.lam, t.1.lgrad, [(t.1.params, t.1.pgrad)], n⟩ k = (.ok true, m')) := by
  obtain ⟨w, q, h1, h2, h3, h4⟩ := h
  obtain ⟨g, gl, hg1, hg2⟩ := hb v s.1.lam
  have hw : w.params = List.ofFn (fun k => v k - lr * g k) ∧ w.lam = clipped clip (s.1.lam - lr * gl) := by
    unfold PreUpdate at h1
    cases h1 with
    | eval _ _ y _ hy h1 =>
      cases h1 with
      | act _ _ _ _ h1 =>
        cases h1
        have e : lossFor args D M0 false s.1 = lossFor args D M0 false (⟨List.ofFn v, s.1.lam, none, none, ()⟩ : OptView Unit) := by
          simp only [lossFor, hv]
        simp only [descentStep, withGrad, descentTorch, e, hg1, Option.getD_some, hv, mapIdx_ofFn_sub, and_self]
  have ht : t.1.params = w.params ∧ t.1.lam = w.lam ∧
      computeDual ext (lossFor args D M0 false w) (args M0).xi (args M0).xi_labels Z.1 Z.2 = .ok q := by
    split at h4
    · obtain ⟨h5, h6⟩ := h4
      rw [h6]
      exact ⟨rfl, rfl, h5⟩
    · obtain ⟨h5, h6⟩ := h4
      rw [h6]
      refine ⟨rfl, rfl, ?_⟩
      rw [← h5]
      congr 1
      simp [lossFor, hi]
  obtain ⟨T, hT1, hT2, hT3⟩ := hf (fun k => v k - lr * g k) (clipped clip (s.1.lam - lr * gl))
  have e : lossFor args D M0 false w = lossFor args D M0 false (⟨List.ofFn (fun k => v k - lr * g k), clipped clip (s.1.lam - lr * gl), none, none, ()⟩ : OptView Unit) := by
    simp only [lossFor, hw.1, hw.2]
  have hq : q = .val T := by
    have := ht.2.2
    rw [e, hT1] at this
    cases this
    rfl
  have hx : x = .fin (f (fun k => v k - lr * g k) (clipped clip (s.1.lam - lr * gl))) := by
    have hl : T.toList = [T.get []] := by
      cases T with
      | mk shape get => cases hT2; rfl
    rw [hq] at h2
    simp only [DualVal.item, hl, Except.ok.injEq] at h2
    rw [← h2, hT3]
  refine ⟨g, gl, hg2, ht.1.trans hw.1, ht.2.1.trans hw.2, hx, fun hbt => ?_⟩
  subst hbt
  unfold Verdict at h3
  rw [if_neg (by rw [hx]; simp)] at h3
  exact ⟨_, _, h3⟩

/-- the iterations of gradient descent -/
theorem descent_trained (hf : LossIs ext args D M0 Z f) (hb : BackIs args D M0 gen Z back f) (hi : D.impSamp = false) (hs : SmoothConvex f beta)
    (hl : 0 < lr) (hlb : lr * beta ≤ 1) {n k : ℕ} {s u : OptView Unit × OCState} {x : XNum ℝ}
    (h : Trained (PreIter ext (descentTorch clip lr back) cfg n args D M0 gen Z) n k s u x) : ∀ v : Fin N → ℝ, s.1.params = List.ofFn v →
    ∃ j w, 1 ≤ j ∧ k + j ≤ n ∧ u.1.params = List.ofFn w ∧ x = .fin (f w u.1.lam) ∧ (clip = true → 0 ≤ u.1.lam) ∧ ((clip = true → 0 ≤ s.1.lam) → f w u.1.lam ≤ f v s.1.lam) ∧
      (∀ q lq, (clip = true → 0 ≤ lq) → 2 * lr * j * (f w u.1.lam - f q lq) ≤ gap2 v s.1.lam q lq - gap2 w u.1.lam q lq) ∧
      (k + j < n → ∃ m m', ocCall cfg m ⟨0, fun _ => u.1.lam, u.1.lgrad, [(u.1.params, u.1.pgrad)], n⟩ ((k + j - 1 : ℕ) : ℤ) = (.ok true, m')) := by
  induction h with
  | last k s t x b hk hb' hI =>
    intro v hv
    obtain ⟨g, gl, h1, h2, h3, h4, h5⟩ := descent_iter hf hb hi hI hv
    obtain ⟨h6, h7⟩ := descent_step (clip := clip) hs hl hlb h1
    refine ⟨1, _, le_refl _, by omega, h2, by rw [h3]; exact h4, fun hc => by rw [h3]; exact clipped_nonneg hc _, by rw [h3]; exact h6, fun q lq hq => by rw [h3]; simpa using h7 q lq hq, fun hlt => ?_⟩
    rcases hb' with rfl | hb'
    · simpa using h5 rfl
    · omega
  | next k s t u x y hk hI _ ih =>
    intro v hv
    obtain ⟨g, gl, h1, h2, h3, h4, h5⟩ := descent_iter hf hb hi hI hv
    obtain ⟨h6, h7⟩ := descent_step (clip := clip) hs hl hlb h1
    obtain ⟨j, w, i1, i2, i3, i4, i0, i5, i6, i7⟩ := ih _ h2
    rw [h3] at i5 i6
    refine ⟨j + 1, w, by omega, by omega, i3, i4, i0, fun h => (i5 fun hc => clipped_nonneg hc _).trans (h6 h), fun q lq hq => ?_, fun hlt => ?_⟩
    · have h8 := h7 q lq hq
      have h9 := i6 q lq hq
      have h10 := i5 fun hc => clipped_nonneg hc _
      push_cast
      nlinarith
    · have := i7 (by omega)
      rw [show k + (j + 1) - 1 = k + 1 + j - 1 by omega]
      exact this

theorem descent_length {erm : Bool} {v w : OptView Unit} (h : PreUpdate ext (descentTorch clip lr back) args D M0 gen Z erm v w) :
    w.params.length = v.params.length := by
  unfold PreUpdate at h
  cases h with
  | eval _ _ y _ hy h =>
    cases h with
    | act _ _ _ _ h =>
      cases h
      simp [descentStep, withGrad]

/-- **C120** Pre-sampled training with gradient descent, on a robust loss `f` (of parameters and multiplier, on the samples drawn) which is convex with
curvature at most `beta`, with a learning rate at most `1 / beta` and exact gradients.  Whatever the schedule and the optimality condition, a training that
returns is optimal up to a constant over the number of robust iterations; these start at the parameters reached by the pre-training steps and at the
initial guess of the multiplier there. -/
theorem C120_rate {g g' : G} (hD : dualize ext (args M0) g = .ok (D, g')) {s0 : Sampler} (hs : D.sampler = some s0)
    (hpost : (args M0).post_sample = false) (himp : D.impSamp = false) (hrho : (args M0).rho.isPos = true) {steps : ℤ ⊕ (ℤ × ℤ)} {p q0 : ℤ}
    (hst : interpretSteps fl split03 (toSteps steps) = .ok (p, q0)) {n : ℕ} (hn : (toSteps steps).iterations = n) (hn0 : 0 < n) (oc : OCState)
    (hZ : s0.sample ext D.nSamples g' = (Z.1, Z.2, gen)) (hN : M0.theta.length = N)
    (hf : LossIs ext args D M0 Z f) (hb : BackIs args D M0 gen Z back f) (hsm : SmoothConvex f beta) (hl : 0 < lr) (hlb : lr * beta ≤ 1)
    {M : Module d} {r : Solved (List ℝ)} (h : solveTorch ext (descentTorch clip lr back) cfg fl args M0 steps oc g = .ok (M, r)) :
    ∃ v0 v1 v2, Iterated (PreUpdate ext (descentTorch clip lr back) args D M0 gen Z true) p.toNat ⟨M0.theta, D.lam, none, none, ()⟩ v1 ∧
      DualGuessed args D M0 v1 v2 ∧ v2.params = List.ofFn v0 ∧ ReachesOptimum cfg clip lr f n v0 v2.lam M0 M r := by
  obtain ⟨Z', gen', v1, v2, v3, v4, oc', h1, h2, h3, h4, h5, h6, h7, h8, -⟩ := C101_presampled (descent_inPlace clip lr back) hD hs hpost hst hn hn0 oc h
  rw [hZ] at h1
  simp only [Prod.mk.injEq] at h1
  obtain ⟨e1, e2, rfl⟩ := h1
  obtain rfl : Z = Z' := Prod.ext e1 e2
  have hlen : ∀ (j : ℕ) (a b : OptView Unit), Iterated (PreUpdate ext (descentTorch clip lr back) args D M0 gen Z true) j a b → b.params.length = a.params.length := by
    intro j a b hj
    induction hj with
    | zero => rfl
    | succ _ _ _ _ h1 _ ih => exact ih.trans (descent_length h1)
  have h9 : v2.params.length = N := by
    obtain ⟨D', -, rfl⟩ := h3
    rw [← hN]
    exact hlen _ _ _ h2
  obtain rfl : v3 = v2 := h4
  obtain ⟨v0, hv0⟩ : ∃ v0 : Fin N → ℝ, v3.params = List.ofFn v0 := by
    subst h9
    exact ⟨v3.params.get, (List.ofFn_get _).symm⟩
  obtain ⟨k, w, i1, i2, i3, i4, i0, i5, i6, i7⟩ := descent_trained hf hb himp hsm hl hlb h5 v0 hv0
  rw [hrho, if_pos rfl] at h7
  simp only at i3 i4 i0 i5 i6 i7
  rw [← h7] at i4 i0 i5 i6 i7
  refine ⟨v0, v1, v3, h2, h3, hv0, w, k, _, h6.trans i3, by rw [h6]; exact h8, i4, rfl, i0, i1, by omega, fun hk => ?_, i5, fun q lq hq => ?_⟩
  · obtain ⟨m, m', h⟩ := i7 (by omega)
    rw [← h6, zero_add] at h
    exact ⟨m, m', _, _, h⟩
  · have hk : (0 : ℝ) < k := by exact_mod_cast i1
    have h10 := i6 q lq hq
    rw [← sub_nonneg]
    have e : f q lq + gap2 v0 v3.lam q lq / (2 * lr * k) - (f w r.dual_var + gap2 w r.dual_var q lq / (2 * lr * k)) =
        (gap2 v0 v3.lam q lq - gap2 w r.dual_var q lq - 2 * lr * k * (f w r.dual_var - f q lq)) / (2 * lr * k) := by
      field_simp; ring
    rw [e]
    exact div_nonneg (by linarith) (by positivity)

end

/-! ## Logistic regression -/

/-- the logistic loss lies above its tangents, by at most an eighth of the squared change of the margin -/
theorem logloss_bounds (w s : ℝ) : ∃ p, 0 ≤ p ∧ p ≤ 1 ∧ ∀ t, logloss w s + p * -(w * t) ≤ logloss w (s + t) ∧
    logloss w (s + t) ≤ logloss w s + p * -(w * t) + (w * t) ^ 2 / 8 := by
  set u : Fin 2 → ℝ := ![0, -(w * s)] with hu
  have hW := tilt_weights (n := 2) (by norm_num) 1 u
  have hsum : tilt 1 u 0 + tilt 1 u 1 = 1 := by simpa using hW.2
  refine ⟨tilt 1 u 1, hW.1 1, by linarith [hW.1 0], fun t => ?_⟩
  have e : ∀ a : ℝ, ![0, -(w * (s + t))] = fun j => (u j + ![a, -(w * t) + a] j) + -a := by
    intro a; funext j; fin_cases j <;> simp [hu] <;> ring
  have hlt := softmax_tangent (n := 2) (by norm_num) one_pos u ![0, -(w * t) + 0]
  have hut := softmax_upper (n := 2) (by norm_num) one_pos u ![w * t / 2, -(w * t) + w * t / 2] (S := |w * t| / 2) (by
    intro j; fin_cases j
    · simp [abs_div]
    · have : -(w * t) + w * t / 2 = -(w * t / 2) := by ring
      simp [this, abs_neg, abs_div])
  rw [logloss_softmax, logloss_softmax]
  constructor
  · have e0 := e 0
    simp only [neg_zero, add_zero] at e0
    rw [e0]
    simp only [Fin.sum_univ_two, Matrix.cons_val_zero, Matrix.cons_val_one, mul_zero, zero_add, add_zero] at hlt
    simp only [hu] at *
    linarith
  · rw [e (w * t / 2), softmax_add_const (by norm_num) one_pos]
    simp only [Fin.sum_univ_two, Matrix.cons_val_zero, Matrix.cons_val_one] at hut
    have h0 : tilt 1 u 0 = 1 - tilt 1 u 1 := by linarith
    rw [h0, div_pow, sq_abs] at hut
    simp only [hu] at *
    nlinarith

/-- the inputs of a sample in the order of the parameters: its features, and `1` for the bias -/
def inputs {d : ℕ} (N : ℕ) (z : Fin d → ℝ) (k : Fin N) : ℝ := if h : k.1 < d then z ⟨k.1, h⟩ else 1

theorem getD_ofFn {N i : ℕ} {v : Fin N → ℝ} (h : i < N) : (List.ofFn v).getD i 0 = v ⟨i, h⟩ := by
  rw [List.getD_eq_getElem _ _ (by simpa using h), List.getElem_ofFn]

theorem out_inputs {d N : ℕ} (l0 : LinMap d 1) (hN : l0.params.length = N) (v : Fin N → ℝ) (z : Fin d → ℝ) :
    (l0.withParams (List.ofFn v)).out z 0 = ∑ k, v k * inputs N z k := by
  obtain ⟨w, b⟩ := l0
  cases b with
  | none =>
    have : N = d := by rw [← hN]; simp [LinMap.params]
    subst this
    simp [LinMap.out, LinMap.withParams, inputs]
  | some b =>
    have : N = d + 1 := by rw [← hN]; simp [LinMap.params]
    subst this
    rw [Fin.sum_univ_castSucc]
    simp only [LinMap.out, LinMap.withParams, inputs, Option.map_some]
    congr 1
    · refine Finset.sum_congr rfl fun k _ => ?_
      rw [getD_ofFn (show (0 : Fin 1).1 * d + k.1 < d + 1 by simp)]
      simp [Fin.castSucc, Fin.castAdd, Fin.castLE]
    · rw [getD_ofFn (show 1 * d + (0 : Fin 1).1 < d + 1 by simp)]
      simp [Fin.last]

theorem inputs_sq_le {d N : ℕ} (l0 : LinMap d 1) (hN : l0.params.length = N) (z : Fin d → ℝ) : ∑ k, inputs N z k ^ 2 ≤ ∑ k, z k ^ 2 + 1 := by
  obtain ⟨w, b⟩ := l0
  cases b with
  | none =>
    have : N = d := by rw [← hN]; simp [LinMap.params]
    subst this
    simp [inputs]
  | some b =>
    have : N = d + 1 := by rw [← hN]; simp [LinMap.params]
    subst this
    rw [Fin.sum_univ_castSucc]
    simp [inputs]

theorem logloss_smoothLoss {d N : ℕ} (l0 : LinMap d 1) (hN : l0.params.length = N) (z : Fin d → ℝ) {w B : ℝ} (hB : w ^ 2 * (∑ k, z k ^ 2 + 1) ≤ B ^ 2) :
    SmoothLoss (fun v : Fin N → ℝ => logloss w ((l0.withParams (List.ofFn v)).out z 0)) (B ^ 2 / 4) B := by
  have hB' : w ^ 2 * ∑ k, inputs N z k ^ 2 ≤ B ^ 2 := (mul_le_mul_of_nonneg_left (inputs_sq_le l0 hN z) (sq_nonneg w)).trans hB
  intro v
  simp only [out_inputs l0 hN]
  obtain ⟨p, hp0, hp1, hp⟩ := logloss_bounds w (∑ k, v k * inputs N z k)
  refine ⟨fun k => p * -w * inputs N z k, ?_, fun v' => ?_⟩
  · simp only [mul_pow, ← Finset.mul_sum]
    refine le_trans ?_ hB'
    refine mul_le_mul_of_nonneg_right ?_ (Finset.sum_nonneg fun _ _ => sq_nonneg _)
    nlinarith [sq_nonneg w, mul_nonneg hp0 (sub_nonneg.2 hp1)]
  · have e1 : ∑ k, v' k * inputs N z k = ∑ k, v k * inputs N z k + ∑ k, (v' k - v k) * inputs N z k := by
      rw [← Finset.sum_add_distrib]; exact Finset.sum_congr rfl fun k _ => by ring
    have e2 : ∑ k, p * -w * inputs N z k * (v' k - v k) = p * -(w * ∑ k, (v' k - v k) * inputs N z k) := by
      rw [Finset.mul_sum, ← Finset.sum_neg_distrib, Finset.mul_sum]; exact Finset.sum_congr rfl fun k _ => by ring
    obtain ⟨h1, h2⟩ := hp (∑ k, (v' k - v k) * inputs N z k)
    rw [e1, e2]
    refine ⟨h1, h2.trans ?_⟩
    have h3 : (∑ k, (v' k - v k) * inputs N z k) ^ 2 ≤ (∑ k, (v' k - v k) ^ 2) * ∑ k, inputs N z k ^ 2 := Finset.sum_mul_sq_le_sq_mul_sq _ _ _
    have h4 : 0 ≤ ∑ k, (v' k - v k) ^ 2 := Finset.sum_nonneg fun _ _ => sq_nonneg _
    have h5 := mul_le_mul_of_nonneg_left h3 (sq_nonneg w)
    have h6 := mul_le_mul_of_nonneg_right hB' h4
    rw [mul_pow]
    nlinarith

theorem ridge_bounds {N : ℕ} (r2 : ℝ) (v : Fin N → ℝ) : ∃ r : Fin N → ℝ, ∀ v' : Fin N → ℝ,
    ridge (some r2) (List.ofFn v) + ∑ k, r k * (v' k - v k) ≤ ridge (some r2) (List.ofFn v') ∧
    ridge (some r2) (List.ofFn v') ≤ ridge (some r2) (List.ofFn v) + ∑ k, r k * (v' k - v k) + max r2 0 / 2 * ∑ k, (v' k - v k) ^ 2 := by
  refine ⟨fun k => max r2 0 * v k, fun v' => ?_⟩
  have e : ∀ v : Fin N → ℝ, ridge (some r2) (List.ofFn v) = max r2 0 / 2 * ∑ k, v k ^ 2 := by
    intro v
    simp only [ridge, List.map_ofFn, List.sum_ofFn, Function.comp_def]
    split
    · next h => rw [max_eq_right h]; simp
    · next h => rw [max_eq_left (not_le.1 h).le]
  have e2 : max r2 0 / 2 * ∑ k, v' k ^ 2 = max r2 0 / 2 * ∑ k, v k ^ 2 + ∑ k, max r2 0 * v k * (v' k - v k) + max r2 0 / 2 * ∑ k, (v' k - v k) ^ 2 := by
    simp only [Finset.mul_sum, ← Finset.sum_add_distrib]
    exact Finset.sum_congr rfl fun k _ => by ring
  have h0 : 0 ≤ max r2 0 / 2 * ∑ k, (v' k - v k) ^ 2 := mul_nonneg (by positivity) (Finset.sum_nonneg fun _ _ => sq_nonneg _)
  rw [e, e, e2]
  constructor <;> linarith

/-- **C120** (constants) The robust logistic loss on given samples is convex with a known curvature. -/
theorem C120_curvature {m n d N : ℕ} (hn : 0 < n) (hm : 0 < m) {l0 : LinMap d 1} (hN : l0.params.length = N) (c : CostR) {rho eps r2 : ℝ} (he : 0 < eps)
    {X : Fin m → Fin d → ℝ} {y : Fin m → ℝ} {Z : Fin n → Fin m → Fin d → ℝ} {W : Fin n → Fin m → ℝ} {B K : ℝ}
    (hB : ∀ j i, W j i ^ 2 * (∑ k, Z j i k ^ 2 + 1) ≤ B ^ 2)
    (hK : ∀ j i, |costAt c (X i) (Z j i) (fun (_ : Fin 1) => y i) (fun _ => W j i)| ≤ K) :
    SmoothConvex (logisticObjective (N := N) l0 c rho eps r2 X y Z W) (B ^ 2 / 4 + max r2 0 + (B ^ 2 + K ^ 2) / eps) :=
  robust_smooth hn hm he (fun j i => logloss_smoothLoss l0 hN (Z j i) (hB j i)) (ridge_bounds r2) hK (by positivity)

section
variable {G : Type} {ext : TorchExt G} {cfg : OCConfig} {fl : ℝ → ℝ} {clip : Bool}

/-- the robust loss of a linear layer in the solver of the logistic regression -/
theorem logistic_lossIs {m d n : ℕ} {post : Bool} {grads : Autograd d} {P : EstParams} (hsig : ∀ s, P.sampler_reg = some s → 0 < s)
    (heps : ∀ e, P.solver_reg = some e → 0 < e) {rho : ℝ} (hrho : P.rho = .num rho) (hpos : 0 < rho) (hn : 0 < n) (hm : 0 < m)
    (X : Fin m → Fin d → ℝ) (y : Fin m → ℝ) (l0 : LinMap d 1) {g g' : G} {D : DualLoss}
    (hD : dualize ext (torchArgs grads .logistic P post false (matT X) (some (matT fun i (_ : Fin 1) => y i)) (.softMargin l0)) g = .ok (D, g')) (himp : D.impSamp = false)
    {Z : Fin n → Fin m → Fin d → ℝ} {W : Fin n → Fin m → ℝ} {Zt Wt : Tensor ℝ} (hZt : IsTen Zt Z) (hWt : IsTen Wt fun j i (_ : Fin 1) => W j i)
    {N : ℕ} (hN : l0.params.length = N) :
    LossIs ext (torchArgs grads .logistic P post false (matT X) (some (matT fun i (_ : Fin 1) => y i))) D (.softMargin l0) (Zt, some Wt)
      (logisticObjective (N := N) l0 D.cost rho D.epsilon P.l2_reg X y Z W) := by
  intro v lam
  have hD' := dualize_onlyModule (torchArgs_onlyModule grads .logistic P post false (matT X) (some (matT fun i (_ : Fin 1) => y i)) (.softMargin l0)
    (.softMargin (l0.withParams (List.ofFn v)))) hD
  obtain ⟨hL, hmean, -⟩ := dualize_labelled_off hD' rfl rfl himp hsig hrho hpos heps rfl one_pos (softMargin_rows (l0.withParams (List.ofFn v))) lam
  have := C29_formula_labelled ext hL hmean hn hm (isMat_mat X) hZt (isMat_mat fun i (_ : Fin 1) => y i) hWt
  have e1 : (torchArgs grads EstKind.logistic P post false (matT X) (some (matT fun i (_ : Fin 1) => y i))
    (.softMargin (l0.withParams (List.ofFn v)))).wloss.l2reg = some P.l2_reg := rfl
  have e2 : (torchArgs grads EstKind.logistic P post false (matT X) (some (matT fun i (_ : Fin 1) => y i))
    (.softMargin (l0.withParams (List.ofFn v)))).wloss.theta = List.ofFn v := linMap_params_withParams l0 (by simpa using hN.symm)
  have herm : D.ermMode = false := hL.erm
  have e3 : lossFor (torchArgs grads .logistic P post false (matT X) (some (matT fun i (_ : Fin 1) => y i))) D (.softMargin l0) false
      (⟨List.ofFn v, lam, none, none, ()⟩ : OptView Unit) = { D with
        primal := (torchArgs grads .logistic P post false (matT X) (some (matT fun i (_ : Fin 1) => y i)) (.softMargin (l0.withParams (List.ofFn v)))).wloss.value,
        grads := grads (.softMargin (l0.withParams (List.ofFn v))), lam := lam } := by
    simp only [lossFor, Module.withParams, herm]
    rfl
  rw [e3]
  simp only [lossAt, avg, e1, e2, Finset.univ_unique, Finset.sum_singleton, Nat.cast_one, div_one] at this
  exact this

/-- **C120** (logistic regression) Pre-sampled two-class logistic regression, trained by gradient descent with exact gradients from any initial layer `l0`, on any
data: if all samples `z` with label `w` have `w ^ 2 (|z| ^ 2 + 1) ≤ B ^ 2` and a ground cost at most `K`, and if the learning rate is at most the inverse of
`B ^ 2 / 4 + l2_reg + (B ^ 2 + K ^ 2) / epsilon`, then the training reaches the optimum of the robust logistic loss over all parameters and multipliers up to
a constant over the number of robust iterations. -/
theorem C120_logistic {m d n : ℕ} {grads : Autograd d} {P : EstParams} (hsig : ∀ s, P.sampler_reg = some s → 0 < s)
    (heps : ∀ e, P.solver_reg = some e → 0 < e) {rho : ℝ} (hrho : P.rho = .num rho) (hpos : 0 < rho) (hz : P.n_zeta_samples = n) (hn : 0 < n) (hm : 0 < m)
    (X : Fin m → Fin d → ℝ) (y : Fin m → ℝ) (l0 : LinMap d 1) {g g' gen : G} {D : DualLoss}
    (hD : dualize ext (torchArgs grads .logistic P false false (matT X) (some (matT fun i (_ : Fin 1) => y i)) (.softMargin l0)) g = .ok (D, g'))
    {s : Sampler} (hs : D.sampler = some s) {Z : Fin n → Fin m → Fin d → ℝ} {W : Fin n → Fin m → ℝ}
    {Zt Wt : Tensor ℝ}
    (hZ : s.sample ext n g' = (Zt, some Wt, gen)) (hZt : IsTen Zt Z) (hWt : IsTen Wt fun j i (_ : Fin 1) => W j i) {B K lr : ℝ}
    (hB : ∀ j i, W j i ^ 2 * (∑ k, Z j i k ^ 2 + 1) ≤ B ^ 2)
    (hK : ∀ j i, |costAt D.cost (X i) (Z j i) (fun (_ : Fin 1) => y i) (fun _ => W j i)| ≤ K)
    (hl : 0 < lr) (hlr : lr * (B ^ 2 / 4 + max P.l2_reg 0 + (B ^ 2 + K ^ 2) / D.epsilon) ≤ 1) {N : ℕ} (hN : l0.params.length = N)
    {back : Tape G → List ℝ × ℝ}
    (hback : BackIs (torchArgs grads .logistic P false false (matT X) (some (matT fun i (_ : Fin 1) => y i))) D (.softMargin l0) gen
      (Zt, some Wt) back (logisticObjective (N := N) l0 D.cost rho D.epsilon P.l2_reg X y Z W))
    {steps : ℤ ⊕ (ℤ × ℤ)} {p q0 : ℤ} (hst : interpretSteps fl split03 (toSteps steps) = .ok (p, q0))
    {T : ℕ} (hT : (toSteps steps).iterations = T) (hT0 : 0 < T) (oc : OCState) {M : Module d} {r : Solved (List ℝ)}
    (h : solveTorch ext (descentTorch clip lr back) cfg fl (torchArgs grads .logistic P false false (matT X) (some (matT fun i (_ : Fin 1) => y i)))
      (.softMargin l0) steps oc g = .ok (M, r)) :
    ∃ v0 v1 v2, Iterated (PreUpdate ext (descentTorch clip lr back) (torchArgs grads .logistic P false false (matT X) (some (matT fun i (_ : Fin 1) => y i))) D
        (.softMargin l0) gen (Zt, some Wt) true) p.toNat ⟨l0.params, D.lam, none, none, ()⟩ v1 ∧
      DualGuessed (torchArgs grads .logistic P false false (matT X) (some (matT fun i (_ : Fin 1) => y i))) D (.softMargin l0) v1 v2 ∧
      v2.params = List.ofFn v0 ∧
      ReachesOptimum cfg clip lr (logisticObjective (N := N) l0 D.cost rho D.epsilon P.l2_reg X y Z W) T v0 v2.lam (.softMargin l0) M r := by
  have heps0 : 0 < D.epsilon := (dualize_labelled hD rfl rfl rfl hsig hrho hpos heps rfl one_pos (softMargin_rows l0) 0).1.eps_pos
  have hDn : D.nSamples = n := by
    obtain ⟨parsed, obj, c, s', -, -, -, -, rfl⟩ := dualize_ok hD
    show P.n_zeta_samples.toNat = n
    rw [hz]; simp
  have himp : D.impSamp = false := (dualize_labelled hD rfl rfl rfl hsig hrho hpos heps rfl one_pos (softMargin_rows l0) 0).1.imp
  refine C120_rate hD hs rfl himp (by show P.rho.isPos = true; rw [hrho]; simpa [Radius.isPos] using hpos) hst hT hT0 oc (Z := (Zt, some Wt)) (by rw [hDn]; exact hZ) hN (logistic_lossIs hsig heps hrho hpos hn hm X y l0 hD himp hZt hWt hN) hback
    (C120_curvature hn hm hN D.cost heps0 hB hK) hl hlr h

/-- **C120** (some learning rate works) For all data, settings and initial layers, and for the samples drawn, there is a positive learning rate below which gradient
descent reaches the optimum in this sense. -/
theorem C120_small_rate {m d n : ℕ} {grads : Autograd d} {P : EstParams} (hsig : ∀ s, P.sampler_reg = some s → 0 < s)
    (heps : ∀ e, P.solver_reg = some e → 0 < e) {rho : ℝ} (hrho : P.rho = .num rho) (hpos : 0 < rho) (hz : P.n_zeta_samples = n) (hn : 0 < n) (hm : 0 < m)
    (X : Fin m → Fin d → ℝ) (y : Fin m → ℝ) (l0 : LinMap d 1) {g g' : G} {D : DualLoss}
    (hD : dualize ext (torchArgs grads .logistic P false false (matT X) (some (matT fun i (_ : Fin 1) => y i)) (.softMargin l0)) g = .ok (D, g'))
    {s : Sampler} (hs : D.sampler = some s) {N : ℕ} (hN : l0.params.length = N) :
    ∃ (Zt Wt : Tensor ℝ) (gen : G) (Z : Fin n → Fin m → Fin d → ℝ) (W : Fin n → Fin m → ℝ) (top : ℝ), s.sample ext n g' = (Zt, some Wt, gen) ∧ IsTen Zt Z ∧
      IsTen Wt (fun j i (_ : Fin 1) => W j i) ∧ 0 < top ∧ ∀ (lr : ℝ) (back : Tape G → List ℝ × ℝ), 0 < lr → lr ≤ top →
      BackIs (torchArgs grads .logistic P false false (matT X) (some (matT fun i (_ : Fin 1) => y i))) D (.softMargin l0) gen
        (Zt, some Wt) back (logisticObjective (N := N) l0 D.cost rho D.epsilon P.l2_reg X y Z W) →
      ∀ (cfg : OCConfig) (fl : ℝ → ℝ) (T : ℕ) (p : ℤ), 0 < T → ∀ (oc : OCState) (M : Module d) (r : Solved (List ℝ)),
      solveTorch ext (descentTorch clip lr back) cfg fl (torchArgs grads .logistic P false false (matT X) (some (matT fun i (_ : Fin 1) => y i)))
        (.softMargin l0) (.inr (p, T)) oc g = .ok (M, r) →
      ∃ v0 v1 v2, Iterated (PreUpdate ext (descentTorch clip lr back) (torchArgs grads .logistic P false false (matT X) (some (matT fun i (_ : Fin 1) => y i))) D
          (.softMargin l0) gen (Zt, some Wt) true) p.toNat ⟨l0.params, D.lam, none, none, ()⟩ v1 ∧
        DualGuessed (torchArgs grads .logistic P false false (matT X) (some (matT fun i (_ : Fin 1) => y i))) D (.softMargin l0) v1 v2 ∧
        v2.params = List.ofFn v0 ∧
        ReachesOptimum cfg clip lr (logisticObjective (N := N) l0 D.cost rho D.epsilon P.l2_reg X y Z W) T v0 v2.lam (.softMargin l0) M r := by
  have hDn : D.nSamples = n := by
    obtain ⟨parsed, obj, c, s', -, -, -, -, rfl⟩ := dualize_ok hD
    show P.n_zeta_samples.toNat = n
    rw [hz]; simp
  have hfits : SamplerFits s m d 1 true := by
    obtain ⟨parsed, obj, c, s', -, -, -, hsm, rfl⟩ := dualize_ok hD
    have : s' = s := by simpa [dualOf] using hs
    subst this
    exact dualizeSampler_fits hsm rfl (by intro t ht; cases ht; rfl)
  obtain ⟨z1, z2, z3⟩ := sample_shapes ext hfits g' n
  obtain ⟨Wt, hW⟩ := Option.isSome_iff_exists.1 z2
  have hWs := z3 Wt hW
  have heps0 : 0 < D.epsilon := (dualize_labelled hD rfl rfl rfl hsig hrho hpos heps rfl one_pos (softMargin_rows l0) 0).1.eps_pos
  set Zt := (s.sample ext n g').1 with hZt
  set Z : Fin n → Fin m → Fin d → ℝ := fun j i k => Zt.get [j.1, i.1, k.1] with hZ
  set W : Fin n → Fin m → ℝ := fun j i => Wt.get [j.1, i.1, 0] with hWd
  obtain ⟨b, hb⟩ := (Set.finite_range fun q : Fin n × Fin m => W q.1 q.2 ^ 2 * (∑ k, Z q.1 q.2 k ^ 2 + 1)).bddAbove
  obtain ⟨K, hK⟩ := (Set.finite_range fun q : Fin n × Fin m =>
    |costAt D.cost (X q.2) (Z q.1 q.2) (fun (_ : Fin 1) => y q.2) (fun _ => W q.1 q.2)|).bddAbove
  have hb' : ∀ j i, W j i ^ 2 * (∑ k, Z j i k ^ 2 + 1) ≤ Real.sqrt (max b 0) ^ 2 := by
    intro j i
    rw [Real.sq_sqrt (le_max_right _ _)]
    exact le_max_of_le_left (hb ⟨(j, i), rfl⟩)
  have hK' : ∀ j i, |costAt D.cost (X i) (Z j i) (fun (_ : Fin 1) => y i) (fun _ => W j i)| ≤ K := fun j i => hK ⟨(j, i), rfl⟩
  set c := Real.sqrt (max b 0) ^ 2 / 4 + max P.l2_reg 0 + (Real.sqrt (max b 0) ^ 2 + K ^ 2) / D.epsilon with hc
  have hc0 : 0 ≤ c := by positivity
  refine ⟨Zt, Wt, (s.sample ext n g').2.2, Z, W, 1 / (c + 1), Prod.ext rfl (Prod.ext hW rfl), isTen_get z1, ⟨hWs, fun j i k => ?_⟩, by positivity, ?_⟩
  · have : k = 0 := Subsingleton.elim _ _
    subst this
    rfl
  · intro lr back h1 h2 h3 cfg fl T p h4 oc M r h5
    have h6 : lr * c ≤ 1 := by
      have h7 : lr * (c + 1) ≤ 1 := by
        rw [le_div_iff₀ (by linarith)] at h2; exact h2
      nlinarith
    exact C120_logistic hsig heps hrho hpos hz hn hm X y l0 hD hs (Prod.ext rfl (Prod.ext hW rfl)) (isTen_get z1) (W := W)
      ⟨hWs, fun j i k => by have : k = 0 := Subsingleton.elim _ _; subst this; rfl⟩ hb' hK' h1 h6 hN h3 (steps := .inr (p, T)) rfl rfl h4 oc h5

end

/-! ## The hypotheses are met -/

/-- an autograd whose gradients at the data also hold the parameters -/
noncomputable def thetaGrad (d : ℕ) : Autograd d := fun M x y => (⟨x.shape, fun i => M.theta.getD (i.headD 0) 0⟩, y)

theorem thetaGrad_shapes (d : ℕ) (M : Module d) : GradShapes (thetaGrad d M) :=
  fun x y => ⟨rfl, rfl, fun a b h1 h2 => by rw [h1] at h2; cases h2; rfl⟩

/-- Two-class logistic regression with default arguments and the pre-sampled solver, on any data, from any layer, with any generator and schedule: there are a backward
pass that gives exact gradients and a small learning rate with which the training returns and is optimal up to a constant over the number of iterations. -/
theorem descent_runs {G : Type} (ext : TorchExt G) {cfg : OCConfig} (hcfg : GradCond cfg) (clip : Bool) {m d : ℕ} (hm : 0 < m) (X : Fin m → Fin d → ℝ) (y : Fin m → ℝ) (oc : OCState) (l0 : LinMap d 1) (g : G) :
    ∃ (D : DualLoss) (g' : G) (s : Sampler) (Zt Wt : Tensor ℝ) (gen : G) (Z : Fin 10 → Fin m → Fin d → ℝ) (W : Fin 10 → Fin m → ℝ) (lr : ℝ)
      (back : Tape G → List ℝ × ℝ) (start : ℝ),
    dualize ext (torchArgs (thetaGrad d) .logistic EstKind.logistic.defaults false false (matT X) (some (matT fun i (_ : Fin 1) => y i))
      (.softMargin l0)) g = .ok (D, g') ∧ D.sampler = some s ∧ s.sample ext 10 g' = (Zt, some Wt, gen) ∧ IsTen Zt Z ∧ IsTen Wt (fun j i (_ : Fin 1) => W j i) ∧
    0 < D.epsilon ∧ 0 < lr ∧
    BackIs (torchArgs (thetaGrad d) .logistic EstKind.logistic.defaults false false (matT X) (some (matT fun i (_ : Fin 1) => y i))) D (.softMargin l0) gen
      (Zt, some Wt) back (logisticObjective (N := l0.params.length) l0 D.cost (1 / 100) D.epsilon EstKind.logistic.defaults.l2_reg X y Z W) ∧
    ∀ (p : ℤ) (T : ℕ), 0 < T → ∃ (M : Module d) (r : Solved (List ℝ)) (v0 : Fin l0.params.length → ℝ) (lam0 : ℝ),
      solveTorch ext (descentTorch clip lr back) cfg (fun x => x) (torchArgs (thetaGrad d) .logistic EstKind.logistic.defaults false false (matT X)
        (some (matT fun i (_ : Fin 1) => y i))) (.softMargin l0) (.inr (p, T)) oc g = .ok (M, r) ∧ (p = 0 → v0 = l0.params.get ∧ lam0 = start) ∧
      ReachesOptimum cfg clip lr (logisticObjective (N := l0.params.length) l0 D.cost (1 / 100) D.epsilon EstKind.logistic.defaults.l2_reg X y Z W) T v0 lam0
        (.softMargin l0) M r := by
  have h' := default_fitReady_labelled .logistic (by simp)
  have hlen : l0.params.length = l0.params.length := rfl
  have ha := torch_argsFit (thetaGrad_shapes d) .logistic EstKind.logistic.defaults false (mc := false) (X := matT X)
    (y := some (matT fun i (_ : Fin 1) => y i)) (k := 1) (M0 := .softMargin l0) rfl (by intro t ht; cases ht; rfl) ⟨rfl, rfl, rfl⟩
  have hr := torch_costReady (grads := thetaGrad d) (e := .logistic) (post := false) (mc := false) (X := matT X)
    (y := some (matT fun i (_ : Fin 1) => y i)) (M0 := .softMargin l0) h'
  obtain ⟨D, g', s, hD, hs, -⟩ := costReady_dualize (ext := ext) hr g
  have hsig : ∀ s, EstKind.logistic.defaults.sampler_reg = some s → 0 < s := h'.sigma
  have hrho : EstKind.logistic.defaults.rho = .num (1 / 100) := rfl
  have hpos : (0 : ℝ) < 1 / 100 := by norm_num
  have heps : ∀ e, EstKind.logistic.defaults.solver_reg = some e → 0 < e := fun e he => by cases he
  have hz : EstKind.logistic.defaults.n_zeta_samples = (10 : ℕ) := rfl
  have hn : 0 < 10 := by norm_num
  obtain ⟨Zt, Wt, gen, Z, W, top, k1, k2, k3, k4, k5⟩ := C120_small_rate hsig heps hrho hpos hz hn hm X y l0 hD hs hlen
  have heps0 : 0 < D.epsilon := (dualize_labelled hD rfl rfl rfl hsig hrho hpos heps rfl one_pos (softMargin_rows l0) 0).1.eps_pos
  set f := logisticObjective (N := l0.params.length) l0 D.cost (1 / 100) D.epsilon EstKind.logistic.defaults.l2_reg X y Z W with hf
  have hgrad : ∀ v l, ∃ q : (Fin l0.params.length → ℝ) × ℝ, IsGradAt f v l q.1 q.2 := by
    intro v l
    obtain ⟨b, hb⟩ := (Set.finite_range fun q : Fin 10 × Fin m => W q.1 q.2 ^ 2 * (∑ k, Z q.1 q.2 k ^ 2 + 1)).bddAbove
    obtain ⟨K, hK⟩ := (Set.finite_range fun q : Fin 10 × Fin m =>
      |costAt D.cost (X q.2) (Z q.1 q.2) (fun (_ : Fin 1) => y q.2) (fun _ => W q.1 q.2)|).bddAbove
    obtain ⟨a, al, h⟩ := smooth_exists_grad (C120_curvature (rho := 1 / 100) (r2 := EstKind.logistic.defaults.l2_reg) hn hm hlen D.cost heps0 (B := Real.sqrt (max b 0))
      (fun j i => by rw [Real.sq_sqrt (le_max_right _ _)]; exact le_max_of_le_left (hb ⟨(j, i), rfl⟩)) (fun j i => hK ⟨(j, i), rfl⟩)) v l
    exact ⟨(a, al), h⟩
  choose gr hgr using hgrad
  set back : Tape G → List ℝ × ℝ := fun t =>
    (List.ofFn (gr (fun k => (t.loss.grads (scalar 0) none).1.get [k.1]) t.loss.lam).1, (gr (fun k => (t.loss.grads (scalar 0) none).1.get [k.1]) t.loss.lam).2) with hback
  have hB : BackIs (torchArgs (thetaGrad d) .logistic EstKind.logistic.defaults false false (matT X) (some (matT fun i (_ : Fin 1) => y i))) D (.softMargin l0) gen
      (Zt, some Wt) back f := by
    intro v l
    refine ⟨(gr v l).1, (gr v l).2, ?_, hgr v l⟩
    have e : (fun k : Fin l0.params.length => ((lossFor (torchArgs (thetaGrad d) .logistic EstKind.logistic.defaults false false (matT X)
        (some (matT fun i (_ : Fin 1) => y i))) D (.softMargin l0) false (⟨List.ofFn v, l, none, none, ()⟩ : OptView Unit)).grads (scalar 0) none).1.get [k.1]) = v := by
      funext k
      have e1 : (l0.withParams (List.ofFn v)).params = List.ofFn v := linMap_params_withParams l0 (by simpa using hlen.symm)
      show (l0.withParams (List.ofFn v)).params.getD k.1 0 = v k
      rw [e1, getD_ofFn k.2]
    rw [hback]
    dsimp only
    rw [e]
    rfl
  set args := torchArgs (thetaGrad d) .logistic EstKind.logistic.defaults false false (matT X) (some (matT fun i (_ : Fin 1) => y i)) with hargs
  set start : ℝ := match initialGuess (lossFor args D (.softMargin l0) false (⟨l0.params, D.lam, none, none, ()⟩ : OptView Unit)) (args (.softMargin l0)).xi
    (args (.softMargin l0)).xi_labels with | .ok D' => D'.lam | .error _ => 0 with hstart
  refine ⟨D, g', s, Zt, Wt, gen, Z, W, top, back, start, hD, hs, k1, k2, k3, heps0, k4, hB, fun p T hT => ?_⟩
  obtain ⟨M, r, h1, -⟩ := C86_fits_return_partial (ext := ext) (fl := fun x => x) (steps := .inr (p, T)) (descent_good clip top back)
    ha hr h'.rho (by simpa [toSteps, Steps.iterations] using hT) (gradCond_ready hcfg oc _ _) g
  obtain ⟨v0, v1, v2, i1, i2, i3, h2⟩ := k5 top back k4 le_rfl hB cfg (fun x => x) T p hT oc M r h1
  refine ⟨M, r, v0, v2.lam, h1, fun hp => ?_, h2⟩
  subst hp
  cases i1
  obtain ⟨D', j1, rfl⟩ := i2
  refine ⟨?_, ?_⟩
  · exact List.ofFn_injective (by rw [← i3, List.ofFn_get])
  · rw [hstart, j1]

/-- in particular with the default schedule -/
theorem descent_applies (clip : Bool) {m d : ℕ} (hm : 0 < m) (X : Fin m → Fin d → ℝ) (y : Fin m → ℝ) (oc : OCState) : ∃ (lr : ℝ) (back : Tape ℕ → List ℝ × ℝ) (M : Module d)
    (r : Solved (List ℝ)) (N : ℕ) (f : (Fin N → ℝ) → ℝ → ℝ) (v0 : Fin N → ℝ) (lam0 : ℝ), 0 < lr ∧
    solveTorch counterExt (descentTorch clip lr back) defaultCond (fun x => x) (torchArgs (thetaGrad d) .logistic EstKind.logistic.defaults false false (matT X)
      (some (matT fun i (_ : Fin 1) => y i))) (.softMargin ⟨fun _ _ => 3, some fun _ => 1⟩) (.inr (100, 10)) oc 7 = .ok (M, r) ∧
    ReachesOptimum defaultCond clip lr f 10 v0 lam0 (.softMargin ⟨fun _ _ => 3, some fun _ => 1⟩) M r := by
  obtain ⟨D, g', s, Zt, Wt, gen, Z, W, lr, back, start, -, -, -, -, -, -, h1, -, h2⟩ := descent_runs counterExt defaultCond_grad clip hm X y oc ⟨fun _ _ => 3, some fun _ => 1⟩ 7
  obtain ⟨M, r, v0, lam0, h3, -, h4⟩ := h2 100 10 (by norm_num)
  exact ⟨lr, back, M, r, _, _, v0, lam0, h1, h3, h4⟩

end Skwdro
