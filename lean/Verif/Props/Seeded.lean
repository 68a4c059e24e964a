import Verif.Lemmas.Objective
import Verif.Props.OnlineRegret

/-! # C126: post-sampled training with a seed descends one fixed robust loss -/

namespace Skwdro
open Spec Tensor

section
variable {G O : Type} {d : ℕ} {ext : TorchExt G} {T : Torch G O} {cfg : OCConfig} {fl : ℝ → ℝ} {args : Module d → DualizeArgs}
  {M0 : Module d} {D : DualLoss} {k : ℤ}

/-- a post-sampled forward pass, by the samples it draws -/
theorem postForward_samples {xi : Tensor ℝ} {y : Option (Tensor ℝ)} {s : Sampler} (hs : D.sampler = some s) {g g' : G} {q : DualVal} {D' : DualLoss}
    (h : postForward ext D xi y false g = .ok (q, D', g')) :
    computeDual ext D xi y (s.sample ext D.nSamples g).1 (s.sample ext D.nSamples g).2.1 = .ok q := by
  have e : ({ D with sampler := some s } : DualLoss) = D := by rw [← hs]
  unfold postForward at h
  rw [hs] at h
  simp only [Bool.false_eq_true, if_false, ok_bind, e] at h
  have key : ∀ (z : Tensor ℝ × Option (Tensor ℝ) × G), (do
      let v ← computeDual ext D xi y z.1 z.2.1
      (.ok (v, D, z.2.2) : Except PyErr (DualVal × DualLoss × G))) = .ok (q, D', g') → computeDual ext D xi y z.1 z.2.1 = .ok q := by
    intro z hz
    cases hc : computeDual ext D xi y z.1 z.2.1 with
    | error e => simp [hc] at hz
    | ok v =>
      simp only [hc, ok_bind, Except.ok.injEq, Prod.mk.injEq] at hz
      rw [hz.1]
  cases hr : D.rho with
  | nan =>
    rw [hr] at h
    exact key _ h
  | num rho =>
    rw [hr] at h
    dsimp only at h
    split at h
    · cases h
    · split at h
      · next h0 =>
        subst h0
        simp only [computeDual, hr, true_or, if_true, ermBranch]
        cases hc : D.primal xi.unsqueeze0 (maybeUnsqueeze y) with
        | error e => simp [hc] at h
        | ok b =>
          rw [hc] at h
          simp only [ok_bind] at h ⊢
          cases hl : reduceLossBatch D.reduction b.squeeze0 with
          | error e => simp [hl] at h
          | ok l =>
            rw [hl] at h
            simp only [ok_bind, Except.ok.injEq, Prod.mk.injEq] at h ⊢
            exact h.1
      · exact key _ h

/-- a step of the post-sampled training with a seed -/
theorem postUpdate_fixed (hst : Steady ext D (args M0).xi (args M0).xi_labels) {s : Sampler} (hs : D.sampler = some s) (hk : s.seed = some k) {x : XNum ℝ}
    {a b : OptView O × G} (h : PostUpdate ext T args D M0 x a b) :
    FixedUpdate ext T args D M0 (ext.seed k) ((s.sample ext D.nSamples (ext.seed k)).1, (s.sample ext D.nSamples (ext.seed k)).2.1) x a.1 b.1 := by
  obtain ⟨q, D', h1, h2, h3⟩ := h
  have e : D.seeded ext a.2 = ext.seed k := by simp only [DualLoss.seeded, hs, Option.bind_some, hk, seedGlobal]
  have hst' : Steady ext (lossFor args D M0 false a.1) (args M0).xi (args M0).xi_labels := hst
  rw [postForward_steady hst'] at h1
  have e' : (lossFor args D M0 false a.1).seeded ext a.2 = ext.seed k := e
  rw [e'] at h1
  rw [e] at h3
  exact ⟨q, postForward_samples (D := lossFor args D M0 false a.1) hs h1, h2, h3⟩

/-- **C126** Post-sampled training of a loss with a seed `k`, whatever the optimizer, the schedule and the optimality condition.  Let `Z` be the samples drawn by its
sampler from the generator just seeded with `k`.  Every step of the training, in the pre-training and in the robust phase, is on these same samples: it is a
training on the one robust loss of `Z`. -/
theorem C126_fixed_samples (hT : InPlace T) {g g' : G} (hD : dualize ext (args M0) g = .ok (D, g')) (hpost : (args M0).post_sample = true)
    (hseed : (args M0).seed = some k) {steps : ℤ ⊕ (ℤ × ℤ)} {p q : ℤ} (hi : interpretSteps fl split03 (toSteps steps) = .ok (p, q))
    {n : ℕ} (hn : (toSteps steps).iterations = n) (hn0 : 0 < n) (oc : OCState) {M : Module d} {r : Solved (List ℝ)}
    (h : solveTorch ext T cfg fl args M0 steps oc g = .ok (M, r)) :
    ∃ s Z g1 v1 v2 v3 oc', D.sampler = some s ∧ s.sample ext D.nSamples (ext.seed k) = (Z.1, Z.2, g1) ∧
      Iterated (fun a b => ∃ x, FixedUpdate ext T args D M0 (ext.seed k) Z x a b) p.toNat ⟨M0.theta, D.lam, none, none, T.o0⟩ v1 ∧
      DualGuessed args D M0 v1 v2 ∧ Trained (FixedIter ext T cfg n args D M0 (ext.seed k) Z) n 0 (v2, oc) (v3, oc') r.robust_loss ∧
      r.coef = v3.params ∧ r.dual_var = (if (args M0).rho.isPos then v3.lam else 0) ∧ M = M0.withParams v3.params ∧ r.intercept = some [0] := by
  obtain ⟨v1, g1, v2, v3, g3, oc', h1, h2, h3, h4⟩ := C101_postsampled hT hD hpost hi hn hn0 oc h
  obtain ⟨s, hs, -, -, -, -, hk⟩ := dualize_sampler hD
  rw [hseed] at hk
  have hst := dualize_steady hD
  refine ⟨s, ((s.sample ext D.nSamples (ext.seed k)).1, (s.sample ext D.nSamples (ext.seed k)).2.1), _, v1, v2, v3, oc', hs, rfl, ?_, h2, ?_, h4⟩
  · have key : ∀ {j : ℕ} {a b : OptView O × G}, Iterated (fun a b => ∃ x, PostUpdate ext T args D M0 x a b) j a b →
        Iterated (fun a b => ∃ x, FixedUpdate ext T args D M0 (ext.seed k) ((s.sample ext D.nSamples (ext.seed k)).1, (s.sample ext D.nSamples (ext.seed k)).2.1) x a b)
          j a.1 b.1 := by
      intro j a b hj
      induction hj with
      | zero v => exact .zero _
      | succ n v w u h1 _ ih =>
        obtain ⟨x, hx⟩ := h1
        exact .succ _ _ _ _ ⟨x, postUpdate_fixed hst hs hk hx⟩ ih
    exact key h1
  · have key : ∀ {j : ℕ} {a b : (OptView O × G) × OCState} {x : XNum ℝ}, Trained (PostIter ext T cfg n args D M0) n j a b x →
        Trained (FixedIter ext T cfg n args D M0 (ext.seed k) ((s.sample ext D.nSamples (ext.seed k)).1, (s.sample ext D.nSamples (ext.seed k)).2.1)) n j
          (a.1.1, a.2) (b.1.1, b.2) x := by
      intro j a b x hj
      induction hj with
      | last k s t x b h1 h2 h3 => exact .last _ _ _ _ _ h1 h2 ⟨postUpdate_fixed hst hs hk h3.1, h3.2⟩
      | next k s t u x y h1 h2 _ ih => exact .next _ _ _ _ _ _ h1 ⟨postUpdate_fixed hst hs hk h2.1, h2.2⟩ ih
    exact key h3

/-- **C126** (without a seed) Without a seed, a step of the post-sampled training draws its samples from the present state of the generator, and leaves it in the state
after the draw; for a non-zero radius. -/
theorem C126_unseeded {g g' : G} (hD : dualize ext (args M0) g = .ok (D, g')) (hseed : (args M0).seed = none) (hrho : D.rho ≠ .num 0) {x : XNum ℝ}
    {a b : OptView O × G} (h : PostUpdate ext T args D M0 x a b) :
    ∃ s, D.sampler = some s ∧ b.2 = (s.sample ext D.nSamples a.2).2.2 ∧
      FixedUpdate ext T args D M0 a.2 ((s.sample ext D.nSamples a.2).1, (s.sample ext D.nSamples a.2).2.1) x a.1 b.1 := by
  obtain ⟨s, hs, -, -, -, -, hk⟩ := dualize_sampler hD
  rw [hseed] at hk
  have hst := dualize_steady hD
  obtain ⟨q, D', h1, h2, h3⟩ := h
  have e : D.seeded ext a.2 = a.2 := by simp only [DualLoss.seeded, hs, Option.bind_some, hk, seedGlobal]
  have hst' : Steady ext (lossFor args D M0 false a.1) (args M0).xi (args M0).xi_labels := hst
  have e' : (lossFor args D M0 false a.1).seeded ext a.2 = a.2 := e
  rw [postForward_steady hst', e'] at h1
  rw [e] at h3
  refine ⟨s, hs, ?_, q, postForward_samples (D := lossFor args D M0 false a.1) hs h1, h2, h3⟩
  have key : ∀ {L : DualLoss} {y : Option (Tensor ℝ)} {xi : Tensor ℝ} {D' : DualLoss} {g' : G}, L.sampler = some s → L.rho ≠ .num 0 → postForward ext L xi y false a.2 = .ok (q, D', g') →
      g' = (s.sample ext L.nSamples a.2).2.2 := by
    intro L y xi D' g' hs hr h
    have e : ({ L with sampler := some s } : DualLoss) = L := by rw [← hs]
    unfold postForward at h
    rw [hs] at h
    simp only [Bool.false_eq_true, if_false, ok_bind, e] at h
    have key : ∀ (z : Tensor ℝ × Option (Tensor ℝ) × G), (do
        let v ← computeDual ext L xi y z.1 z.2.1
        (.ok (v, L, z.2.2) : Except PyErr (DualVal × DualLoss × G))) = .ok (q, D', g') → g' = z.2.2 := by
      intro z hz
      cases hc : computeDual ext L xi y z.1 z.2.1 with
      | error e => simp [hc] at hz
      | ok v =>
        simp only [hc, ok_bind, Except.ok.injEq, Prod.mk.injEq] at hz
        rw [hz.2.2]
    cases hr' : L.rho with
    | nan => rw [hr'] at h; exact key _ h
    | num rho =>
      rw [hr'] at h
      dsimp only at h
      split at h
      · cases h
      · split at h
        · next h0 => subst h0; exact absurd hr' hr
        · exact key _ h
  exact key (L := lossFor args D M0 false a.1) hs hrho h1

end

section
variable {G : Type} {d N : ℕ} {ext : TorchExt G} {cfg : OCConfig} {fl : ℝ → ℝ} {args : Module d → DualizeArgs}
  {M0 : Module d} {D : DualLoss} {Z : Tensor ℝ × Option (Tensor ℝ)} {gen : G} {clip : Bool} {lr beta : ℝ} {back : Tape G → List ℝ × ℝ}
  {f : (Fin N → ℝ) → ℝ → ℝ}

theorem fixed_iter (hf : LossIs ext args D M0 Z f)
    (hb : ∀ v l, ∃ g gl, back ⟨lossFor args D M0 false (⟨List.ofFn v, l, none, none, ()⟩ : OptView Unit), gen, none⟩ = (List.ofFn g, gl) ∧ IsGradAt f v l g gl)
    {n : ℤ} {k : ℕ} {s t : OptView Unit × OCState} {x : XNum ℝ} {b : Bool} (h : FixedIter ext (descentTorch clip lr back) cfg n args D M0 gen Z k s t x b)
    {v : Fin N → ℝ} (hv : s.1.params = List.ofFn v) :
    ∃ g gl, IsGradAt f v s.1.lam g gl ∧ t.1.params = List.ofFn (fun k => v k - lr * g k) ∧ t.1.lam = clipped clip (s.1.lam - lr * gl) ∧
      x = .fin (f v s.1.lam) ∧
      (b = true → ∃ m m', ocCall cfg m ⟨0, fun _ => t.1.lam, t.1.lgrad, [(t.1.params, t.1.pgrad)], n⟩ k = (.ok true, m')) := by
  obtain ⟨⟨q, h1, h2, h3⟩, h4⟩ := h
  obtain ⟨g, gl, hg1, hg2⟩ := hb v s.1.lam
  have e : lossFor args D M0 false s.1 = lossFor args D M0 false (⟨List.ofFn v, s.1.lam, none, none, ()⟩ : OptView Unit) := by
    simp only [lossFor, hv]
  obtain ⟨T, hT1, hT2, hT3⟩ := hf v s.1.lam
  have hx : x = .fin (f v s.1.lam) := by
    rw [e, hT1] at h1
    simp only [Except.ok.injEq] at h1
    subst h1
    have hl : T.toList = [T.get []] := by
      cases T with
      | mk shape get => cases hT2; rfl
    simp only [DualVal.item, hl, Except.ok.injEq] at h2
    rw [← h2, hT3]
  have ht : t.1.params = List.ofFn (fun k => v k - lr * g k) ∧ t.1.lam = clipped clip (s.1.lam - lr * gl) := by
    have h5 : t.1 = descentStep clip lr (withGrad (descentTorch clip lr back) s.1 ⟨lossFor args D M0 false s.1, gen, none⟩) := by
      simp only [descentTorch, Except.ok.injEq] at h3
      exact h3.symm
    rw [h5]
    simp only [descentStep, withGrad, descentTorch, e, hg1, Option.getD_some, hv, mapIdx_ofFn_sub, and_self]
  refine ⟨g, gl, hg2, ht.1, ht.2, hx, fun hbt => ?_⟩
  subst hbt
  unfold Verdict at h4
  rw [if_neg (by rw [hx]; simp)] at h4
  exact ⟨_, _, h4⟩

theorem gap2_nonneg (v : Fin N → ℝ) (l : ℝ) (q : Fin N → ℝ) (lq : ℝ) : 0 ≤ gap2 v l q lq := by
  unfold gap2; positivity

/-- the iterations of gradient descent, when the loss is taken before each step -/
theorem fixed_trained (hf : LossIs ext args D M0 Z f)
    (hb : ∀ v l, ∃ g gl, back ⟨lossFor args D M0 false (⟨List.ofFn v, l, none, none, ()⟩ : OptView Unit), gen, none⟩ = (List.ofFn g, gl) ∧ IsGradAt f v l g gl)
    (hs : SmoothConvex f beta) (hl : 0 < lr) (hlb : lr * beta ≤ 1) {n k : ℕ} {s u : OptView Unit × OCState} {x : XNum ℝ}
    (h : Trained (FixedIter ext (descentTorch clip lr back) cfg n args D M0 gen Z) n k s u x) : ∀ v : Fin N → ℝ, s.1.params = List.ofFn v →
    ∃ j w y, k + (j + 1) ≤ n ∧ u.1.params = List.ofFn w ∧ x = .fin y ∧ (clip = true → 0 ≤ u.1.lam) ∧ ((clip = true → 0 ≤ s.1.lam) → f w u.1.lam ≤ y ∧ y ≤ f v s.1.lam) ∧
      (1 ≤ j → f w u.1.lam ≤ y) ∧
      (∀ q lq, (clip = true → 0 ≤ lq) → 2 * lr * (j + 1) * (f w u.1.lam - f q lq) ≤ gap2 v s.1.lam q lq - gap2 w u.1.lam q lq) ∧
      (∀ q lq, (clip = true → 0 ≤ lq) → 2 * lr * j * (y - f q lq) ≤ gap2 v s.1.lam q lq) ∧
      (k + (j + 1) < n → ∃ m m', ocCall cfg m ⟨0, fun _ => u.1.lam, u.1.lgrad, [(u.1.params, u.1.pgrad)], n⟩ ((k + j : ℕ) : ℤ) = (.ok true, m')) := by
  induction h with
  | last k s t x b hk hb' hI =>
    intro v hv
    obtain ⟨g, gl, h1, h2, h3, h4, h5⟩ := fixed_iter hf hb hI hv
    obtain ⟨h6, h7⟩ := descent_step (clip := clip) hs hl hlb h1
    refine ⟨0, _, _, by omega, h2, h4, fun hc => by rw [h3]; exact clipped_nonneg hc _, fun hc => ⟨by rw [h3]; exact h6 hc, le_rfl⟩, fun h => by omega,
      fun q lq hq => by rw [h3]; simpa using h7 q lq hq, fun q lq _ => by simpa using gap2_nonneg _ _ _ _, fun hlt => ?_⟩
    rcases hb' with rfl | hb'
    · simpa using h5 rfl
    · omega
  | next k s t u x y hk hI _ ih =>
    intro v hv
    obtain ⟨g, gl, h1, h2, h3, h4, h5⟩ := fixed_iter hf hb hI hv
    obtain ⟨h6, h7⟩ := descent_step (clip := clip) hs hl hlb h1
    obtain ⟨j, w, z, i2, i3, i4, i0, i5, i9, i6, i8, i7⟩ := ih _ h2
    rw [h3] at i5 i6 i8
    obtain ⟨i10, i11⟩ := i5 fun hc => clipped_nonneg hc _
    refine ⟨j + 1, w, z, by omega, i3, i4, i0, fun h => ⟨i10, i11.trans (h6 h)⟩, fun _ => i10, fun q lq hq => ?_, fun q lq hq => ?_, fun hlt => ?_⟩
    · have h8 := h7 q lq hq
      have h9 := i6 q lq hq
      push_cast
      nlinarith
    · have h8 := h7 q lq hq
      have h9 := i8 q lq hq
      have h10 := gap2_nonneg (fun k => v k - lr * g k) (clipped clip (s.1.lam - lr * gl)) q lq
      push_cast
      nlinarith
    · rw [show k + (j + 1) = k + 1 + j by omega]
      exact i7 (by omega)

/-- **C126** (rate) So, with gradient descent on a loss which is convex with curvature at most `beta` and with a learning rate at most `1 / beta`, post-sampled training
with a seed nears the optimum of the robust loss on the samples of this seed, at the rate of the inverse of the number of robust iterations, like pre-sampled
training. -/
theorem C126_rate {k : ℤ} {g g' gen : G} (hD : dualize ext (args M0) g = .ok (D, g')) {s0 : Sampler} (hs : D.sampler = some s0)
    (hpost : (args M0).post_sample = true) (hseed : (args M0).seed = some k) (hrho : (args M0).rho.isPos = true) {steps : ℤ ⊕ (ℤ × ℤ)} {p q0 : ℤ}
    (hst : interpretSteps fl split03 (toSteps steps) = .ok (p, q0)) {n : ℕ} (hn : (toSteps steps).iterations = n) (hn0 : 0 < n) (oc : OCState)
    (hZ : s0.sample ext D.nSamples (ext.seed k) = (Z.1, Z.2, gen)) (hN : M0.theta.length = N) (hf : LossIs ext args D M0 Z f)
    (hb : PostBackIs ext args D M0 back fun _ => IsGradAt f) (hsm : SmoothConvex f beta) (hl : 0 < lr) (hlb : lr * beta ≤ 1)
    {M : Module d} {r : Solved (List ℝ)} (h : solveTorch ext (descentTorch clip lr back) cfg fl args M0 steps oc g = .ok (M, r)) :
    ∃ v0 v1 v2, Iterated (fun a b => ∃ x, FixedUpdate ext (descentTorch clip lr back) args D M0 (ext.seed k) Z x a b) p.toNat
        ⟨M0.theta, D.lam, none, none, ()⟩ v1 ∧
      DualGuessed args D M0 v1 v2 ∧ v2.params = List.ofFn v0 ∧ NearsOptimum cfg clip lr f n v0 v2.lam M0 M r := by
  obtain ⟨s, Z', g1, v1, v2, v4, oc', h0, h1, h2, h3, h5, h6, h7, h8, -⟩ := C126_fixed_samples (descent_inPlace clip lr back) hD hpost hseed hst hn hn0 oc h
  obtain rfl : s0 = s := by rw [hs] at h0; simpa using h0
  rw [hZ] at h1
  simp only [Prod.mk.injEq] at h1
  obtain ⟨e1, e2, rfl⟩ := h1
  obtain rfl : Z = Z' := Prod.ext e1 e2
  have hlen : ∀ (j : ℕ) (a b : OptView Unit), Iterated (fun a b => ∃ x, FixedUpdate ext (descentTorch clip lr back) args D M0 (ext.seed k) Z x a b) j a b →
      b.params.length = a.params.length := by
    intro j a b hj
    induction hj with
    | zero => rfl
    | succ _ _ _ _ h1 _ ih =>
      obtain ⟨x, q, -, -, h1⟩ := h1
      refine ih.trans ?_
      simp only [descentTorch, Except.ok.injEq] at h1
      rw [← h1]
      simp [descentStep, withGrad]
  have h9 : v2.params.length = N := by
    obtain ⟨D', -, rfl⟩ := h3
    rw [← hN]
    exact hlen _ _ _ h2
  obtain ⟨v0, hv0⟩ : ∃ v0 : Fin N → ℝ, v2.params = List.ofFn v0 := by
    subst h9
    exact ⟨v2.params.get, (List.ofFn_get _).symm⟩
  have hk : s0.seed = some k := by
    obtain ⟨s, hs', -, -, -, -, hk⟩ := dualize_sampler hD
    rw [hs] at hs'
    cases hs'
    exact hk.trans hseed
  have hb' : ∀ v l, ∃ g gl, back ⟨lossFor args D M0 false (⟨List.ofFn v, l, none, none, ()⟩ : OptView Unit), ext.seed k, none⟩ = (List.ofFn g, gl) ∧ IsGradAt f v l g gl := by
    intro v l
    have := hb g v l
    rwa [show D.seeded ext g = ext.seed k by simp only [DualLoss.seeded, hs, Option.bind_some, hk, seedGlobal]] at this
  obtain ⟨j, w, y, i1, i2, i3, i4, i5, i0, i6, i8, i7⟩ := fixed_trained hf hb' hsm hl hlb h5 v0 hv0
  rw [hrho, if_pos rfl] at h7
  simp only at i2 i3 i4 i5 i6 i7 i8 i0
  rw [← h7] at i4 i5 i6 i7
  refine ⟨v0, v1, v2, h2, h3, hv0, w, j + 1, y, h6.trans i2, by rw [h6]; exact h8, i3, i4, by omega, by omega, fun hk => ?_, i5, fun q lq hq => ?_, fun hk q lq hq => ?_⟩
  · obtain ⟨m, m', h⟩ := i7 (by omega)
    rw [← h6, zero_add] at h
    exact ⟨m, m', _, _, h⟩
  · have hk : (0 : ℝ) < j + 1 := by positivity
    have h10 := i6 q lq hq
    rw [← sub_nonneg]
    push_cast
    have e : f q lq + gap2 v0 v2.lam q lq / (2 * lr * (j + 1)) - (f w r.dual_var + gap2 w r.dual_var q lq / (2 * lr * (j + 1))) =
        (gap2 v0 v2.lam q lq - gap2 w r.dual_var q lq - 2 * lr * (j + 1) * (f w r.dual_var - f q lq)) / (2 * lr * (j + 1)) := by
      field_simp; ring
    rw [e]
    exact div_nonneg (by linarith) (by positivity)
  · have hk : (0 : ℝ) < j := by
      have : 0 < j := by omega
      exact_mod_cast this
    have h10 := i8 q lq hq
    push_cast
    rw [add_sub_cancel_right, ← sub_le_iff_le_add', le_div_iff₀ (by positivity)]
    linarith

end

section
variable {G : Type} {ext : TorchExt G} {cfg : OCConfig} {fl : ℝ → ℝ} {clip : Bool}

/-- **C126** (logistic regression) Post-sampled two-class logistic regression with a cost for which importance sampling is off, trained by gradient descent with exact
gradients from any initial layer, on any data: its estimator always has a seed, so that this is a descent of the robust logistic loss on the samples drawn after
this seeding.  With a learning rate below the inverse of `B ^ 2 / 4 + l2_reg + (B ^ 2 + K ^ 2) / epsilon` (where `w ^ 2 (|z| ^ 2 + 1) ≤ B ^ 2` for all samples `z` with
label `w`, and `K` bounds the ground cost), the training nears the optimum of this loss. -/
theorem C126_logistic {m d n : ℕ} {grads : Autograd d} {P : EstParams} (hsig : ∀ s, P.sampler_reg = some s → 0 < s)
    (heps : ∀ e, P.solver_reg = some e → 0 < e) {rho : ℝ} (hrho : P.rho = .num rho) (hpos : 0 < rho) (hz : P.n_zeta_samples = n) (hn : 0 < n) (hm : 0 < m)
    (X : Fin m → Fin d → ℝ) (y : Fin m → ℝ) (l0 : LinMap d 1) {g g' gen : G} {D : DualLoss}
    (hD : dualize ext (torchArgs grads .logistic P true false (matT X) (some (matT fun i (_ : Fin 1) => y i)) (.softMargin l0)) g = .ok (D, g'))
    (himp : D.impSamp = false) {s : Sampler} (hs : D.sampler = some s) {Z : Fin n → Fin m → Fin d → ℝ} {W : Fin n → Fin m → ℝ} {Zt Wt : Tensor ℝ}
    (hZ : s.sample ext n (ext.seed P.random_state) = (Zt, some Wt, gen)) (hZt : IsTen Zt Z) (hWt : IsTen Wt fun j i (_ : Fin 1) => W j i) {B K lr : ℝ}
    (hB : ∀ j i, W j i ^ 2 * (∑ k, Z j i k ^ 2 + 1) ≤ B ^ 2)
    (hK : ∀ j i, |costAt D.cost (X i) (Z j i) (fun (_ : Fin 1) => y i) (fun _ => W j i)| ≤ K)
    (hl : 0 < lr) (hlr : lr * (B ^ 2 / 4 + max P.l2_reg 0 + (B ^ 2 + K ^ 2) / D.epsilon) ≤ 1) {N : ℕ} (hN : l0.params.length = N)
    {back : Tape G → List ℝ × ℝ}
    (hback : PostBackIs ext (torchArgs grads .logistic P true false (matT X) (some (matT fun i (_ : Fin 1) => y i))) D (.softMargin l0) back
      fun _ => IsGradAt (logisticObjective (N := N) l0 D.cost rho D.epsilon P.l2_reg X y Z W))
    {steps : ℤ ⊕ (ℤ × ℤ)} {p q0 : ℤ} (hst : interpretSteps fl split03 (toSteps steps) = .ok (p, q0))
    {T : ℕ} (hT : (toSteps steps).iterations = T) (hT0 : 0 < T) (oc : OCState) {M : Module d} {r : Solved (List ℝ)}
    (h : solveTorch ext (descentTorch clip lr back) cfg fl (torchArgs grads .logistic P true false (matT X) (some (matT fun i (_ : Fin 1) => y i)))
      (.softMargin l0) steps oc g = .ok (M, r)) :
    ∃ v0 v1 v2, Iterated (fun a b => ∃ x, FixedUpdate ext (descentTorch clip lr back) (torchArgs grads .logistic P true false (matT X)
        (some (matT fun i (_ : Fin 1) => y i))) D (.softMargin l0) (ext.seed P.random_state) (Zt, some Wt) x a b) p.toNat ⟨l0.params, D.lam, none, none, ()⟩ v1 ∧
      DualGuessed (torchArgs grads .logistic P true false (matT X) (some (matT fun i (_ : Fin 1) => y i))) D (.softMargin l0) v1 v2 ∧
      v2.params = List.ofFn v0 ∧
      NearsOptimum cfg clip lr (logisticObjective (N := N) l0 D.cost rho D.epsilon P.l2_reg X y Z W) T v0 v2.lam (.softMargin l0) M r := by
  have heps0 : 0 < D.epsilon := (dualize_labelled_off hD rfl rfl himp hsig hrho hpos heps rfl one_pos (softMargin_rows l0) 0).1.eps_pos
  have hDn : D.nSamples = n := by
    obtain ⟨parsed, obj, c, s', -, -, -, -, rfl⟩ := dualize_ok hD
    show P.n_zeta_samples.toNat = n
    rw [hz]; simp
  exact C126_rate hD hs rfl rfl (by show P.rho.isPos = true; rw [hrho]; simpa [Radius.isPos] using hpos) hst hT hT0 oc (Z := (Zt, some Wt))
    (by rw [hDn]; exact hZ) hN (logistic_lossIs hsig heps hrho hpos hn hm X y l0 hD himp hZt hWt hN) hback
    (C120_curvature hn hm hN D.cost heps0 hB hK) hl hlr h

end

/-- Two-class logistic regression with the post-sampled solver and its default schedule, on any data, from any layer and with any generator: there are a backward pass
that gives exact gradients and a small learning rate with which the training returns and nears the optimum. -/
theorem seeded_applies {G : Type} (ext : TorchExt G) (clip : Bool) {m d : ℕ} (hm : 0 < m) (X : Fin m → Fin d → ℝ) (y : Fin m → ℝ) (oc : OCState) (l0 : LinMap d 1) (g : G) :
    ∃ (lr : ℝ) (back : Tape G → List ℝ × ℝ) (M : Module d) (r : Solved (List ℝ)) (D : DualLoss) (Z : Fin 10 → Fin m → Fin d → ℝ) (W : Fin 10 → Fin m → ℝ)
      (v0 : Fin l0.params.length → ℝ) (lam0 : ℝ), 0 < lr ∧ 0 < D.epsilon ∧
    solveTorch ext (descentTorch clip lr back) defaultCond (fun x => x) (torchArgs (thetaGrad d) .logistic exPlain true false (matT X)
      (some (matT fun i (_ : Fin 1) => y i))) (.softMargin l0) (.inr (200, 2800)) oc g = .ok (M, r) ∧
    NearsOptimum defaultCond clip lr (logisticObjective (N := l0.params.length) l0 D.cost (1 / 100) D.epsilon exPlain.l2_reg X y Z W) 2800 v0 lam0
      (.softMargin l0) M r := by
  have h' := exPlain_ready
  have hlen : l0.params.length = l0.params.length := rfl
  have ha := torch_argsFit (thetaGrad_shapes d) .logistic exPlain true (mc := false) (X := matT X)
    (y := some (matT fun i (_ : Fin 1) => y i)) (k := 1) (M0 := .softMargin l0) rfl (by intro t ht; cases ht; rfl) ⟨rfl, rfl, rfl⟩
  have hr := torch_costReady (grads := thetaGrad d) (e := .logistic) (post := true) (mc := false) (X := matT X)
    (y := some (matT fun i (_ : Fin 1) => y i)) (M0 := .softMargin l0) h'
  obtain ⟨D, g', s, hD, hs, -⟩ := costReady_dualize (ext := ext) hr g
  have hsig : ∀ s, exPlain.sampler_reg = some s → 0 < s := h'.sigma
  have hrho : exPlain.rho = .num (1 / 100) := rfl
  have hpos : (0 : ℝ) < 1 / 100 := by norm_num
  have heps : ∀ e, exPlain.solver_reg = some e → 0 < e := fun e he => by cases he
  have hn : 0 < 10 := by norm_num
  have himp : D.impSamp = false := by
    obtain ⟨parsed, obj, c, s', hp, -, -, -, rfl⟩ := dualize_ok hD
    have e : parse_code_torch (some exPlain.cost) true = .ok parsed := hp
    rw [show exPlain.cost = "t-NLC-1-2".toList from rfl, show parse_code_torch (some "t-NLC-1-2".toList) true = _ from code_parse "NLC".toList 1 2 (by decide) true] at e
    simp only [Except.ok.injEq] at e
    subst e
    simp [dualOf, decideOnImpsamp, ParsedCost.can_imp_samp, XNum.eqLit]
  have hfits : SamplerFits s m d 1 true := by
    obtain ⟨parsed, obj, c, s', -, -, -, hsm, rfl⟩ := dualize_ok hD
    have : s' = s := by simpa [dualOf] using hs
    subst this
    exact dualizeSampler_fits hsm rfl (by intro t ht; cases ht; rfl)
  have heps0 : 0 < D.epsilon := (dualize_labelled_off hD rfl rfl himp hsig hrho hpos heps rfl one_pos (softMargin_rows l0) 0).1.eps_pos
  obtain ⟨z1, z2, z3⟩ := sample_shapes ext hfits (ext.seed exPlain.random_state) 10
  obtain ⟨Wt, hW⟩ := Option.isSome_iff_exists.1 z2
  have hWs := z3 Wt hW
  set Zt := (s.sample ext 10 (ext.seed exPlain.random_state)).1 with hZt
  set Z : Fin 10 → Fin m → Fin d → ℝ := fun j i k => Zt.get [j.1, i.1, k.1] with hZ
  set W : Fin 10 → Fin m → ℝ := fun j i => Wt.get [j.1, i.1, 0] with hWd
  obtain ⟨b, hb⟩ := (Set.finite_range fun q : Fin 10 × Fin m => W q.1 q.2 ^ 2 * (∑ k, Z q.1 q.2 k ^ 2 + 1)).bddAbove
  obtain ⟨K, hK⟩ := (Set.finite_range fun q : Fin 10 × Fin m =>
    |costAt D.cost (X q.2) (Z q.1 q.2) (fun (_ : Fin 1) => y q.2) (fun _ => W q.1 q.2)|).bddAbove
  have hb' : ∀ j i, W j i ^ 2 * (∑ k, Z j i k ^ 2 + 1) ≤ Real.sqrt (max b 0) ^ 2 := by
    intro j i
    rw [Real.sq_sqrt (le_max_right _ _)]
    exact le_max_of_le_left (hb ⟨(j, i), rfl⟩)
  have hK' : ∀ j i, |costAt D.cost (X i) (Z j i) (fun (_ : Fin 1) => y i) (fun _ => W j i)| ≤ K := fun j i => hK ⟨(j, i), rfl⟩
  set c := Real.sqrt (max b 0) ^ 2 / 4 + max exPlain.l2_reg 0 + (Real.sqrt (max b 0) ^ 2 + K ^ 2) / D.epsilon with hc
  have hc0 : 0 ≤ c := by positivity
  set f := logisticObjective (N := l0.params.length) l0 D.cost (1 / 100) D.epsilon exPlain.l2_reg X y Z W with hf
  choose gr gl hgr using smooth_exists_grad (C120_curvature (rho := 1 / 100) (r2 := exPlain.l2_reg) hn hm hlen D.cost heps0 hb' hK')
  set back : Tape G → List ℝ × ℝ := fun t =>
    (List.ofFn (gr (fun k => (t.loss.grads (scalar 0) none).1.get [k.1]) t.loss.lam), gl (fun k => (t.loss.grads (scalar 0) none).1.get [k.1]) t.loss.lam) with hback
  have hbk : PostBackIs ext (torchArgs (thetaGrad d) .logistic exPlain true false (matT X) (some (matT fun i (_ : Fin 1) => y i))) D (.softMargin l0) back
      (fun _ => IsGradAt f) := by
    intro gen v l
    refine ⟨gr v l, gl v l, ?_, hgr v l⟩
    have e : (fun k : Fin l0.params.length => ((lossFor (torchArgs (thetaGrad d) .logistic exPlain true false (matT X)
        (some (matT fun i (_ : Fin 1) => y i))) D (.softMargin l0) false (⟨List.ofFn v, l, none, none, ()⟩ : OptView Unit)).grads (scalar 0) none).1.get [k.1]) = v := by
      funext k
      have e1 : (l0.withParams (List.ofFn v)).params = List.ofFn v := linMap_params_withParams l0 (by simpa using hlen.symm)
      show (l0.withParams (List.ofFn v)).params.getD k.1 0 = v k
      rw [e1, getD_ofFn k.2]
    rw [hback]
    dsimp only
    rw [e]
    rfl
  obtain ⟨M, r, h1, -⟩ := C86_fits_return_partial (ext := ext) (fl := fun x => x) (steps := .inr (200, 2800)) (descent_good clip (1 / (c + 1)) back)
    ha hr h'.rho (by decide) (defaultCond_ready oc _ _) g
  have h6 : 1 / (c + 1) * c ≤ 1 := by
    rw [one_div_mul_eq_div, div_le_one (by linarith)]; linarith
  obtain ⟨v0, v1, v2, -, -, -, h2⟩ := C126_logistic hsig heps hrho hpos (n := 10) rfl hn hm X y l0 hD himp hs (Prod.ext rfl (Prod.ext hW rfl)) (isTen_get z1) (W := W)
    ⟨hWs, fun j i k => by have : k = 0 := Subsingleton.elim _ _; subst this; rfl⟩ hb' hK' (by positivity) h6 hlen hbk (steps := .inr (200, 2800)) rfl rfl (by norm_num) oc h1
  exact ⟨_, back, M, r, D, Z, W, v0, v2.lam, by positivity, heps0, h1, h2⟩

end Skwdro
