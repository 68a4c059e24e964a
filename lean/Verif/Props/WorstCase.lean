import Verif.Spec.Adversary
import Verif.Props.OnlineRegret
import Verif.Props.StrongDuality

/-! # C124: the worst case of the trained parameters is nearly the smallest possible -/

namespace Skwdro
open Spec Tensor

section
variable {n m : ℕ} {rho p eps : ℝ} {L C : Fin n → Fin m → ℝ}

theorem attacked_split (a : Fin m → Fin n → ℝ) (lam : ℝ) : attacked eps L a =
    avg (fun i => ∑ j, a i j * (L j i - lam * C j i) - eps * KL (a i)) + lam * avg (fun i => ∑ j, a i j * C j i) := by
  simp only [attacked, avg]
  rw [← mul_div_assoc, ← add_div, Finset.mul_sum, ← Finset.sum_add_distrib]
  congr 1
  refine Finset.sum_congr rfl fun i _ => ?_
  rw [Finset.mul_sum]
  have : ∑ j, a i j * L j i = ∑ j, a i j * (L j i - lam * C j i) + ∑ j, lam * (a i j * C j i) := by
    rw [← Finset.sum_add_distrib]; exact Finset.sum_congr rfl fun j _ => by ring
  rw [this]; ring

/-- the robust loss at a non-negative multiplier bounds all admissible adversaries -/
theorem attacked_le_robust (hn : 0 < n) (he : 0 < eps) {lam : ℝ} (hl : 0 ≤ lam) {a : Fin m → Fin n → ℝ} (ha : Admissible (rho ^ p) C a) :
    attacked eps L a ≤ robust lam rho p eps L C := by
  rw [attacked_split (C := C) a lam, robust]
  have h1 : avg (fun i => ∑ j, a i j * (L j i - lam * C j i) - eps * KL (a i)) ≤ avg (fun i => softmax eps (fun j => L j i - lam * C j i)) :=
    avg_mono fun i => gibbs_le hn he _ (ha.1 i)
  have h2 := mul_le_mul_of_nonneg_left ha.2 hl
  linarith

/-- and is attained by one of them at the best multiplier, which is bounded -/
theorem worst_multiplier (hn : 0 < n) (hm : 0 < m) (he : 0 < eps) (J : Fin m → Fin n) (hJ : avg (fun i => C (J i) i) < rho ^ p) {a b : ℝ}
    (hL : ∀ j i, L j i ∈ Set.Icc a b) :
    ∃ lam x, 0 ≤ lam ∧ lam ≤ (b - a + eps * Real.log n) / (rho ^ p - avg (fun i => C (J i) i)) ∧ WorstCase (rho ^ p) eps L C x ∧
      robust lam rho p eps L C = x := by
  obtain ⟨lam, h0, hmin, hadm, hslack⟩ := robust_min_exists (rho := rho) (p := p) (L := L) (C := C) hn hm he J hJ
  refine ⟨lam, _, h0, ?_, ⟨⟨fun i => tilt eps (fun j => L j i - lam * C j i), ⟨fun i => tilt_weights hn _ _, by linarith⟩, ?_⟩, ?_⟩, rfl⟩
  · rw [le_div_iff₀ (by linarith)]
    have h1 := robust_lower (rho := rho) (p := p) (L := L) (C := C) hn hm he J lam
    have h2 := hmin 0 le_rfl
    have hm' : (0 : ℝ) < m := by exact_mod_cast hm
    have h3 : robust 0 rho p eps L C ≤ b := by
      simp only [robust, zero_mul, zero_add, sub_zero]
      calc avg (fun i => softmax eps (fun j => L j i)) ≤ avg (fun _ : Fin m => b) := avg_mono fun i => softmax_le_max hn he _ fun j => (hL j i).2
        _ = b := by simp [avg, hm'.ne']
    have h4 : a ≤ avg (fun i => L (J i) i) := by
      calc a = avg (fun _ : Fin m => a) := by simp [avg, hm'.ne']
        _ ≤ _ := avg_mono fun i => (hL (J i) i).1
    linarith
  · have h1 : avg (fun i => softmax eps (fun j => L j i - lam * C j i)) =
        avg (fun i => ∑ j, tilt eps (fun j => L j i - lam * C j i) j * (L j i - lam * C j i) - eps * KL (tilt eps (fun j => L j i - lam * C j i))) := by
      congr 1; funext i; exact (gibbs_eq hn he _).symm
    rw [attacked_split (C := C) _ lam, robust, h1]
    linarith
  · rintro _ ⟨q, hq, rfl⟩
    exact attacked_le_robust hn he h0 hq

end

/-- **C124** The worst case over all the re-weightings of the samples of cost at most `rho ^ p`, for the parameters returned by gradient descent with a multiplier
kept non-negative: it is at most the loss reported, and at most the worst case of any other parameters `q`, plus a constant over the number `k` of robust iterations.
(`J` chooses samples leaving slack; without any there may be no admissible adversary, see `C124_diverges_false`.) -/
theorem C124_worst_case {d N n m T : ℕ} {cfg : OCConfig} {lr rho p eps : ℝ} {f : (Fin N → ℝ) → ℝ → ℝ} {L : (Fin N → ℝ) → Fin n → Fin m → ℝ} {C : Fin n → Fin m → ℝ}
    {v0 : Fin N → ℝ} {l0 : ℝ} {M0 M : Module d} {r : Solved (List ℝ)} (hn : 0 < n) (hm : 0 < m) (he : 0 < eps) (hlr : 0 < lr)
    (hf : f = fun v l => robust l rho p eps (L v) C) (h : ReachesOptimum cfg true lr f T v0 l0 M0 M r) (J : Fin m → Fin n)
    (hJ : avg (fun i => C (J i) i) < rho ^ p) :
    NearlyWorstCase cfg lr (rho ^ p) eps L C (avg fun i => C (J i) i) T v0 l0 r := by
  obtain ⟨w, k, x, h1, -, h2, h3, h4, h5, h6, h7, -, h8⟩ := h
  have hbd : ∃ a b, ∀ j i, L w j i ∈ Set.Icc a b := by
    obtain ⟨b, hb⟩ := (Set.finite_range fun q : Fin n × Fin m => L w q.1 q.2).bddAbove
    obtain ⟨a, ha⟩ := (Set.finite_range fun q : Fin n × Fin m => L w q.1 q.2).bddBelow
    exact ⟨a, b, fun j i => ⟨ha ⟨(j, i), rfl⟩, hb ⟨(j, i), rfl⟩⟩⟩
  obtain ⟨a, b, hab⟩ := hbd
  obtain ⟨lw, y, hlw, -, hy, -⟩ := worst_multiplier (L := L w) hn hm he J hJ hab
  refine ⟨w, k, x, y, h1, h2, hy, ?_, h5, h6, h7, fun q a b hq => ?_⟩
  · obtain ⟨⟨av, ha1, ha2⟩, -⟩ := hy
    rw [ha2, h3, hf]
    exact attacked_le_robust hn he (h4 rfl) ha1
  · obtain ⟨lq, z, hl0, hl1, hz, he'⟩ := worst_multiplier (L := L q) hn hm he J hJ hq
    refine ⟨z, hz, ?_⟩
    have hk : (0 : ℝ) < k := by exact_mod_cast h5
    have h9 := h8 q lq fun _ => hl0
    have h10 : 0 ≤ gap2 w r.dual_var q lq := add_nonneg (Finset.sum_nonneg fun _ _ => sq_nonneg _) (sq_nonneg _)
    have h11 : 0 ≤ gap2 w r.dual_var q lq / (2 * lr * k) := div_nonneg h10 (by positivity)
    have e : f q lq = z := by rw [hf]; exact he'
    rw [e] at h9
    have h12 : gap2 v0 l0 q lq ≤ ∑ k, (v0 k - q k) ^ 2 + (|l0| + (b - a + eps * Real.log n) / (rho ^ p - avg (fun i => C (J i) i))) ^ 2 := by
      simp only [gap2]
      have h13 : |l0 - lq| ≤ |l0| + (b - a + eps * Real.log n) / (rho ^ p - avg (fun i => C (J i) i)) := by
        refine (abs_sub l0 lq).trans ?_
        rw [abs_of_nonneg hl0]
        linarith
      have h14 := pow_le_pow_left₀ (abs_nonneg _) h13 2
      rw [sq_abs] at h14
      linarith
    have h15 := div_le_div_of_nonneg_right h12 (show 0 ≤ 2 * lr * k by positivity)
    linarith

/-- the objective of the logistic regression, as a robust loss of the losses of the samples -/
theorem logisticObjective_robust {m n d N : ℕ} (l0 : LinMap d 1) (c : CostR) (rho eps r2 : ℝ) (X : Fin m → Fin d → ℝ) (y : Fin m → ℝ)
    (Z : Fin n → Fin m → Fin d → ℝ) (W : Fin n → Fin m → ℝ) : logisticObjective (N := N) l0 c rho eps r2 X y Z W =
      fun v lam => robust lam rho c.power eps (logisticLosses l0 r2 Z W v) (sampleCosts c X y Z W) := rfl

/-- **C124** (logistic regression) Pre-sampled two-class logistic regression, trained with a small enough learning rate by gradient descent with exact gradients and
a multiplier kept non-negative, from any initial layer, on any data: if some choice of one sample per data point leaves slack in the budget, the number reported
bounds the worst case for the returned parameters, and this worst case is nearly the smallest possible. -/
theorem C124_logistic {G : Type} {ext : TorchExt G} {m d n : ℕ} {grads : Autograd d} {P : EstParams} (hsig : ∀ s, P.sampler_reg = some s → 0 < s)
    (heps : ∀ e, P.solver_reg = some e → 0 < e) {rho : ℝ} (hrho : P.rho = .num rho) (hpos : 0 < rho) (hz : P.n_zeta_samples = n) (hn : 0 < n) (hm : 0 < m)
    (X : Fin m → Fin d → ℝ) (y : Fin m → ℝ) (l0 : LinMap d 1) {g g' : G} {D : DualLoss}
    (hD : dualize ext (torchArgs grads .logistic P false false (matT X) (some (matT fun i (_ : Fin 1) => y i)) (.softMargin l0)) g = .ok (D, g'))
    {s : Sampler} (hs : D.sampler = some s) {N : ℕ} (hN : l0.params.length = N) :
    ∃ (Zt Wt : Tensor ℝ) (gen : G) (Z : Fin n → Fin m → Fin d → ℝ) (W : Fin n → Fin m → ℝ) (top : ℝ), s.sample ext n g' = (Zt, some Wt, gen) ∧ IsTen Zt Z ∧
      IsTen Wt (fun j i (_ : Fin 1) => W j i) ∧ 0 < top ∧ ∀ (lr : ℝ) (back : Tape G → List ℝ × ℝ), 0 < lr → lr ≤ top →
      BackIs (torchArgs grads .logistic P false false (matT X) (some (matT fun i (_ : Fin 1) => y i))) D (.softMargin l0) gen
        (Zt, some Wt) back (logisticObjective (N := N) l0 D.cost rho D.epsilon P.l2_reg X y Z W) →
      ∀ (cfg : OCConfig) (fl : ℝ → ℝ) (T : ℕ) (p : ℤ), 0 < T → ∀ (oc : OCState) (M : Module d) (r : Solved (List ℝ)),
      solveTorch ext (descentTorch true lr back) cfg fl (torchArgs grads .logistic P false false (matT X) (some (matT fun i (_ : Fin 1) => y i)))
        (.softMargin l0) (.inr (p, T)) oc g = .ok (M, r) →
      ∃ (v0 : Fin N → ℝ) (lam0 : ℝ), ∀ J : Fin m → Fin n, avg (fun i => sampleCosts D.cost X y Z W (J i) i) < rho ^ D.cost.power →
        NearlyWorstCase cfg lr (rho ^ D.cost.power) D.epsilon (logisticLosses l0 P.l2_reg Z W) (sampleCosts D.cost X y Z W)
          (avg fun i => sampleCosts D.cost X y Z W (J i) i) T v0 lam0 r := by
  obtain ⟨Zt, Wt, gen, Z, W, top, h1, h2, h3, h4, h5⟩ := C120_small_rate (clip := true) hsig heps hrho hpos hz hn hm X y l0 hD hs hN
  have heps0 : 0 < D.epsilon := (dualize_labelled hD rfl rfl rfl hsig hrho hpos heps rfl one_pos (softMargin_rows l0) 0).1.eps_pos
  refine ⟨Zt, Wt, gen, Z, W, top, h1, h2, h3, h4, fun lr back hl hlt hb cfg fl T p hT oc M r h => ?_⟩
  obtain ⟨v0, v1, v2, -, -, -, h6⟩ := h5 lr back hl hlt hb cfg fl T p hT oc M r h
  exact ⟨v0, v2.lam, fun J hJ => C124_worst_case hn hm heps0 hl (logisticObjective_robust ..) h6 J hJ⟩

/-- **C124** (without slack) If even the cheapest samples cost more than the budget, no adversary is admissible, and the number reported
says nothing on a worst case: it goes below any bound `B` as the number of robust iterations grows (unless the optimality condition stops the training). -/
theorem C124_no_slack {d N n m : ℕ} {cfg : OCConfig} {clip : Bool} {lr rho p eps : ℝ} {f : (Fin N → ℝ) → ℝ → ℝ} {L : (Fin N → ℝ) → Fin n → Fin m → ℝ}
    {C : Fin n → Fin m → ℝ} (hn : 0 < n) (he : 0 < eps) (hlr : 0 < lr) (hf : f = fun v l => robust l rho p eps (L v) C)
    {least : Fin m → ℝ} (hleast : ∀ j i, least i ≤ C j i) (hover : rho ^ p < avg least) (v0 : Fin N → ℝ) (l0 B : ℝ) :
    (∀ v, ¬ ∃ z, WorstCase (rho ^ p) eps (L v) C z) ∧
    ∃ T0 : ℕ, ∀ T, T0 ≤ T → ∀ (M0 M : Module d) (r : Solved (List ℝ)), ReachesOptimum cfg clip lr f T v0 l0 M0 M r →
      (∃ x, r.robust_loss = .fin x ∧ x < B) ∨
      ∃ (k : ℕ) (m m' : _) (pg lg : _), k < T ∧ ocCall cfg m ⟨0, fun _ => r.dual_var, lg, [(r.coef, pg)], T⟩ (k : ℤ) = (.ok true, m') := by
  refine ⟨fun v => ?_, ?_⟩
  · rintro ⟨z, ⟨a, ⟨hw, hb⟩, -⟩, -⟩
    have : avg least ≤ avg (fun i => ∑ j, a i j * C j i) := avg_mono fun i => by
      calc least i = ∑ j, a i j * least i := by rw [← Finset.sum_mul, (hw i).2, one_mul]
        _ ≤ _ := Finset.sum_le_sum fun j _ => mul_le_mul_of_nonneg_left (hleast j i) ((hw i).1 j)
    linarith
  · obtain ⟨b, hb⟩ := (Set.finite_range fun q : Fin n × Fin m => L v0 q.1 q.2).bddAbove
    set gap := avg least - rho ^ p with hgap
    have hg0 : 0 < gap := by linarith
    set lq := max 0 ((avg (fun _ : Fin m => b) - B + 1) / gap) with hlq
    have hlq0 : 0 ≤ lq := le_max_left _ _
    have hval : f v0 lq ≤ B - 1 := by
      rw [hf]
      have h1 := robust_upper (rho := rho) (p := p) (L := L v0) (C := C) hn he hlq0 (M := least) (B := fun _ => b) hleast fun j i => hb ⟨(j, i), rfl⟩
      have h2 : (avg (fun _ : Fin m => b) - B + 1) ≤ lq * gap := by
        rw [← div_le_iff₀ hg0]; exact le_max_right _ _
      have : rho ^ p - avg least = -gap := by rw [hgap]; ring
      rw [this] at h1
      refine h1.trans ?_
      linarith
    set c := gap2 v0 l0 v0 lq with hc
    have hc0 : 0 ≤ c := add_nonneg (Finset.sum_nonneg fun _ _ => sq_nonneg _) (sq_nonneg _)
    obtain ⟨T0, hT0⟩ := exists_nat_gt (c / (2 * lr))
    refine ⟨T0, fun T hT M0 M r h => ?_⟩
    obtain ⟨w, k, x, h1, -, h2, h3, h4, h5, h6, h7, -, h8⟩ := h
    rcases Nat.lt_or_ge k T with hk | hk
    · obtain ⟨m1, m2, pg, lg, h9⟩ := h7 hk
      exact Or.inr ⟨k - 1, m1, m2, pg, lg, by omega, h9⟩
    · left
      have hkT : k = T := le_antisymm h6 hk
      refine ⟨x, h2, ?_⟩
      have hk0 : (0 : ℝ) < k := by exact_mod_cast h5
      have h9 := h8 v0 lq fun _ => hlq0
      have h10 : 0 ≤ gap2 w r.dual_var v0 lq := add_nonneg (Finset.sum_nonneg fun _ _ => sq_nonneg _) (sq_nonneg _)
      have h11 : 0 ≤ gap2 w r.dual_var v0 lq / (2 * lr * k) := div_nonneg h10 (by positivity)
      have h12 : c / (2 * lr * k) < 1 := by
        rw [div_lt_one (by positivity)]
        rw [div_lt_iff₀ (by positivity)] at hT0
        have : (T0 : ℝ) ≤ k := by rw [hkT]; exact_mod_cast hT
        nlinarith
      linarith

/-! ## `HybridSGD` -/

/-- **C124** (the optimizer) A step of `HybridSGD` with the rule `non_neg` on the group of the multiplier is a step of gradient descent keeping the multiplier
non-negative. -/
theorem C124_hybrid_step (lr : ℝ) {params g : List ℝ} (hlen : params.length = g.length) (lam gl : ℝ) :
    ∃ gs, hybridStep (sgd lr) [⟨[], [⟨params, some g⟩]⟩, ⟨[.nonNeg], [⟨[lam], some [gl]⟩]⟩] = (.ok (), gs) ∧
      hvals gs = [[(descentStep true lr (⟨params, lam, some g, some gl, ()⟩ : OptView Unit)).params],
        [[(descentStep true lr (⟨params, lam, some g, some gl, ()⟩ : OptView Unit)).lam]]] := by
  refine ⟨_, rfl, ?_⟩
  have e : List.zipWith (fun x d => x - lr * d) params g = params.mapIdx fun i p => p - lr * g.getD i 0 := by
    apply List.ext_getElem
    · simp [hlen]
    · intro i h1 h2
      have : i < g.length := by simp at h1; omega
      simp [this]
  simp [hvals, descentStep, clipped, Rule.post, e]

/-! ## The hypotheses are met -/

/-- the loss built by default for the logistic regression: label-aware squared Euclidean cost of weight `10 ^ 8`, normal noise of size half the radius -/
theorem default_logistic_loss {G : Type} {ext : TorchExt G} {d : ℕ} {grads : Autograd d} {post : Bool} {X y : Tensor ℝ} {M0 : Module d} {g g' : G} {D : DualLoss}
    (h : dualize ext (torchArgs grads .logistic EstKind.logistic.defaults post false X (some y) M0) g = .ok (D, g')) :
    D.cost.kind = .normLabelCost ∧ D.cost.p = .fin 2 ∧ D.cost.power = 2 ∧ D.cost.kappa = .fin 100000000 ∧
      ∃ s, D.sampler = some s ∧ s.data_s = .normal X (.fin (1 / 200)) ∧ s.labels_s = some (.normal y (.fin (1 / 200))) := by
  obtain ⟨parsed, obj, c, s, h1, h2, h3, h4, rfl⟩ := dualize_ok h
  have hp : parse_code_torch (some "t-NLC-2-2".toList) true = .ok ⟨"t".toList, "NLC".toList, .fin (2 : ℕ), .fin (2 : ℕ), .fin 100000000⟩ :=
    code_parse "NLC".toList 2 2 (by decide) true
  have h1' : parse_code_torch (some "t-NLC-2-2".toList) true = .ok parsed := h1
  rw [hp] at h1'
  cases h1'
  have ho : cost_from_parse_torch ⟨"t".toList, "NLC".toList, .fin (2 : ℕ), .fin (2 : ℕ), .fin 100000000⟩ = .ok obj := h2
  cases ho
  have hc : c = ⟨.normLabelCost, .fin 2, 2, .fin 100000000⟩ := by
    simp [CostObj.toReal] at h3
    exact h3.symm
  subst hc
  have e : expertSigma (.num (1 / 100)) none SIGMA_FACTOR = 1 / 200 := by
    simp [expertSigma, SIGMA_FACTOR]; norm_num
  have h4' : dualizeSampler ext ⟨.normLabelCost, .fin 2, 2, .fin 100000000⟩ X (some y) (expertSigma (.num (1 / 100)) none SIGMA_FACTOR)
      (some EstKind.logistic.defaults.random_state) g = .ok (s, g') := h4
  rw [e] at h4'
  refine ⟨rfl, rfl, rfl, rfl, s, rfl, ?_⟩
  simp [dualizeSampler, mkLabeledCost, samplerData, samplerLabels, samplerLabelsNLC, defaultEps, mkNormal, validScale] at h4'
  obtain ⟨rfl, -⟩ := h4'
  simp

/-- a generator all whose draws are `c` -/
def constExt (c : ℝ) : TorchExt ℕ where
  seed := fun _ => 0
  stdNormal := fun g sh => (⟨sh, fun _ => c⟩, g + 1)
  stdLaplace := fun g sh => (⟨sh, fun _ => c⟩, g + 1)
  bernoulli := fun g _ sh => (⟨sh, fun _ => true⟩, g + 1)
  cholesky := id
  precisionToTril := id
  mvnLogDensity := fun _ _ => 0

/-- the cost of a sample around a point, all coordinates and the label of which move by `c / 200` -/
theorem const_cost {d n m : ℕ} {D : DualLoss} {grads : Autograd d} {post : Bool} {M0 : Module d} {X : Fin m → Fin d → ℝ} {y : Fin m → ℝ} {c : ℝ} {g g' gen : ℕ}
    (h : dualize (constExt c) (torchArgs grads .logistic EstKind.logistic.defaults post false (matT X) (some (matT fun i (_ : Fin 1) => y i)) M0) g = .ok (D, g'))
    {s : Sampler} (hs : D.sampler = some s) {Zt Wt : Tensor ℝ} {Z : Fin n → Fin m → Fin d → ℝ} {W : Fin n → Fin m → ℝ}
    (hZ : s.sample (constExt c) n g' = (Zt, some Wt, gen)) (hZt : IsTen Zt Z) (hWt : IsTen Wt fun j i (_ : Fin 1) => W j i) (j : Fin n) (i : Fin m) :
    sampleCosts D.cost X y Z W j i = ((Real.sqrt d + 100000000) / 100000001) ^ 2 * (c / 200) ^ 2 := by
  obtain ⟨h1, h2, h3, h4, s', h5, h6, h7⟩ := default_logistic_loss h
  rw [hs] at h5
  cases h5
  simp only [Sampler.sample, h6, h7, Dist.rsample, constExt, Prod.mk.injEq, Option.some.injEq] at hZ
  obtain ⟨rfl, rfl, -⟩ := hZ
  have e1 : ∀ k, Z j i k = X i k + c / 200 := fun k => by
    have := hZt.2 j i k
    rw [← this]
    simp [matT, scaleVal]
    ring
  have e2 : W j i = y i + c / 200 := by
    refine (hWt.2 j i 0).symm.trans ?_
    simp [matT, scaleVal]
    ring
  rw [sampleCosts, (C05_point_formula D.cost h1 (Or.inl ⟨2, by norm_num, h2⟩) _ _ _ _).1 _ (by norm_num) h4, h2, h3]
  have e3 : pnorm (.fin 2) (fun k => X i k - Z j i k) = Real.sqrt d * |c / 200| := by
    simp only [e1, pnorm, sub_add_cancel_left, abs_neg, Finset.sum_const, Finset.card_univ, Fintype.card_fin, nsmul_eq_mul]
    rw [Real.mul_rpow (Nat.cast_nonneg _) (by positivity), ← Real.rpow_mul (abs_nonneg _), ← Real.sqrt_eq_rpow]
    norm_num
  have e4 : pnorm (.fin 2) (fun _ : Fin 1 => y i - W j i) = |c / 200| := by
    simp only [e2, pnorm, sub_add_cancel_left, abs_neg, Finset.sum_const, Finset.card_univ, Fintype.card_fin, nsmul_eq_mul]
    rw [Nat.cast_one, one_mul, ← Real.rpow_mul (abs_nonneg _)]
    norm_num
  rw [e3, e4, show (2 : ℝ) = ((2 : ℕ) : ℝ) by norm_num, Real.rpow_natCast]
  rw [← sq_abs (c / 200), ← mul_pow]
  norm_num
  ring

theorem avg_same {m : ℕ} (hm : 0 < m) (x : ℝ) : avg (fun _ : Fin m => x) = x := by
  have : (0 : ℝ) < m := by exact_mod_cast hm
  simp [avg, this.ne']

/-- Default two-class logistic regression, pre-sampled, on any data, with a generator whose draws are all one half: the training returns, and what it reports is
nearly the smallest worst case. -/
theorem worst_case_applies {m d : ℕ} (hm : 0 < m) (hd : d ≤ 100) (X : Fin m → Fin d → ℝ) (y : Fin m → ℝ) (oc : OCState) :
    ∃ (lr : ℝ) (back : Tape ℕ → List ℝ × ℝ) (M : Module d) (r : Solved (List ℝ)) (N : ℕ) (eps : ℝ) (L : (Fin N → ℝ) → Fin 10 → Fin m → ℝ) (C : Fin 10 → Fin m → ℝ)
      (v0 : Fin N → ℝ) (lam0 least : ℝ), 0 < lr ∧ 0 < eps ∧ 0 < least ∧ least < (1 / 100) ^ 2 ∧
    solveTorch (constExt (1 / 2)) (descentTorch true lr back) defaultCond (fun x => x) (torchArgs (thetaGrad d) .logistic EstKind.logistic.defaults false false (matT X)
      (some (matT fun i (_ : Fin 1) => y i))) (.softMargin ⟨fun _ _ => 3, some fun _ => 1⟩) (.inr (100, 10)) oc 7 = .ok (M, r) ∧
    NearlyWorstCase defaultCond lr ((1 / 100) ^ (2 : ℝ)) eps L C least 10 v0 lam0 r := by
  obtain ⟨D, g', s, Zt, Wt, gen, Z, W, lr, back, start, h1, h2, h3, h4, h5, h6, h7, -, h8⟩ :=
    descent_runs (constExt (1 / 2)) defaultCond_grad true hm X y oc ⟨fun _ _ => 3, some fun _ => 1⟩ 7
  obtain ⟨M, r, v0, lam0, h9, -, h10⟩ := h8 100 10 (by norm_num)
  have hp : D.cost.power = 2 := (default_logistic_loss h1).2.2.1
  have hc := const_cost h1 h2 h3 h4 h5
  set least : ℝ := ((Real.sqrt d + 100000000) / 100000001) ^ 2 * (1 / 2 / 200) ^ 2 with hl
  have hd' : Real.sqrt d ≤ 10 := by
    rw [Real.sqrt_le_left (by norm_num)]
    have : (d : ℝ) ≤ 100 := by exact_mod_cast hd
    linarith
  have hs0 : 0 ≤ Real.sqrt d := Real.sqrt_nonneg _
  have hl1 : least < (1 / 100) ^ 2 := by
    have : (Real.sqrt d + 100000000) / 100000001 ≤ 2 := by rw [div_le_iff₀ (by norm_num)]; linarith
    have h0 : 0 ≤ (Real.sqrt d + 100000000) / 100000001 := by positivity
    rw [hl]
    nlinarith
  have havg : avg (fun i => sampleCosts D.cost X y Z W ((fun _ => 0 : Fin m → Fin 10) i) i) = least := by
    simp only [hc]; exact avg_same hm _
  have := C124_worst_case (by norm_num) hm h6 h7 (logisticObjective_robust ..) h10 (fun _ => 0) (by
    rw [havg, hp, show (2 : ℝ) = ((2 : ℕ) : ℝ) by norm_num, Real.rpow_natCast]; exact hl1)
  rw [havg, hp] at this
  exact ⟨lr, back, M, r, _, _, _, _, v0, lam0, least, h7, h6, by positivity, hl1, h9, this⟩

/-- an optimality condition with tolerances zero, which leaves the number of iterations alone -/
noncomputable def neverCond : OCConfig := ⟨.fin 2, 0, 0, "theta".toList, "rel".toList, "grad".toList⟩

theorem neverCond_false {m m' : OCState} {v : OCView} {k : ℤ} (hk : k < v.maxIter) : ocCall neverCond m v k ≠ (.ok true, m') := by
  have h1 : checkAllParams neverCond m v = (.ok false, m) := by
    have e1 : neverCond.monitoring ∉ L_AND_T := by decide
    have e2 : neverCond.monitoring ∉ L_OR_T := by decide
    have e3 : neverCond.monitoring ∉ JUST_L := by decide
    have e4 : neverCond.monitoring ∈ JUST_T := by decide
    simp only [checkAllParams, if_neg e1, if_neg e2, if_neg e3, if_pos e4, checkT, show neverCond.tolTheta ≤ 0 from le_refl _, if_true]
  simp only [ocCall, h1, checkIter]
  rw [show decide (v.maxIter ≤ k) = false by simpa using hk]
  simp

/-- **C124** (false) A worst case may not exist: default two-class logistic regression, pre-sampled, on any data, with a generator whose draws are all three.  The
samples are too far away for any re-weighting of them to be admissible (see `C124_no_slack`), and the longer the training (here without pre-training, and with an
optimality condition that does not stop it), the lower the number it reports, below any bound. -/
theorem C124_diverges_false {m d : ℕ} (hm : 0 < m) (hd : 0 < d) (X : Fin m → Fin d → ℝ) (y : Fin m → ℝ) (oc : OCState) (clip : Bool) :
    ∃ (lr : ℝ) (back : Tape ℕ → List ℝ × ℝ), 0 < lr ∧ ∀ B : ℝ, ∃ T0 : ℕ, ∀ T : ℕ, T0 ≤ T → 0 < T → ∃ (M : Module d) (r : Solved (List ℝ)) (x : ℝ),
      solveTorch (constExt 3) (descentTorch clip lr back) neverCond (fun x => x) (torchArgs (thetaGrad d) .logistic EstKind.logistic.defaults false false (matT X)
        (some (matT fun i (_ : Fin 1) => y i))) (.softMargin ⟨fun _ _ => 3, some fun _ => 1⟩) (.inr (0, T)) oc 7 = .ok (M, r) ∧ r.robust_loss = .fin x ∧ x < B := by
  obtain ⟨D, g', s, Zt, Wt, gen, Z, W, lr, back, start, h1, h2, h3, h4, h5, h6, h7, -, h8⟩ :=
    descent_runs (constExt 3) (cfg := neverCond) ⟨rfl, rfl, Or.inl rfl⟩ clip hm X y oc ⟨fun _ _ => 3, some fun _ => 1⟩ 7
  have hp : D.cost.power = 2 := (default_logistic_loss h1).2.2.1
  have hc := const_cost h1 h2 h3 h4 h5
  set least : ℝ := ((Real.sqrt d + 100000000) / 100000001) ^ 2 * (3 / 200) ^ 2 with hl
  have hd' : 1 ≤ Real.sqrt d := by
    rw [Real.one_le_sqrt]
    exact_mod_cast hd
  have hl1 : (1 / 100 : ℝ) ^ 2 < least := by
    have : 1 ≤ (Real.sqrt d + 100000000) / 100000001 := by rw [le_div_iff₀ (by norm_num)]; linarith
    rw [hl]
    nlinarith
  refine ⟨lr, back, h7, fun B => ?_⟩
  obtain ⟨-, T0, hT0⟩ := C124_no_slack (d := d) (cfg := neverCond) (clip := clip) (by norm_num) h6 h7 (logisticObjective_robust ..) (least := fun _ => least)
    (fun j i => (hc j i).ge) (by rw [avg_same hm, hp, show (2 : ℝ) = ((2 : ℕ) : ℝ) by norm_num, Real.rpow_natCast]; exact hl1)
    (List.get _) start B
  refine ⟨T0, fun T hT hT1 => ?_⟩
  obtain ⟨M, r, v0, lam0, h9, h10, h11⟩ := h8 0 T hT1
  obtain ⟨rfl, rfl⟩ := h10 rfl
  rcases hT0 T hT _ M r h11 with ⟨x, h12, h13⟩ | ⟨k, m1, m2, pg, lg, hk, h12⟩
  · exact ⟨M, r, x, h9, h12, h13⟩
  · exact absurd h12 (neverCond_false (by simpa using hk))

end Skwdro
