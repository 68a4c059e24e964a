import Verif.Props.FreshSamples
import Verif.Props.Consistency

/-! # C128 for the logistic regression -/

namespace Skwdro
open Spec MeasureTheory Tensor

/-- the problem robustified by the logistic regression, without a seed -/
noncomputable def unseededLogistic {d : ℕ} (grads : Autograd d) (P : EstParams) (X : Tensor ℝ) (y : Option (Tensor ℝ)) (M : Module d) : DualizeArgs :=
  { torchArgs grads .logistic P true false X y M with seed := none }

/-- `n` samples with labels for each of `m` data points -/
abbrev Drawn (n m d : ℕ) : Type := (Fin n → Fin m → Fin d → ℝ) × (Fin n → Fin m → ℝ)

section
variable {G : Type} {ext : TorchExt G} {cfg : OCConfig} {fl : ℝ → ℝ} {clip : Bool}

/-- a condition with tolerances zero never stops a training -/
theorem neverStops_of_tol {cfg : OCConfig} (ht : cfg.tolTheta ≤ 0) (hl : cfg.tolLambda ≤ 0) (n : ℕ) : NeverStops cfg n := by
  intro k m m' lam lg ps hk h
  unfold ocCall at h
  have hi : checkIter (n : ℤ) (k : ℤ) = false := by
    unfold checkIter
    split
    · rfl
    · exact decide_eq_false (by omega)
  have hc : ∀ (v : OCView), (checkAllParams cfg m v).1 ≠ .ok true := by
    intro v
    unfold checkAllParams checkBoth checkL checkT
    simp only [if_pos ht, if_pos hl]
    split_ifs <;> simp
  cases hr : checkAllParams cfg m ⟨0, fun _ => lam, lg, ps, n⟩ with
  | mk a b =>
    rw [hr] at h
    cases a with
    | error e => simp at h
    | ok cp =>
      simp only [hi, Bool.false_or, Prod.mk.injEq, Except.ok.injEq] at h
      exact hc ⟨0, fun _ => lam, lg, ps, n⟩ (by rw [hr, h.1])

theorem unseeded_lossIs {m d n : ℕ} {grads : Autograd d} {P : EstParams} (hsig : ∀ s, P.sampler_reg = some s → 0 < s)
    (heps : ∀ e, P.solver_reg = some e → 0 < e) {rho : ℝ} (hrho : P.rho = .num rho) (hpos : 0 < rho) (hn : 0 < n) (hm : 0 < m)
    (X : Fin m → Fin d → ℝ) (y : Fin m → ℝ) (l0 : LinMap d 1) {g g' : G} {D : DualLoss}
    (hD : dualize ext (unseededLogistic grads P (matT X) (some (matT fun i (_ : Fin 1) => y i)) (.softMargin l0)) g = .ok (D, g')) (himp : D.impSamp = false)
    {Z : Fin n → Fin m → Fin d → ℝ} {W : Fin n → Fin m → ℝ} {Zt Wt : Tensor ℝ} (hZt : IsTen Zt Z) (hWt : IsTen Wt fun j i (_ : Fin 1) => W j i)
    {N : ℕ} (hN : l0.params.length = N) :
    LossIs ext (unseededLogistic grads P (matT X) (some (matT fun i (_ : Fin 1) => y i))) D (.softMargin l0) (Zt, some Wt)
      (logisticObjective (N := N) l0 D.cost rho D.epsilon P.l2_reg X y Z W) := by
  intro v lam
  have hD' := dualize_onlyModule (b := unseededLogistic grads P (matT X) (some (matT fun i (_ : Fin 1) => y i)) (.softMargin (l0.withParams (List.ofFn v)))) rfl hD
  obtain ⟨hL, hmean, -⟩ := dualize_labelled_off hD' rfl rfl himp hsig hrho hpos heps rfl one_pos (softMargin_rows (l0.withParams (List.ofFn v))) lam
  have := C29_formula_labelled ext hL hmean hn hm (isMat_mat X) hZt (isMat_mat fun i (_ : Fin 1) => y i) hWt
  have e1 : (unseededLogistic grads P (matT X) (some (matT fun i (_ : Fin 1) => y i)) (.softMargin (l0.withParams (List.ofFn v)))).wloss.l2reg = some P.l2_reg := rfl
  have e2 : (unseededLogistic grads P (matT X) (some (matT fun i (_ : Fin 1) => y i)) (.softMargin (l0.withParams (List.ofFn v)))).wloss.theta = List.ofFn v :=
    linMap_params_withParams l0 (by simpa using hN.symm)
  have herm : D.ermMode = false := hL.erm
  have e3 : lossFor (unseededLogistic grads P (matT X) (some (matT fun i (_ : Fin 1) => y i))) D (.softMargin l0) false
      (⟨List.ofFn v, lam, none, none, ()⟩ : OptView Unit) = { D with
        primal := (unseededLogistic grads P (matT X) (some (matT fun i (_ : Fin 1) => y i)) (.softMargin (l0.withParams (List.ofFn v)))).wloss.value,
        grads := grads (.softMargin (l0.withParams (List.ofFn v))), lam := lam } := by
    simp only [lossFor, Module.withParams, herm]
    rfl
  rw [e3]
  simp only [lossAt, avg, e1, e2, Finset.univ_unique, Finset.sum_singleton, Nat.cast_one, div_one] at this
  exact this

/-- for a cost that is a norm, the initial guess of the multiplier does not depend on the parameters -/
theorem guess_power_one {d N : ℕ} {args : Module d → DualizeArgs} {D : DualLoss} {M0 : Module d} {rho : ℝ} (hr : D.rho = .num rho) (hpos : 0 < rho)
    (hp : D.cost.power = 1) : GuessIs (N := N) args D M0 fun _ => 1 / ((args M0).xi.size0 * rho) := by
  intro v l D' h
  have h' : initialGuess (lossFor args D M0 false (⟨List.ofFn v, l, none, none, ()⟩ : OptView Unit)) (args M0).xi (args M0).xi_labels = .ok D' := h
  unfold initialGuess at h'
  simp only [lossFor, hr, if_pos hpos] at h'
  generalize hn : D.cost.value _ _ _ _ = w at h'
  cases w with
  | error e => simp at h'
  | ok norms =>
    simp only [ok_bind, Except.ok.injEq] at h'
    rw [← h']
    simp only [lam0, hp, if_true, Real.rpow_one, one_mul]

theorem logistic_measurable {m n d N : ℕ} {c : CostR} (hc : GoodCost c) (l0 : LinMap d 1) (rho eps r2 : ℝ) (X : Fin m → Fin d → ℝ) (y : Fin m → ℝ) (v : Fin N → ℝ) (l : ℝ) :
    Measurable fun a : (Fin n → Fin m → Fin d → ℝ) × (Fin n → Fin m → ℝ) => logisticObjective (N := N) l0 c rho eps r2 X y a.1 a.2 v l := by
  have hz : ∀ (j : Fin n) (i : Fin m) (k : Fin d), Measurable fun a : (Fin n → Fin m → Fin d → ℝ) × (Fin n → Fin m → ℝ) => a.1 j i k := fun j i k => by fun_prop
  have hw : ∀ (j : Fin n) (i : Fin m), Measurable fun a : (Fin n → Fin m → Fin d → ℝ) × (Fin n → Fin m → ℝ) => a.2 j i := fun j i => by fun_prop
  have ho : ∀ (j : Fin n) (i : Fin m), Measurable fun a : (Fin n → Fin m → Fin d → ℝ) × (Fin n → Fin m → ℝ) => (l0.withParams (List.ofFn v)).out (a.1 j i) 0 := by
    intro j i
    unfold LinMap.out
    exact (Finset.measurable_sum _ fun k _ => (hz j i k).const_mul _).add_const _
  have hk : ∀ (j : Fin n) (i : Fin m), Measurable fun a : (Fin n → Fin m → Fin d → ℝ) × (Fin n → Fin m → ℝ) =>
      costAt c (X i) (a.1 j i) (fun (_ : Fin 1) => y i) (fun _ => a.2 j i) := fun j i =>
    (costAt_measurable hc (X i) (fun (_ : Fin 1) => y i)).comp
      (f := fun a : (Fin n → Fin m → Fin d → ℝ) × (Fin n → Fin m → ℝ) => (a.1 j i, fun (_ : Fin 1) => a.2 j i)) (by fun_prop)
  unfold logisticObjective logloss
  refine ((Finset.measurable_sum _ fun i _ => ?_).div_const _).const_add _
  refine (Real.measurable_log.comp ((Finset.measurable_sum _ fun j _ => ?_).div_const _)).const_mul _
  refine Real.measurable_exp.comp ((((Real.measurable_log.comp ((Real.measurable_exp.comp (((hw j i).mul (ho j i)).neg)).const_add _)).add_const _).sub ((hk j i).const_mul _)).div_const _)

theorem logistic_zero {m n d N : ℕ} (hn : 0 < n) (hm : 0 < m) (c : CostR) {l0 : LinMap d 1} (hN : l0.params.length = N) {rho eps r2 : ℝ} (he : 0 < eps) (hr2 : r2 ≤ 0) (X : Fin m → Fin d → ℝ) (y : Fin m → ℝ)
    (Z : Fin n → Fin m → Fin d → ℝ) (W : Fin n → Fin m → ℝ) : logisticObjective (N := N) l0 c rho eps r2 X y Z W 0 0 = Real.log 2 := by
  have hn' : (n : ℝ) ≠ 0 := by positivity
  have hm' : (m : ℝ) ≠ 0 := by positivity
  have ho : ∀ x, (l0.withParams (List.ofFn (0 : Fin N → ℝ))).out x 0 = 0 := by
    intro x
    have h0 : ∀ i, (List.ofFn (0 : Fin N → ℝ)).getD i 0 = 0 := by
      intro i
      by_cases h : i < N
      · rw [getD_ofFn h]; rfl
      · exact List.getD_eq_default _ _ (by simpa using h)
    unfold LinMap.out LinMap.withParams
    cases l0.bias <;> simp only [h0, zero_mul, Finset.sum_const_zero, Option.map_none, Option.map_some, add_zero]
  have hridge : ridge (some r2) (List.ofFn (0 : Fin N → ℝ)) = 0 := by simp [ridge, hr2]
  simp only [logisticObjective, ho, hridge, logloss, mul_zero, neg_zero, Real.exp_zero, zero_mul, sub_zero, add_zero, zero_add, Finset.sum_const, Finset.card_univ,
    Fintype.card_fin, nsmul_eq_mul, mul_div_cancel_left₀ _ hn', mul_div_cancel_left₀ _ hm', Real.log_exp, mul_div_cancel₀ _ he.ne']
  norm_num

/-- **C128** (logistic regression) Two-class logistic regression with the post-sampled loss, without ridge penalty, without a seed and with a ground cost that is a norm (power one),
trained from any layer by gradient descent with exact gradients and any learning rate, on any data.  The evaluations draw independent samples `z` with labels `w`, for which
`w ^ 2 (|z| ^ 2 + 1)` and the squared ground cost have finite expectations.  On average, the returned layer and the loss reported are nearly optimal for the expected robust loss. -/
theorem C128_logistic [MeasurableSpace G] {mu : Measure G} [IsProbabilityMeasure mu] {m d n : ℕ} {grads : Autograd d} {P : EstParams} (hsig : ∀ s, P.sampler_reg = some s → 0 < s)
    (heps : ∀ e, P.solver_reg = some e → 0 < e) {rho : ℝ} (hrho : P.rho = .num rho) (hpos : 0 < rho) (hz : P.n_zeta_samples = n) (hn : 0 < n) (hm : 0 < m)
    (hl2 : P.l2_reg ≤ 0) (X : Fin m → Fin d → ℝ) (y : Fin m → ℝ) (l0 : LinMap d 1) {g₀ g₀' : G} {D : DualLoss}
    (hD : dualize ext (unseededLogistic grads P (matT X) (some (matT fun i (_ : Fin 1) => y i)) (.softMargin l0)) g₀ = .ok (D, g₀'))
    (himp : D.impSamp = false) (hpow : D.cost.power = 1) {s : Sampler} (hs : D.sampler = some s) {next : G → G} {Z : G → Fin n → Fin m → Fin d → ℝ} {W : G → Fin n → Fin m → ℝ}
    (hZ : DrawsAre ext s next Z W) (hfresh : FreshDraws mu next fun g => (Z g, W g))
    (hB : Integrable (fun g => ∑ j, ∑ i, W g j i ^ 2 * (∑ k, Z g j i k ^ 2 + 1)) mu)
    (hK : Integrable (fun g => (∑ j, ∑ i, |costAt D.cost (X i) (Z g j i) (fun (_ : Fin 1) => y i) (fun _ => W g j i)|) ^ 2) mu) {lr : ℝ} (hl : 0 < lr)
    {N : ℕ} (hN : l0.params.length = N) {back : Tape G → List ℝ × ℝ}
    (hback : PostBackIs ext (unseededLogistic grads P (matT X) (some (matT fun i (_ : Fin 1) => y i))) D (.softMargin l0) back
      fun gen => IsGradAt (logisticObjective (N := N) l0 D.cost rho D.epsilon P.l2_reg X y (Z gen) (W gen)))
    {steps : ℤ ⊕ (ℤ × ℤ)} {p q0 : ℤ} (hst : interpretSteps fl split03 (toSteps steps) = .ok (p, q0))
    {T : ℕ} (hT : (toSteps steps).iterations = T) (hT0 : 0 < T) (oc : OCState) (hstop : NeverStops cfg T) {M : G → Module d} {r : G → Solved (List ℝ)}
    (h : ∀ g, solveTorch ext (descentTorch clip lr back) cfg fl (unseededLogistic grads P (matT X) (some (matT fun i (_ : Fin 1) => y i)))
      (.softMargin l0) steps oc g = .ok (M g, r g)) :
    ∃ start : G → (Fin N → ℝ) × ℝ,
      (∀ g, ∃ v1 g1 v2, Iterated (fun a b => ∃ x, PostUpdate ext (descentTorch clip lr back) (unseededLogistic grads P (matT X)
          (some (matT fun i (_ : Fin 1) => y i))) D (.softMargin l0) x a b) p.toNat (⟨l0.params, D.lam, none, none, ()⟩, g) (v1, g1) ∧
        DualGuessed (unseededLogistic grads P (matT X) (some (matT fun i (_ : Fin 1) => y i))) D (.softMargin l0) v1 v2 ∧
        v2.params = List.ofFn (start g).1 ∧ v2.lam = (start g).2) ∧
      NearOptimalOnAverage mu clip lr (fun g => logisticObjective (N := N) l0 D.cost rho D.epsilon P.l2_reg X y (Z g) (W g))
        (fun g => Real.sqrt (∑ j, ∑ i, W g j i ^ 2 * (∑ k, Z g j i k ^ 2 + 1) +
          (rho + ∑ j, ∑ i, |costAt D.cost (X i) (Z g j i) (fun (_ : Fin 1) => y i) (fun _ => W g j i)|) ^ 2)) T start (.softMargin l0) M r := by
  have hL := (dualize_labelled_off hD rfl rfl himp hsig hrho hpos heps rfl one_pos (softMargin_rows l0) 0).1
  have heps0 : 0 < D.epsilon := hL.eps_pos
  have hDr : D.rho = .num rho := hL.rho_eq
  have hDn : D.nSamples = n := by
    obtain ⟨parsed, obj, c, s', -, -, -, -, rfl⟩ := dualize_ok hD
    show P.n_zeta_samples.toNat = n
    rw [hz]; simp
  have hcost : GoodCost D.cost := hL.cost
  set B2 : Drawn n m d → ℝ := fun a => ∑ j, ∑ i, a.2 j i ^ 2 * (∑ k, a.1 j i k ^ 2 + 1) with hB2
  set Kc : Drawn n m d → ℝ := fun a => ∑ j, ∑ i, |costAt D.cost (X i) (a.1 j i) (fun (_ : Fin 1) => y i) (fun _ => a.2 j i)| with hKc
  have hB2m : Measurable B2 := by simp only [hB2]; fun_prop
  have hKm : Measurable Kc := by
    refine Finset.measurable_sum _ fun j _ => Finset.measurable_sum _ fun i _ => ?_
    have h1 : Measurable fun a : Drawn n m d => costAt D.cost (X i) (a.1 j i) (fun (_ : Fin 1) => y i) (fun _ => a.2 j i) :=
      (costAt_measurable hcost (X i) (fun (_ : Fin 1) => y i)).comp (f := fun a : Drawn n m d => (a.1 j i, fun (_ : Fin 1) => a.2 j i)) (by fun_prop)
    exact h1.abs
  have hB20 : ∀ a, 0 ≤ B2 a := fun a => Finset.sum_nonneg fun j _ => Finset.sum_nonneg fun i _ =>
    mul_nonneg (sq_nonneg _) (add_nonneg (Finset.sum_nonneg fun _ _ => sq_nonneg _) zero_le_one)
  have hb : ∀ (a : Drawn n m d) j i, a.2 j i ^ 2 * (∑ k, a.1 j i k ^ 2 + 1) ≤ Real.sqrt (B2 a) ^ 2 := by
    intro a j i
    rw [Real.sq_sqrt (hB20 a)]
    have h1 : ∀ j' i', 0 ≤ a.2 j' i' ^ 2 * (∑ k, a.1 j' i' k ^ 2 + 1) := fun j' i' =>
      mul_nonneg (sq_nonneg _) (add_nonneg (Finset.sum_nonneg fun _ _ => sq_nonneg _) zero_le_one)
    exact (Finset.single_le_sum (f := fun i' => a.2 j i' ^ 2 * (∑ k, a.1 j i' k ^ 2 + 1)) (fun i' _ => h1 j i') (Finset.mem_univ i)).trans
      (Finset.single_le_sum (f := fun j' => ∑ i', a.2 j' i' ^ 2 * (∑ k, a.1 j' i' k ^ 2 + 1)) (fun j' _ => Finset.sum_nonneg fun i' _ => h1 j' i') (Finset.mem_univ j))
  have hk : ∀ (a : Drawn n m d) j i, |costAt D.cost (X i) (a.1 j i) (fun (_ : Fin 1) => y i) (fun _ => a.2 j i)| ≤ Kc a := by
    intro a j i
    exact (Finset.single_le_sum (f := fun i' => |costAt D.cost (X i') (a.1 j i') (fun (_ : Fin 1) => y i') (fun _ => a.2 j i')|) (fun i' _ => abs_nonneg _) (Finset.mem_univ i)).trans
      (Finset.single_le_sum (f := fun j' => ∑ i', |costAt D.cost (X i') (a.1 j' i') (fun (_ : Fin 1) => y i') (fun _ => a.2 j' i')|)
        (fun j' _ => Finset.sum_nonneg fun i' _ => abs_nonneg _) (Finset.mem_univ j))
  have hcurv : ∀ a : Drawn n m d, SmoothConvex (logisticObjective (N := N) l0 D.cost rho D.epsilon P.l2_reg X y a.1 a.2) _ := fun a =>
    C120_curvature hn hm hN D.cost heps0 (hb a) (hk a)
  have hg0 : (0 : ℝ) ≤ 1 / ((matT X).size0 * rho) := by positivity
  refine C128_expected (obs := fun g => (Z g, W g)) (Phi := fun a => logisticObjective (N := N) l0 D.cost rho D.epsilon P.l2_reg X y a.1 a.2)
    (L := fun a => Real.sqrt (B2 a + (rho + Kc a) ^ 2)) (guess := fun _ => 1 / ((matT X).size0 * rho)) (C := (1 / ((matT X).size0 * rho)) ^ 2)
    rfl hD rfl (by show P.rho.isPos = true; rw [hrho]; simpa [Radius.isPos] using hpos) hst hT hT0 oc hN ?_ hback hfresh
    (fun a => smooth_planes (hcurv a)) (fun a => ?_) (fun v l => logistic_measurable hcost l0 rho D.epsilon P.l2_reg X y v l) (fun a => ?_)
    (Real.continuous_sqrt.measurable.comp (hB2m.add ((hKm.const_add rho).pow_const 2))) ?_ ?_ (guess_power_one hDr hpos hpow) measurable_const (fun _ => hg0) (fun v => ?_) hstop hl h
  · intro gen v lam
    obtain ⟨Zt, Wt, h1, h2, h3⟩ := hZ gen
    obtain ⟨t, h4, h5⟩ := unseeded_lossIs hsig heps hrho hpos hn hm X y l0 hD himp h2 h3 hN v lam
    have hst := dualize_steady hD
    exact ⟨t, _, postForward_draws hst hs hDr hpos hDn h1 h4, h5⟩
  · exact smooth_exists_grad (hcurv a)
  · have := C123_slope (r2 := P.l2_reg) hn hm hN D.cost hpos heps0 hl2 (Real.sqrt_nonneg (B2 a)) (hb a) (hk a)
    rwa [Real.sq_sqrt (hB20 a), hpow, Real.rpow_one] at this
  · have e : (fun g => Real.sqrt (B2 (Z g, W g) + (rho + Kc (Z g, W g)) ^ 2) ^ 2) = fun g => B2 (Z g, W g) + (rho + Kc (Z g, W g)) ^ 2 := by
      funext g
      exact Real.sq_sqrt (add_nonneg (hB20 _) (sq_nonneg _))
    rw [e]
    have hm1 : Measurable fun g => Kc (Z g, W g) := hKm.comp hfresh.obs_measurable
    refine hB.add (((hK.const_mul 2).add (integrable_const (2 * rho ^ 2))).mono' ((hm1.const_add rho).pow_const 2).aestronglyMeasurable (Filter.Eventually.of_forall fun g => ?_))
    rw [Real.norm_eq_abs, abs_of_nonneg (sq_nonneg _)]
    show (rho + Kc (Z g, W g)) ^ 2 ≤ 2 * Kc (Z g, W g) ^ 2 + 2 * rho ^ 2
    nlinarith [sq_nonneg (rho - Kc (Z g, W g))]
  · simp only [logistic_zero hn hm D.cost hN heps0 hl2]
    exact integrable_const _
  · have : 0 ≤ ∑ k, v k ^ 2 := Finset.sum_nonneg fun _ _ => sq_nonneg _
    nlinarith [sq_nonneg (1 / (((matT X).size0 : ℝ) * rho))]

end

end Skwdro
