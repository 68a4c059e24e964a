import Verif.Lemmas.Fresh
import Mathlib.MeasureTheory.Constructions.BorelSpace.Metrizable

/-! # C128: training on fresh samples minimises the expected robust loss, on average -/

namespace Skwdro
open Spec MeasureTheory Tensor

/-! ## Gradients -/

theorem grad_unique {N : ℕ} {f : (Fin N → ℝ) → ℝ → ℝ} {v : Fin N → ℝ} {l : ℝ} {g g' : Fin N → ℝ} {gl gl' : ℝ} (h : IsGradAt f v l g gl) (h' : IsGradAt f v l g' gl') :
    g = g' ∧ gl = gl' := by
  have key : ∀ (w : Fin N → ℝ) (m : ℝ), ∑ k, g k * w k + gl * m = ∑ k, g' k * w k + gl' * m := fun w m => (h w m).unique (h' w m)
  constructor
  · funext k
    simpa [Pi.single_apply] using key (Pi.single k 1) 0
  · simpa using key 0 1

theorem cauchy_pair {N : ℕ} (g : Fin N → ℝ) (gl : ℝ) (w : Fin N → ℝ) (m : ℝ) :
    (∑ k, g k * w k + gl * m) ^ 2 ≤ (∑ k, g k ^ 2 + gl ^ 2) * (∑ k, w k ^ 2 + m ^ 2) := by
  have h := Finset.sum_mul_sq_le_sq_mul_sq Finset.univ (fun o : Option (Fin N) => o.elim gl g) (fun o : Option (Fin N) => o.elim m w)
  simp only [Fintype.sum_option, Option.elim_none, Option.elim_some] at h
  rw [add_comm (gl * m), add_comm (gl ^ 2), add_comm (m ^ 2)] at h
  exact h

/-- convex functions with bounded slopes are continuous -/
theorem continuous_of_slopes {N : ℕ} {f : (Fin N → ℝ) → ℝ → ℝ} {L : ℝ} (h : ∀ v l, ∃ g gl, IsSubgradAt f v l g gl ∧ ∑ k, g k ^ 2 + gl ^ 2 ≤ L ^ 2) :
    Continuous fun x : (Fin N → ℝ) × ℝ => f x.1 x.2 := by
  have key : ∀ v l v' l', f v l - f v' l' ≤ Real.sqrt (L ^ 2 * gap2 v' l' v l) := by
    intro v l v' l'
    obtain ⟨g, gl, h1, h2⟩ := h v l
    have h3 := h1 v' l'
    have h4 := cauchy_pair g gl (fun k => v' k - v k) (l' - l)
    have h5 : (∑ k, g k * (v' k - v k) + gl * (l' - l)) ^ 2 ≤ L ^ 2 * gap2 v' l' v l :=
      h4.trans (mul_le_mul_of_nonneg_right h2 (gap2_nonneg v' l' v l))
    have h6 := abs_le.1 (Real.abs_le_sqrt h5)
    linarith
  have hsym : ∀ (v : Fin N → ℝ) l v' l', gap2 v' l' v l = gap2 v l v' l' := by
    intro v l v' l'
    simp only [gap2]
    congr 1
    · exact Finset.sum_congr rfl fun k _ => by ring
    · ring
  rw [continuous_iff_continuousAt]
  rintro ⟨v, l⟩
  rw [ContinuousAt, tendsto_iff_norm_sub_tendsto_zero]
  have hc : Continuous fun x : (Fin N → ℝ) × ℝ => Real.sqrt (L ^ 2 * gap2 x.1 x.2 v l) := by
    unfold gap2
    fun_prop
  have h0 := hc.tendsto (v, l)
  simp only [gap2_self, mul_zero, Real.sqrt_zero] at h0
  refine squeeze_zero (fun _ => norm_nonneg _) (fun x => ?_) h0
  rw [Real.norm_eq_abs, abs_le]
  have h1 := key x.1 x.2 v l
  have h2 := key v l x.1 x.2
  rw [hsym] at h1
  exact ⟨by linarith, h1⟩

section
variable {A : Type} [MeasurableSpace A] {N : ℕ} {Phi : A → (Fin N → ℝ) → ℝ → ℝ}

/-- the gradient of a measurable function is measurable -/
theorem grad_measurable (hm : Measurable fun q : ((Fin N → ℝ) × ℝ) × A => Phi q.2 q.1.1 q.1.2) {Gam : A → (Fin N → ℝ) → ℝ → Fin N → ℝ} {gam : A → (Fin N → ℝ) → ℝ → ℝ}
    (hg : ∀ a v l, IsGradAt (Phi a) v l (Gam a v l) (gam a v l)) :
    (Measurable fun q : A × ((Fin N → ℝ) × ℝ) => Gam q.1 q.2.1 q.2.2) ∧ Measurable fun q : A × ((Fin N → ℝ) × ℝ) => gam q.1 q.2.1 q.2.2 := by
  have key : ∀ (w : Fin N → ℝ) (m : ℝ), Measurable fun q : A × ((Fin N → ℝ) × ℝ) => ∑ k, Gam q.1 q.2.1 q.2.2 k * w k + gam q.1 q.2.1 q.2.2 * m := by
    intro w m
    have ht : Filter.Tendsto (fun n : ℕ => 1 / ((n : ℝ) + 1)) Filter.atTop (nhdsWithin 0 {0}ᶜ) :=
      tendsto_nhdsWithin_iff.2 ⟨tendsto_one_div_add_atTop_nhds_zero_nat, Filter.Eventually.of_forall fun n => by
        simp only [Set.mem_compl_iff, Set.mem_singleton_iff]; positivity⟩
    refine measurable_of_tendsto_metrizable (f := fun (n : ℕ) (q : A × ((Fin N → ℝ) × ℝ)) =>
      (1 / ((n : ℝ) + 1))⁻¹ • (Phi q.1 (fun k => q.2.1 k + (0 + 1 / ((n : ℝ) + 1)) * w k) (q.2.2 + (0 + 1 / ((n : ℝ) + 1)) * m) -
        Phi q.1 (fun k => q.2.1 k + 0 * w k) (q.2.2 + 0 * m))) (fun n => ?_) ?_
    · have h1 : ∀ c : ℝ, Measurable fun q : A × ((Fin N → ℝ) × ℝ) => Phi q.1 (fun k => q.2.1 k + c * w k) (q.2.2 + c * m) := fun c =>
        hm.comp (f := fun q : A × ((Fin N → ℝ) × ℝ) => (((fun k => q.2.1 k + c * w k : Fin N → ℝ), q.2.2 + c * m), q.1)) (by fun_prop)
      exact Measurable.const_smul ((h1 _).sub (h1 0)) ((1 / ((n : ℝ) + 1))⁻¹)
    · rw [tendsto_pi_nhds]
      intro q
      exact ((hg q.1 q.2.1 q.2.2 w m).tendsto_slope_zero).comp ht
  constructor
  · rw [measurable_pi_iff]
    intro k
    simpa [Pi.single_apply] using key (Pi.single k 1) 0
  · simpa using key 0 1

end

/-! ## Training without a seed -/

theorem dualize_unseeded {G : Type} {ext : TorchExt G} {a : DualizeArgs} (hs : a.seed = none) {g g' : G} {D : DualLoss} (h : dualize ext a g = .ok (D, g')) (g₁ : G) :
    dualize ext a g₁ = .ok (D, g₁) := by
  obtain ⟨parsed, obj, c, s, hp, ho, hc, hsm, rfl⟩ := dualize_ok h
  have h1 : dualizeSampler ext c a.xi a.xi_labels (expertSigma a.rho a.sigma SIGMA_FACTOR) a.seed g₁ = .ok (s, g₁) := by
    rw [hs] at hsm ⊢
    cases hy : a.xi_labels with
    | none =>
      simp only [dualizeSampler, hy, mkNoLabelsCost] at hsm ⊢
      cases hd : samplerData c a.xi (some (expertSigma a.rho a.sigma SIGMA_FACTOR)) with
      | error e => simp [hd] at hsm
      | ok sd =>
        simp only [hd, ok_bind, Except.ok.injEq, Prod.mk.injEq] at hsm ⊢
        exact ⟨hsm.1, rfl⟩
    | some y =>
      simp only [dualizeSampler, hy, mkLabeledCost] at hsm ⊢
      cases hd : samplerData c a.xi (some (expertSigma a.rho a.sigma SIGMA_FACTOR)) with
      | error e => simp [hd] at hsm
      | ok sd =>
        cases hl : samplerLabels c (some y) (some (expertSigma a.rho a.sigma SIGMA_FACTOR)) with
        | error e => simp [hd, hl] at hsm
        | ok sl =>
          cases sl with
          | none => simp [hd, hl] at hsm
          | some sl =>
            simp only [hd, hl, ok_bind, Except.ok.injEq, Prod.mk.injEq] at hsm ⊢
            exact ⟨hsm.1, rfl⟩
  unfold dualize
  simp only [hp, ho, hc, h1, ok_bind]
  rfl

theorem dualize_lam_nonneg {G : Type} {ext : TorchExt G} {a : DualizeArgs} {g g' : G} {D : DualLoss} (h : dualize ext a g = .ok (D, g')) : 0 ≤ D.lam := by
  obtain ⟨parsed, obj, c, s, -, -, -, -, rfl⟩ := dualize_ok h
  show 0 ≤ initialLam a.rho
  unfold initialLam
  split
  · split
    · positivity
    · exact le_rfl
  · exact le_rfl

section
variable {G A : Type} {N : ℕ} {obs : G → A} {next : G → G}

theorem proc_head {X : Type} (S : A → X → X) (x : X) (j : ℕ) (g : G) :
    proc obs next (fun _ => S) x (j + 1) g = proc obs next (fun _ => S) (S (obs g) x) j (next g) := by
  induction j with
  | zero => rfl
  | succ j ih =>
    show S (obs (next^[j + 1] g)) (proc obs next (fun _ => S) x (j + 1) g) = _
    rw [ih]
    rfl

/-- pre-training steps, the guess of the multiplier at the end of the last one, and robust steps -/
noncomputable def freshSteps (S : A → (Fin N → ℝ) × ℝ → (Fin N → ℝ) × ℝ) (guess : (Fin N → ℝ) → ℝ) (p k : ℕ) (a : A) (x : (Fin N → ℝ) × ℝ) : (Fin N → ℝ) × ℝ :=
  if k + 1 = p then ((S a x).1, guess (S a x).1) else S a x

theorem freshSteps_before (S : A → (Fin N → ℝ) × ℝ → (Fin N → ℝ) × ℝ) (guess : (Fin N → ℝ) → ℝ) {p j : ℕ} (hj : j < p) (x : (Fin N → ℝ) × ℝ) (g : G) :
    proc obs next (freshSteps S guess p) x j g = proc obs next (fun _ => S) x j g := by
  induction j with
  | zero => rfl
  | succ j ih =>
    show freshSteps S guess p j _ (proc obs next (freshSteps S guess p) x j g) = S _ _
    rw [ih (by omega), freshSteps, if_neg (by omega)]

theorem freshSteps_at (S : A → (Fin N → ℝ) × ℝ → (Fin N → ℝ) × ℝ) (guess : (Fin N → ℝ) → ℝ) (p : ℕ) (v : Fin N → ℝ) (l : ℝ) (g : G) :
    proc obs next (freshSteps S guess p) (v, if p = 0 then guess v else l) p g =
      ((proc obs next (fun _ => S) (v, l) p g).1, guess (proc obs next (fun _ => S) (v, l) p g).1) := by
  cases p with
  | zero => rfl
  | succ p =>
    rw [if_neg (by omega)]
    show freshSteps S guess (p + 1) p _ (proc obs next (freshSteps S guess (p + 1)) (v, l) p g) = _
    rw [freshSteps_before S guess (by omega), freshSteps, if_pos rfl]
    rfl

end

section
variable {G : Type} {d N : ℕ} {ext : TorchExt G} {cfg : OCConfig} {fl : ℝ → ℝ} {args : Module d → DualizeArgs}
  {M0 : Module d} {D : DualLoss} {clip : Bool} {lr : ℝ} {back : Tape G → List ℝ × ℝ} {next : G → G}
  {A : Type} {obs : G → A} {Phi : A → (Fin N → ℝ) → ℝ → ℝ} {Gam : A → (Fin N → ℝ) → ℝ → Fin N → ℝ} {gam : A → (Fin N → ℝ) → ℝ → ℝ}

/-- the pre-training steps follow the process -/
theorem iterated_proc (hf : PostLossIs ext args D M0 next fun gen => Phi (obs gen)) (hb : PostBackIs ext args D M0 back fun gen => IsGradAt (Phi (obs gen)))
    (hg : ∀ a v l, IsGradAt (Phi a) v l (Gam a v l) (gam a v l)) {j : ℕ} {s t : OptView Unit × G}
    (h : Iterated (fun a b => ∃ x, PostUpdate ext (descentTorch clip lr back) args D M0 x a b) j s t) : ∀ x : (Fin N → ℝ) × ℝ, s.1.params = List.ofFn x.1 → s.1.lam = x.2 →
    t.1.params = List.ofFn (proc obs next (fun _ => freshStep clip lr Gam gam) x j s.2).1 ∧ t.1.lam = (proc obs next (fun _ => freshStep clip lr Gam gam) x j s.2).2 ∧
      t.2 = next^[j] s.2 := by
  induction h with
  | zero v => intro x h1 h2; exact ⟨h1, h2, rfl⟩
  | succ n v w u h1 _ ih =>
    intro x hx1 hx2
    obtain ⟨y, h1⟩ := h1
    obtain ⟨g, gl, i1, i2, i3, -, i5⟩ := online_update hf hb h1 hx1
    rw [hx2] at i1 i3
    obtain ⟨rfl, rfl⟩ := grad_unique i1 (hg (obs v.2) x.1 x.2)
    rw [proc_head, Function.iterate_succ_apply, ← i5]
    exact ih (freshStep clip lr Gam gam (obs v.2) x) i2 i3

theorem guess_eq {guess : (Fin N → ℝ) → ℝ} (hgs : GuessIs args D M0 guess) {v w : OptView Unit} (h : DualGuessed args D M0 v w) {x : Fin N → ℝ} (hx : v.params = List.ofFn x) :
    w.params = List.ofFn x ∧ w.lam = guess x := by
  obtain ⟨D', h1, rfl⟩ := h
  refine ⟨hx, hgs x v.lam D' ?_⟩
  rw [← h1]
  simp only [lossFor, hx]

/-- **C128** Training with the post-sampled loss and without a seed, by gradient descent with exact gradients and any learning rate, for any schedule.  The state of the
generator is random, and the evaluations draw independent samples; `Phi a` is the loss of parameters and multiplier on the samples `a`, convex and with slopes at most `L a`.
The optimality condition never stops the training.  Then, on average over the states of the generator, the returned parameters and multiplier and the loss
reported are nearly optimal for the expected loss: they exceed that of any fixed parameters and multiplier by what `NearOptimalOnAverage` says.  The robust phase starts at the parameters
reached by the pre-training steps and at the initial guess of the multiplier there. -/
theorem C128_expected [MeasurableSpace G] [MeasurableSpace A] {mu : Measure G} [IsProbabilityMeasure mu]
    (hseed : (args M0).seed = none) {g₀ g₀' : G} (hD : dualize ext (args M0) g₀ = .ok (D, g₀')) (hpost : (args M0).post_sample = true) (hrho : (args M0).rho.isPos = true)
    {steps : ℤ ⊕ (ℤ × ℤ)} {p q0 : ℤ} (hst : interpretSteps fl split03 (toSteps steps) = .ok (p, q0)) {n : ℕ} (hn : (toSteps steps).iterations = n) (hn0 : 0 < n)
    (oc : OCState) (hN : M0.theta.length = N) (hf : PostLossIs ext args D M0 next fun gen => Phi (obs gen))
    (hb : PostBackIs ext args D M0 back fun gen => IsGradAt (Phi (obs gen))) (hfresh : FreshDraws mu next obs)
    (hconv : ∀ a, PlanesBelow (Phi a)) (hdiff : ∀ a v l, ∃ g gl, IsGradAt (Phi a) v l g gl) (hm : ∀ v l, Measurable fun a => Phi a v l)
    {L : A → ℝ} (hL : ∀ a, SlopeAtMost (IsGradAt (Phi a)) (L a)) (hLm : Measurable L) (hLi : Integrable (fun g => L (obs g) ^ 2) mu)
    (hP0 : Integrable (fun g => Phi (obs g) 0 0) mu) {guess : (Fin N → ℝ) → ℝ} (hgs : GuessIs args D M0 guess) (hgm : Measurable guess)
    (hg0 : ∀ v, 0 ≤ guess v) {C : ℝ} (hgC : ∀ v, guess v ^ 2 ≤ C * (1 + ∑ k, v k ^ 2)) (hstop : NeverStops cfg n) (hl : 0 < lr)
    {M : G → Module d} {r : G → Solved (List ℝ)} (h : ∀ g, solveTorch ext (descentTorch clip lr back) cfg fl args M0 steps oc g = .ok (M g, r g)) :
    ∃ start : G → (Fin N → ℝ) × ℝ,
      (∀ g, ∃ v1 g1 v2, Iterated (fun a b => ∃ x, PostUpdate ext (descentTorch clip lr back) args D M0 x a b) p.toNat (⟨M0.theta, D.lam, none, none, ()⟩, g) (v1, g1) ∧
        DualGuessed args D M0 v1 v2 ∧ v2.params = List.ofFn (start g).1 ∧ v2.lam = (start g).2) ∧
      NearOptimalOnAverage mu clip lr (fun g => Phi (obs g)) (fun g => L (obs g)) n start M0 M r := by
  choose Gam gam hgr using hdiff
  have hsub : ∀ a v l, IsSubgradAt (Phi a) v l (Gam a v l) (gam a v l) := fun a v l => grad_subgrad (hconv a) (hgr a v l)
  have hL' : ∀ a v l, ∑ k, Gam a v l k ^ 2 + gam a v l ^ 2 ≤ L a ^ 2 := fun a v l => hL a v l _ _ (hgr a v l)
  have hPm : Measurable fun q : ((Fin N → ℝ) × ℝ) × A => Phi q.2 q.1.1 q.1.2 :=
    measurable_uncurry_of_continuous_of_measurable (u := fun (x : (Fin N → ℝ) × ℝ) a => Phi a x.1 x.2)
      (fun a => continuous_of_slopes fun v l => ⟨_, _, hsub a v l, hL' a v l⟩) fun x => hm x.1 x.2
  obtain ⟨mG, mg⟩ := grad_measurable hPm hgr
  have mstep : Measurable fun q : A × ((Fin N → ℝ) × ℝ) => freshStep clip lr Gam gam q.1 q.2 := by
    have hc : Measurable fun x : ℝ => clipped clip x := by
      unfold clipped
      cases clip
      · exact measurable_id
      · exact measurable_const.max measurable_id
    have h1 : Measurable fun q : A × ((Fin N → ℝ) × ℝ) => fun k => q.2.1 k - lr * Gam q.1 q.2.1 q.2.2 k := by
      rw [measurable_pi_iff]
      intro k
      exact ((measurable_pi_apply k).comp (measurable_fst.comp measurable_snd)).sub (((measurable_pi_apply k).comp mG).const_mul lr)
    exact h1.prodMk (hc.comp ((measurable_snd.comp measurable_snd).sub (mg.const_mul lr)))
  obtain ⟨v00, hv00⟩ : ∃ v0 : Fin N → ℝ, M0.theta = List.ofFn v0 := by
    subst hN
    exact ⟨M0.theta.get, (List.ofFn_get _).symm⟩
  set P := p.toNat with hP
  set T := freshSteps (freshStep clip lr Gam gam) guess P with hT
  set x0 : (Fin N → ℝ) × ℝ := (v00, if P = 0 then guess v00 else D.lam) with hx0
  have mT : ∀ k, Measurable fun q : A × ((Fin N → ℝ) × ℝ) => T k q.1 q.2 := by
    intro k
    simp only [hT, freshSteps]
    split
    · exact (measurable_fst.comp mstep).prodMk (hgm.comp (measurable_fst.comp mstep))
    · exact mstep
  -- pre-training keeps square integrability
  have hpre : ∀ j, Integrable (fun g => gap2 (proc obs next (fun _ => freshStep clip lr Gam gam) (v00, D.lam) j g).1
      (proc obs next (fun _ => freshStep clip lr Gam gam) (v00, D.lam) j g).2 0 0) mu := by
    intro j
    have H0 : DescendsFrom mu next obs Phi Gam gam L clip lr (fun _ => freshStep clip lr Gam gam) (v00, D.lam) 0 :=
      ⟨hfresh, fun _ => mstep, fun _ _ => rfl, hsub, hL', hLm, hLi, hPm, hP0, integrable_const (gap2 v00 D.lam 0 0), fun _ _ => dualize_lam_nonneg hD, hl⟩
    exact H0.int_gap (Nat.zero_le j)
  have hat : ∀ g, proc obs next T x0 P g = ((proc obs next (fun _ => freshStep clip lr Gam gam) (v00, D.lam) P g).1,
      guess (proc obs next (fun _ => freshStep clip lr Gam gam) (v00, D.lam) P g).1) := fun g => freshSteps_at _ guess P v00 D.lam g
  have hC0 : 0 ≤ C := by
    have h1 := hgC 0
    simp only [Pi.zero_apply, ne_eq, OfNat.ofNat_ne_zero, not_false_eq_true, zero_pow, Finset.sum_const_zero, add_zero, mul_one] at h1
    exact (sq_nonneg _).trans h1
  have mP : Measurable (proc obs next T x0 P) := proc_measurable hfresh mT x0 P
  have H : DescendsFrom mu next obs Phi Gam gam L clip lr T x0 P := by
    refine ⟨hfresh, mT, fun k hk => ?_, hsub, hL', hLm, hLi, hPm, hP0, ?_, fun _ g => ?_, hl⟩
    · funext a x
      rw [hT, freshSteps, if_neg (by omega)]
    · refine (((hpre P).const_mul (1 + C)).add (integrable_const C)).mono' (gap2_measurable_left mP 0 0).aestronglyMeasurable (Filter.Eventually.of_forall fun g => ?_)
      rw [Real.norm_eq_abs, abs_of_nonneg (gap2_nonneg _ _ _ _), hat g]
      set y := proc obs next (fun _ => freshStep clip lr Gam gam) (v00, D.lam) P g
      have h1 := hgC y.1
      have h2 : 0 ≤ (1 + C) * y.2 ^ 2 := by positivity
      simp only [gap2, Pi.zero_apply, sub_zero, Pi.add_apply]
      nlinarith
    · rw [hat g]
      exact hg0 _
  -- the training follows the process
  have hrun : ∀ g, (∃ v1 g1 v2, Iterated (fun a b => ∃ x, PostUpdate ext (descentTorch clip lr back) args D M0 x a b) P (⟨M0.theta, D.lam, none, none, ()⟩, g) (v1, g1) ∧
        DualGuessed args D M0 v1 v2 ∧ v2.params = List.ofFn (proc obs next T x0 P g).1 ∧ v2.lam = (proc obs next T x0 P g).2) ∧
      (r g).coef = List.ofFn (proc obs next T x0 (P + n) g).1 ∧ (r g).dual_var = (proc obs next T x0 (P + n) g).2 ∧ M g = M0.withParams (r g).coef ∧
      (r g).robust_loss = .fin (Phi (obs (next^[P + (n - 1)] g)) (proc obs next T x0 (P + (n - 1)) g).1 (proc obs next T x0 (P + (n - 1)) g).2) := by
    intro g
    obtain ⟨v0, v1, g1, v2, h1, h2, h3, K, v, l, gens, k1, k2, k3, k4, k5, k6, k7, k8, k9, k10, k11, -, -⟩ :=
      C123_regret (dualize_unseeded hseed hD g) hpost hrho hst hn hn0 oc hN hf hb (fun gen => hconv (obs gen)) (L := fun gen => L (obs gen))
        (fun gen => hL (obs gen)) hl (h g)
    obtain ⟨i1, i2, i3⟩ := iterated_proc hf hb hgr h1 (v00, D.lam) hv00 rfl
    obtain ⟨i4, i5⟩ := guess_eq hgs h2 i1
    obtain rfl : K = n := by
      by_contra hne
      obtain ⟨m, m', pg, lg, hh⟩ := k11 (by omega)
      exact hstop (K - 1) m m' _ lg _ (by omega) hh
    have hv0 : v0 = (proc obs next T x0 P g).1 := by
      rw [hat g]
      exact List.ofFn_injective (h3.symm.trans i4)
    have hl0 : v2.lam = (proc obs next T x0 P g).2 := by rw [hat g]; exact i5
    have key : ∀ k ≤ K, v k = (proc obs next T x0 (P + k) g).1 ∧ l k = (proc obs next T x0 (P + k) g).2 ∧ gens k = next^[P + k] g := by
      intro k
      induction k with
      | zero => intro _; exact ⟨k3.trans hv0, k4.trans hl0, k5.trans i3⟩
      | succ k ih =>
        intro hk
        obtain ⟨j1, j2, j3⟩ := ih (by omega)
        obtain ⟨a, al, m1, m2, m3⟩ := k6.moves k (by omega)
        have e1 : proc obs next T x0 (P + (k + 1)) g = freshStep clip lr Gam gam (obs (next^[P + k] g)) (proc obs next T x0 (P + k) g) := by
          show T (P + k) (obs (next^[P + k] g)) (proc obs next T x0 (P + k) g) = _
          rw [H.hs (P + k) (by omega)]
        rw [j1, j2, j3] at m1
        obtain ⟨rfl, rfl⟩ := grad_unique m1 (hgr _ _ _)
        rw [m2, m3, k6.draws k (by omega), e1, j1, j2, j3]
        exact ⟨rfl, rfl, (Function.iterate_succ_apply' next (P + k) g).symm⟩
    obtain ⟨j1, j2, -⟩ := key K le_rfl
    obtain ⟨j3, j4, j5⟩ := key (K - 1) (by omega)
    refine ⟨⟨v1, g1, v2, h1, h2, by rw [h3, hv0], hl0⟩, by rw [k7, j1], by rw [k8, j2], k9, ?_⟩
    rw [k10, j3, j4, j5]
  refine ⟨proc obs next T x0 P, fun g => (hrun g).1, H.int_point, fun g => (proc obs next T x0 (P + n) g).1,
    fun g => Phi (obs (next^[P + (n - 1)] g)) (proc obs next T x0 (P + (n - 1)) g).1 (proc obs next T x0 (P + (n - 1)) g).2,
    fun g => ⟨(hrun g).2.1, (hrun g).2.2.2.1, (hrun g).2.2.2.2⟩, ?_, H.int_loss (by omega) _, fun q lq hq => ⟨H.int_gap1 le_rfl q lq, ?_, ?_⟩⟩
  · simp only [fun g => (hrun g).2.2.1]
    exact (H.expect (by omega : P ≤ P + n) le_rfl).1
  · have hL2 : 0 ≤ ∫ g, L (obs g) ^ 2 ∂mu := integral_nonneg fun _ => sq_nonneg _
    have h1 := H.last_point n q hq
    have h2 : lr / 2 * (∫ g, L (obs g) ^ 2 ∂mu) * (1 + (harmonic n : ℝ)) ≤ lr / 2 * (∫ g, L (obs g) ^ 2 ∂mu) * (2 + Real.log n) := by
      refine mul_le_mul_of_nonneg_left ?_ (by positivity)
      linarith [harmonic_le_one_add_log n]
    simp only [fun g => (hrun g).2.2.1]
    linarith
  · have hL2 : 0 ≤ ∫ g, L (obs g) ^ 2 ∂mu := integral_nonneg fun _ => sq_nonneg _
    have h1 := H.last_point (n - 1) q hq
    rw [(H.expect (by omega : P ≤ P + (n - 1)) le_rfl).2]
    have h2 : lr / 2 * (∫ g, L (obs g) ^ 2 ∂mu) * (1 + (harmonic (n - 1) : ℝ)) ≤ lr / 2 * (∫ g, L (obs g) ^ 2 ∂mu) * (2 + Real.log n) := by
      refine mul_le_mul_of_nonneg_left ?_ (by positivity)
      have h3 := harmonic_le_one_add_log n
      have h4 : (harmonic (n - 1) : ℝ) ≤ harmonic n := by
        obtain ⟨k, rfl⟩ : ∃ k, n = k + 1 := ⟨n - 1, by omega⟩
        rw [harmonic_succ]
        push_cast
        simp only [Nat.add_sub_cancel, le_add_iff_nonneg_right]
        positivity
      linarith
    have e : ((n - 1 : ℕ) : ℝ) + 1 = n := by
      have : n - 1 + 1 = n := by omega
      exact_mod_cast this
    rw [e] at h1
    linarith

end

end Skwdro
