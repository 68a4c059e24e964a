import Verif.Props.EstObjective
import Verif.Props.Fit
import Verif.Props.Solve

/-! # C90: the arguments of the estimators take effect -/

namespace Skwdro
open Spec Tensor

section
variable {G : Type} {ext : TorchExt G} {d : ℕ} {grads : Autograd d} {P : EstParams} {post mc : Bool} {e : EstKind} {x : Tensor ℝ}
  {y : Option (Tensor ℝ)} {M : Module d} {g g' : G} {D : DualLoss}

/-- **C90** The robust loss built by a fit has the radius, the regularisation, the number of samples and the cost of the arguments; torch's
generator is left in the state given by the seed, whatever it was; importance sampling is on exactly for squared Euclidean costs, and for the
two regressions only with a post-sampled solver. -/
theorem C90_robust_loss (h : dualize ext (torchArgs grads e P post mc x y M) g = .ok (D, g')) :
    D.rho = P.rho ∧ (∀ v, P.solver_reg = some v → D.epsilon = v) ∧ D.nSamples = P.n_zeta_samples.toNat ∧ g' = ext.seed P.random_state ∧
    (∃ parsed obj, parse_code_torch (some P.cost) y.isSome = .ok parsed ∧ cost_from_parse_torch parsed = .ok obj ∧ obj.toReal = some D.cost) ∧
    (D.impSamp = true ↔ (post = true ∨ e = .weber ∨ e = .portfolio ∨ e = .newsvendor) ∧ D.cost.p = .fin 2 ∧ D.cost.power = 2) := by
  obtain ⟨-, -, hR, -, -, hE, hN, -⟩ := dualize_fields h
  obtain ⟨s, -, -, -, -, hg, -⟩ := dualize_sampler h
  refine ⟨hR, fun v hv => ?_, hN, hg, ?_, ?_⟩
  · have hE' : D.epsilon = (expertEpsilon P.rho D.cost.power P.solver_reg EPSILON_SIGMA_FACTOR SIGMA_FACTOR).getD 0 := hE
    rw [hE', hv]; rfl
  · obtain ⟨parsed, obj, c, s, hp, ho, hc, -, rfl⟩ := dualize_ok h
    exact ⟨parsed, obj, hp, ho, hc⟩
  · rw [C21_enabled_iff ext h]
    refine and_congr ?_ Iff.rfl
    cases e <;> first | (show post = true ↔ _; simp; done) | (show true = true ↔ _; simp)

/-- **C90** The samples of a fit are the data plus standard noise, scaled by `sampler_reg` where the estimator has that argument and it is
given, by half the radius otherwise: Laplace noise for the cost of power one and order one, normal noise for the others. -/
theorem C90_noise (h : dualize ext (torchArgs grads e P post mc x y M) g = .ok (D, g')) :
    ∃ s sig, D.sampler = some s ∧ 0 < sig ∧
      (∀ v, P.sampler_reg = some v → e = .logistic ∨ e = .linreg ∨ e = .weber → sig = v) ∧
      (∀ r, P.rho = .num r → 0 < r → (P.sampler_reg = none ∨ e = .portfolio ∨ e = .newsvendor) → sig = r / 2) ∧
      ∀ (n : ℕ) (g1 : G), (s.sample ext n g1).1.shape = n :: x.shape ∧ ∀ i, (s.sample ext n g1).1.get i = x.get i.tail + sig *
        ((if D.cost.power = 1 ∧ D.cost.p = .fin 1 then ext.stdLaplace g1 (n :: x.shape) else ext.stdNormal g1 (n :: x.shape)).1.get i) := by
  obtain ⟨s, hs, h1, -⟩ := dualize_sampler h
  obtain ⟨-, hpos, hl⟩ := samplerData_scale h1
  refine ⟨s, _, hs, hpos, fun v hv he => ?_, fun r hr hrp he => ?_, fun n g1 => ?_⟩
  · have : expertSigma P.rho P.sampler_reg SIGMA_FACTOR = v := by rw [hv]; rfl
    rcases he with rfl | rfl | rfl <;> exact this
  · have h0 : expertSigma P.rho none SIGMA_FACTOR = r / 2 := by
      simp only [expertSigma, hr, if_pos hrp, SIGMA_FACTOR]; ring
    rcases he with hn | rfl | rfl
    · have h2 : expertSigma P.rho P.sampler_reg SIGMA_FACTOR = r / 2 := by rw [hn]; exact h0
      cases e <;> first | exact h0 | exact h2
    · exact h0
    · exact h0
  · have hx : (torchArgs grads e P post mc x y M).xi = x := rfl
    have hz : (s.sample ext n g1).1 = (s.data_s.rsample ext g1 n).1 := by
      unfold Sampler.sample
      cases s.labels_s <;> rfl
    rw [hz]
    rcases hl with ⟨hl, hp, hq⟩ | ⟨hl, hne⟩
    · rw [hl, if_pos ⟨hp, hq⟩]
      exact ⟨rfl, fun i => rfl⟩
    · rw [hl, if_neg (by rintro ⟨a, b⟩; rcases hne with hne | hne; exacts [hne a, hne b])]
      exact ⟨rfl, fun i => rfl⟩

end

/-! ### Length of the training -/

section
variable {W Θ : Type} {env : Env W}

/-- solving returns only after its loop has -/
theorem solveDual_inv {out : Readout W Θ} {pre rhoPos : Bool} {fl : ℝ → ℝ} {sched : Steps} {p n : ℤ}
    (hp : interpretSteps fl split03 sched = .ok (p, n)) {s s' : St W} {r : Solved Θ}
    (h : solveDual env out pre rhoPos fl sched s = (.ok r, s')) :
    ∃ L, (if pre then optimPre env p sched.iterations else optimPost env p sched.iterations) s = (.ok L, s') ∧ L.getLast? = some r.robust_loss := by
  unfold solveDual at h
  simp only [hp] at h
  have key : ∀ {L : List (XNum ℝ)} {s2 : St W},
      ((do
        let theta ← M.read (fun s : St W => out.theta s.w)
        let intercept ← M.read (fun s => out.intercept s.w)
        let lam ← M.read (fun s => out.lam s.w)
        let lambd := if rhoPos = true then lam else 0
        match L.getLast? with
        | some v => Pure.pure ⟨theta, intercept, lambd, v⟩
        | none => M.raise .indexError) : M W (Solved Θ)) s2 = (.ok r, s') → s2 = s' ∧ L.getLast? = some r.robust_loss := by
    intro L s2 h
    simp only [M.bind_def, M.read] at h
    cases hl : L.getLast? with
    | none => simp [hl, M.raise] at h
    | some v =>
      simp only [hl, M.pure_def, Prod.mk.injEq, Except.ok.injEq] at h
      exact ⟨h.2, by rw [← h.1]⟩
  have hb := M.bind_inv h; clear h; rcases hb with ⟨u, s1, h1, h⟩ | ⟨e, h1, hr⟩
  swap
  · simp at hr
  simp only [M.pure, Prod.mk.injEq, Except.ok.injEq] at h1
  obtain ⟨rfl, rfl⟩ := h1
  cases pre with
  | true =>
    simp only [if_true] at h ⊢
    have hb := M.bind_inv h; clear h; rcases hb with ⟨L, s2, h2, h⟩ | ⟨e, h1, hr⟩
    · obtain ⟨rfl, hl⟩ := key h
      exact ⟨L, h2, hl⟩
    · simp at hr
  | false =>
    simp only [Bool.false_eq_true, if_false] at h ⊢
    have hb := M.bind_inv h; clear h; rcases hb with ⟨L, s2, h2, h⟩ | ⟨e, h1, hr⟩
    · obtain ⟨rfl, hl⟩ := key h
      exact ⟨L, h2, hl⟩
    · simp at hr

theorem solveDual_ran {out : Readout W Θ} {pre rhoPos : Bool} {fl : ℝ → ℝ} {sched : Steps} {p n : ℤ}
    (hp : interpretSteps fl split03 sched = .ok (p, n)) {s s' : St W} {r : Solved Θ} (hs : s.tr = [])
    (h : solveDual env out pre rhoPos fl sched s = (.ok r, s')) : Ran s'.tr p sched.iterations := by
  obtain ⟨L, hL, -⟩ := solveDual_inv hp h
  cases pre with
  | true =>
    obtain ⟨A, B, h1, h2, h3, h4, -, -, h7, h8, -, h10⟩ := C48_presampled hL
    exact ⟨A, B, by rw [h1, hs]; simp, h2, h3, h4, by rw [← h7]; exact h8, by rw [← h7]; exact h10⟩
  | false =>
    obtain ⟨A, B, h1, h2, h3, h4, h5, -, h7, h8, -, h10⟩ := C48_postsampled hL
    refine ⟨A, B, by rw [h1, hs]; simp, h2, h3, h4, ?_, h10⟩
    rw [h7, List.length_append, h5, h4] at h8
    omega

end

section
variable {G O : Type} {ext : TorchExt G} {T : Torch G O} {cfg : OCConfig} {fl : ℝ → ℝ} {d : ℕ} {args : Module d → DualizeArgs} {D : DualLoss}
  {M0 : Module d} {oc : OCState} {g : G} {r : Solved (List ℝ)} {st : St (Box d G O)} {e : EstKind} {P : EstParams} {post : Bool}

/-- **C90** The training of a completed fit follows `n_iter`: a pair gives the lengths of pre-training and training; a number `n` the length of
training, with a pre-training of `0.3 n` steps, rounded as the machine does; without it, (200, 2800) for post-sampled solvers and
(100, 10) for pre-sampled ones, except for the Weber estimator, which then trains for 300 steps. -/
theorem C90_schedule (h : solveRun ext T cfg fl args D M0 (trainSteps e P post) oc g = (.ok r, st)) :
    (∀ p n, P.n_iter = some (.inr (p, n)) → Ran st.tr p n) ∧
    (∀ n, P.n_iter = some (.inl n) → Ran st.tr (pyTrunc (fl (n * split03))) n) ∧
    (P.n_iter = none → e ≠ .weber → post = true → Ran st.tr 200 2800) ∧
    (P.n_iter = none → e ≠ .weber → post = false → Ran st.tr 100 10) ∧
    (P.n_iter = none → e = .weber → Ran st.tr (pyTrunc (fl (300 * split03))) 300) := by
  have key : ∀ sched p n, toSteps (trainSteps e P post) = sched → interpretSteps fl split03 sched = .ok (p, n) → Ran st.tr p sched.iterations := by
    intro sched p n hs hp
    subst hs
    exact solveDual_ran hp rfl h
  have h1 : ∀ n : ℤ, interpretSteps fl split03 (.one n) = .ok (pyTrunc (fl (n * split03)), n) := fun n => by
    simp only [interpretSteps, if_pos split03_mem]
  refine ⟨fun p n hn => ?_, fun n hn => ?_, fun hn he hp => ?_, fun hn he hp => ?_, fun hn he => ?_⟩
  · exact key (.pair p n) p n (by simp [trainSteps, hn, defaultSteps, toSteps]) rfl
  · exact key (.one n) _ n (by simp [trainSteps, hn, defaultSteps, toSteps]) (h1 n)
  · exact key (.pair 200 2800) _ _ (by simp [trainSteps, hn, he, hp, defaultSteps, toSteps]) rfl
  · exact key (.pair 100 10) _ _ (by simp [trainSteps, hn, he, hp, defaultSteps, toSteps]) rfl
  · have := key (.one 300) _ _ (by simp [trainSteps, hn, he, toSteps]) (h1 300)
    simpa [Steps.iterations] using this

end

/-! ### Arguments without effect -/

section
variable {G : Type} {ext : TorchExt G} {n d : ℕ} {solve : Oracle} {P : EstParams} {g : G}

/-- **C90** (violated) The weight of the ridge penalty has no effect on the newsvendor, whatever the solver, -/
theorem C90_newsvendor_l2_false {grads : Autograd 1} {train : Trainer 1} (theta0 : ℝ) (X : Fin n → Fin d → ℝ) (w : ℝ) :
    newsvendorFit ext grads solve train theta0 { P with l2_reg := w } X g = newsvendorFit ext grads solve train theta0 P X g := rfl

/-- nor on the two regressions with the dedicated solver, -/
theorem C90_dedicated_l2_false {grads : Autograd d} {train : Trainer d} {init : LinInit d} (hP : P.solver = "dedicated".toList)
    (X : Fin n → Fin d → ℝ) (w : ℝ) :
    (∀ y : Fin n → ℝ, linregFit ext grads solve train init { P with l2_reg := w } X y g = linregFit ext grads solve train init P X y g) ∧
    ∀ {L : Type} [LinearOrder L] (y : Fin n → L),
      logisticFit ext grads solve train init { P with l2_reg := w } X y g = logisticFit ext grads solve train init P X y g := by
  constructor
  · intro y
    unfold linregFit
    simp only [hP, show route .linreg "dedicated".toList = .ok .dedicated by decide, ok_bind]
  · intro L _ y
    unfold logisticFit
    simp only [hP, show route .logistic "dedicated".toList = .ok .dedicated by decide, ok_bind]

/-- nor do two decodable cost codes make a difference to them; -/
theorem C90_dedicated_cost_false {grads : Autograd d} {train : Trainer d} {init : LinInit d} (hP : P.solver = "dedicated".toList)
    (X : Fin n → Fin d → ℝ) {c : PyStr} (h1 : ∃ o, cost_from_str P.cost = .ok o) (h2 : ∃ o, cost_from_str c = .ok o) :
    (∀ y : Fin n → ℝ, linregFit ext grads solve train init { P with cost := c } X y g = linregFit ext grads solve train init P X y g) ∧
    ∀ {L : Type} [LinearOrder L] (y : Fin n → L),
      logisticFit ext grads solve train init { P with cost := c } X y g = logisticFit ext grads solve train init P X y g := by
  obtain ⟨o1, h1⟩ := h1
  obtain ⟨o2, h2⟩ := h2
  constructor
  · intro y
    unfold linregFit
    simp only [hP, show route .linreg "dedicated".toList = .ok .dedicated by decide, ok_bind, h1, h2]
  · intro L _ y
    unfold logisticFit
    simp only [hP, show route .logistic "dedicated".toList = .ok .dedicated by decide, ok_bind, h1, h2]

/-- and the label weight `kappa` of the Weber estimator is not read. -/
theorem C90_weber_kappa_false {grads : Autograd d} {train : Trainer d} (pos0 : Fin d → ℝ) (X : Fin n → Fin d → ℝ) (w : Fin n → ℝ) (k : ℝ) :
    weberFit ext grads train pos0 { P with kappa := k } X w g = weberFit ext grads train pos0 P X w g := rfl

end

/-- non-vacuity: decodable codes with different costs (the robust losses are built, `labelled_ready` and `unlabelled_ready`, and fits complete,
`C86_fits_return_partial`) -/
example : (∃ o, cost_from_str "t-NLC-2-2".toList = .ok o) ∧ ∃ o, cost_from_str "t-NLC-1-1-5".toList = .ok o := by
  refine ⟨default_cost, _, (C01_decimal_roundtrip 1 1 5).1⟩

end Skwdro
