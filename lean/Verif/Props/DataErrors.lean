import Verif.Props.Dedicated
import Verif.Props.PresentationMore
import Verif.Props.EstObjective
import Verif.Props.EqualWeights
import Verif.Props.Sweep
import Verif.Props.WitSolvers
import Verif.Props.Fit

/-!
# Errors in the data (C135)

Fitting data known up to some error (measurement, or the rounding of the data to single precision).
-/

namespace Skwdro
open Spec Tensor MeasureTheory

section
variable {n d : ℕ}

theorem dist2_triangle (a b c : Fin d → ℝ) : dist2 a c ≤ dist2 a b + dist2 b c := by
  have e : ∀ u v : Fin d → ℝ, dist2 u v = pnorm (.fin 2) (fun i => u i - v i) := fun u v => by
    rw [pnorm_fin_two]; rfl
  rw [e, e, e]
  exact pnorm_sub_triangle (Or.inl ⟨2, by norm_num, rfl⟩) a b c

theorem dist2_comm (a b : Fin d → ℝ) : dist2 a b = dist2 b a := by
  unfold dist2
  congr 1
  exact Finset.sum_congr rfl fun k _ => by ring

theorem moveOrFlip_triangle {kappa : ℝ} (hk : 0 ≤ kappa) (a b c : (Fin d → ℝ) × ℝ) :
    moveOrFlip kappa a c ≤ moveOrFlip kappa a b + moveOrFlip kappa b c := by
  unfold moveOrFlip
  have := dist2_triangle a.1 b.1 c.1
  by_cases h1 : a.2 = b.2 <;> by_cases h2 : b.2 = c.2 <;> by_cases h3 : a.2 = c.2 <;> simp only [h1, h2, h3, if_true, if_false] <;> first
    | linarith
    | exact absurd (h1.trans h2) h3
    | (simp_all; try linarith)

theorem moveOrFlip_nonneg {kappa : ℝ} (hk : 0 ≤ kappa) (a b : (Fin d → ℝ) × ℝ) : 0 ≤ moveOrFlip kappa a b := by
  unfold moveOrFlip
  have := dist2_nonneg a.1 b.1
  split_ifs <;> linarith

/-- a ball around one sample lies in a larger ball around another: the difference of the radii is the average cost of passing from one
sample to the other -/
theorem inBall_around {E : Type} [MeasurableSpace E] {z z' : Fin n → E} {cost : E → E → ℝ} (h0 : ∀ a b, 0 ≤ cost a b)
    (htri : ∀ a b c, cost a c ≤ cost a b + cost b c) (hc : ∀ i, Measurable (cost (z' i))) {r δ : ℝ} (hδ : avg (fun i => cost (z' i) (z i)) ≤ δ)
    {Q : Measure E} (h : InBall z cost r Q) : InBall z' cost (r + δ) Q := by
  obtain ⟨π, hp, hm, rfl, hi, hr⟩ := h
  obtain ⟨i1, i2⟩ := integral_fst hm (fun i => cost (z' i) (z i))
  have hf : Measurable fun p : Fin n × E => cost (z' p.1) p.2 := measurable_from_prod_countable_right hc
  have hle : ∀ p : Fin n × E, cost (z' p.1) p.2 ≤ cost (z' p.1) (z p.1) + cost (z p.1) p.2 := fun p => htri _ _ _
  have hI : Integrable (fun p : Fin n × E => cost (z' p.1) p.2) π :=
    (i1.add hi).mono' hf.aestronglyMeasurable (ae_of_all _ fun p => by
      rw [Real.norm_of_nonneg (h0 _ _)]; exact hle p)
  refine ⟨π, hp, hm, rfl, hI, ?_⟩
  have := integral_mono hI (i1.add hi) hle
  have e : ∫ p, ((fun p : Fin n × E => cost (z' p.1) (z p.1)) + fun p : Fin n × E => cost (z p.1) p.2) p ∂π = avg (fun i => cost (z' i) (z i)) + ∫ p, cost (z p.1) p.2 ∂π := by
    rw [← i2]; exact integral_add i1 hi
  have h2 : ∫ p, cost (z' p.1) p.2 ∂π ≤ avg (fun i => cost (z' i) (z i)) + ∫ p, cost (z p.1) p.2 ∂π := by
    rw [← e]; exact this
  linarith

end

section
variable {G : Type} {n d : ℕ} {ext : TorchExt G} {solve : Oracle} {P : EstParams} {g : G}

theorem rmse_moved (hn : 0 < n) {δ : ℝ} (h0 : 0 ≤ δ) {X X' : Fin n → Fin d → ℝ} (h : avg (fun i => dist2 (X' i) (X i) ^ 2) ≤ δ ^ 2) (y : Fin n → ℝ)
    (w : Fin d → ℝ) (b : ℝ) : rmse X y w b ≤ rmse X' y w b + δ * norm2 w := by
  obtain ⟨Q, hQ, he⟩ := moved_inputBall hn (rho := δ) X' y (fun i j => X i j - X' i j) (by
    refine le_trans (le_of_eq ?_) h
    congr 1
    funext i
    rw [dist2_sq]
    exact Finset.sum_congr rfl fun j _ => by ring)
  have h1 := (linreg_upper h0 X' y w b hQ).2
  rw [he] at h1
  simpa using h1

/-- **C135** Linear regression with `solver="dedicated"` on inputs `X'` known up to an error of mean square `δ^2`, `δ <= rho`: the optimal
worst-case error `V` of the data fitted bounds the error of the stored model on the exact inputs `X`, and on all the laws within `rho - δ` of
them; and no model has a worst-case error below `V` on the laws within `rho + δ` of the exact inputs. -/
theorem C135_linreg (hs : ExactSolver solve) {grads : Autograd d} {train : Trainer d} {init : LinInit d} (hP : P.solver = "dedicated".toList)
    (hc : ∃ c, cost_from_str P.cost = .ok c) {rho : ℝ} (hR : P.rho = .num rho) (hr : 0 < rho) (hn : 0 < n) (hd : 0 < d)
    (X X' : Fin n → Fin d → ℝ) (y : Fin n → ℝ) {δ : ℝ} (h0 : 0 ≤ δ) (hδ : avg (fun i => dist2 (X' i) (X i) ^ 2) ≤ δ ^ 2) :
    ∃ f wT bT w b V, linregFit ext grads solve train init P X' y g = .ok f ∧ f.coef = some wT ∧ IsVec wT w ∧
      f.intercept = some bT ∧ IsVec bT (fun _ : Fin 1 => b) ∧
      IsGreatest {e | ∃ Q ∈ InputBall X' y rho, e = rmseUnder Q w b} V ∧
      (δ ≤ rho → rmse X y w b ≤ V ∧ ∀ Q ∈ InputBall X y (rho - δ), rmseUnder Q w b ≤ V) ∧
      ∀ (w' : Fin d → ℝ) (b' : ℝ), (P.fit_intercept = false → b' = 0) → ∀ M, (∀ Q ∈ InputBall X y (rho + δ), rmseUnder Q w' b' ≤ M) → V ≤ M := by
  obtain ⟨f, wT, bT, w, b, h1, h2, h3, h4, h5, -, hopt⟩ := C94_linreg (ext := ext) (g := g) hs (grads := grads) (train := train) (init := init) hP hc hR hr hn hd X' y
  have hV := (C61_worst_case hn hr.le X' y P.fit_intercept w b).1
  rw [linreg_objective] at hV
  refine ⟨f, wT, bT, w, b, _, h1, h2, h3, h4, h5, hV, fun hle => ?_, fun w' b' hb' M hM => ?_⟩
  · have hm := rmse_moved hn h0 hδ y w b
    have hw : 0 ≤ norm2 w := Real.sqrt_nonneg _
    refine ⟨by nlinarith, fun Q hQ => ?_⟩
    have := (linreg_upper (by linarith) X y w b hQ).2
    nlinarith
  · obtain ⟨Q0, hQ0, e0⟩ := hV.1
    rw [e0]
    refine hopt w' b' hb' M (fun Q hQ => ?_) Q0 hQ0
    have a1 := (linreg_upper hr.le X' y w' b' hQ).2
    have a2 := rmse_moved hn h0 (X := X') (X' := X) (by simpa only [dist2_comm] using hδ) y w' b'
    obtain ⟨Q1, hQ1, e1⟩ := (C61_worst_case hn (rho := rho + δ) (by linarith) X y P.fit_intercept w' b').1.1
    rw [linreg_objective] at e1
    have a3 := hM Q1 hQ1
    rw [← e1] at a3
    linarith

theorem labelBall_around {X X' : Fin n → Fin d → ℝ} {s s' : Fin n → ℝ} {kappa r δ : ℝ} (hk : 0 ≤ kappa)
    (hδ : avg (fun i => moveOrFlip kappa (X' i, s' i) (X i, s i)) ≤ δ) : LabelBall X s kappa r ⊆ LabelBall X' s' kappa (r + δ) := fun _ hQ =>
  ⟨inBall_around (moveOrFlip_nonneg hk) (moveOrFlip_triangle hk) (fun _ => moveOrFlip_measurable kappa _) hδ hQ.1, hQ.2⟩

/-- the sample itself is a law of the ball -/
theorem sample_labelBall (hn : 0 < n) {X : Fin n → Fin d → ℝ} {s : Fin n → ℝ} (hs : ∀ i, s i = 1 ∨ s i = -1) {kappa r : ℝ} (hr : 0 ≤ r) :
    ∃ Q ∈ LabelBall X s kappa r, ∀ w b, logRisk w b Q = avg fun i => logloss (s i) (Spec.score w (some b) (X i)) := by
  set wt : Fin n → Fin 1 → ℝ := fun _ _ => 1 / n
  set dest : Fin n → Fin 1 → (Fin d → ℝ) × ℝ := fun i _ => (X i, s i)
  have hw : ∀ i j, 0 ≤ wt i j := fun i j => by positivity
  have hsum : ∀ i, ∑ j, wt i j = 1 / n := fun i => by simp [wt]
  refine ⟨(finPlan wt dest).map Prod.snd, ⟨finPlan_inBall hn hw hsum dest ?_, ?_⟩, fun w b => ?_⟩
  · refine le_trans (le_of_eq ?_) hr
    simp [dest, wt, moveOrFlip, dist2]
  · exact finPlan_snd_ae dest ((measurableSet_eq_fun measurable_snd measurable_const).union (measurableSet_eq_fun measurable_snd measurable_const))
      fun i _ => hs i
  · unfold logRisk
    rw [finPlan_snd_integral hw dest (logRisk_measurable w b)]
    simp only [Fintype.sum_unique, wt, dest, avg, ← Finset.mul_sum]
    ring

/-- **C135** The same for binary logistic regression with `solver="dedicated"`, the error being the average displacement of the inputs plus
1000 times the proportion of wrong labels. -/
theorem C135_logistic {L : Type} [LinearOrder L] (hs : ExactSolver solve) {grads : Autograd d} {train : Trainer d} {init : LinInit d}
    (hP : P.solver = "dedicated".toList) (hc : ∃ c, cost_from_str P.cost = .ok c) {rho : ℝ} (hR : P.rho = .num rho) (hr : 0 < rho)
    (hd : 0 < d) (X X' : Fin n → Fin d → ℝ) {y' : Fin n → L} {c0 c1 : L} (hlt : c0 < c1) (hy : ∀ i, y' i = c0 ∨ y' i = c1)
    (h0 : ∃ i, y' i = c0) (h1 : ∃ i, y' i = c1) {s s' : Fin n → ℝ} (hs0 : ∀ i, y' i = c0 → s' i = -1) (hs1 : ∀ i, y' i = c1 → s' i = 1)
    (hs' : ∀ i, s i = 1 ∨ s i = -1) {δ : ℝ} (hδ : avg (fun i => moveOrFlip 1000 (X' i, s' i) (X i, s i)) ≤ δ) :
    ∃ f wT bT w b V, logisticFit ext grads solve train init P X' y' g = .ok f ∧ f.coef = some wT ∧ IsVec wT w ∧
      f.intercept = some bT ∧ IsScalar bT b ∧ IsLUB {e | ∃ Q ∈ LabelBall X' s' 1000 rho, e = logRisk w b Q} V ∧
      (δ ≤ rho → avg (fun i => logloss (s i) (Spec.score w (some b) (X i))) ≤ V ∧ ∀ Q ∈ LabelBall X s 1000 (rho - δ), logRisk w b Q ≤ V) ∧
      ∀ w' b', (P.fit_intercept = false → b' = 0) → ∀ M, (∀ Q ∈ LabelBall X s 1000 (rho + δ), logRisk w' b' Q ≤ M) → V ≤ M := by
  obtain ⟨f, wT, bT, -, w, b, -, V, e1, -, e2, e3, e4, e5, -, -, -, -, hV, hopt⟩ :=
    C94_logistic (ext := ext) (g := g) hs (grads := grads) (train := train) (init := init) hP hc hR hr hd X' hlt hy h0 h1 hs0 hs1
  have hn : 0 < n := h0.choose.pos
  have hk : (0 : ℝ) ≤ 1000 := by norm_num
  have hback : avg (fun i => moveOrFlip 1000 (X i, s i) (X' i, s' i)) ≤ δ := by
    refine le_trans (le_of_eq ?_) hδ
    congr 1
    funext i
    simp only [moveOrFlip, dist2_comm (X i), eq_comm (a := s i)]
  refine ⟨f, wT, bT, w, b, V, e1, e2, e3, e4, e5, hV, fun hle => ?_, fun w' b' hb' M hM => ?_⟩
  · have key : ∀ Q ∈ LabelBall X s 1000 (rho - δ), logRisk w b Q ≤ V := fun Q hQ => by
      have := labelBall_around hk hδ hQ
      rw [sub_add_cancel] at this
      exact hV.1 ⟨Q, this, rfl⟩
    obtain ⟨Q, hQ, he⟩ := sample_labelBall hn (X := X) hs' (kappa := 1000) (r := rho - δ) (by linarith)
    exact ⟨by rw [← he]; exact key Q hQ, key⟩
  · exact hopt w' b' hb' M fun Q hQ => hM Q (labelBall_around hk hback hQ)

theorem assetBall_around {J : ℕ} {C : Fin J → Fin d → ℝ} {D : Fin J → ℝ} {p : XNum ℝ} (hp : NormOrder p) {X X' : Fin n → Fin d → ℝ} {r δ : ℝ}
    (hδ : avg (fun i => pnorm p fun j => X' i j - X i j) ≤ δ) : AssetBall C D p X r ⊆ AssetBall C D p X' (r + δ) := fun _ hQ =>
  ⟨inBall_around (fun _ _ => pnorm_nonneg _ _) (pnorm_sub_triangle hp) (fun _ => ((pnorm_continuous hp).comp (by fun_prop)).measurable) hδ hQ.1, hQ.2⟩

/-- the sample itself is a law of the ball -/
theorem sample_assetBall {J : ℕ} (hn : 0 < n) {C : Fin J → Fin d → ℝ} {D : Fin J → ℝ} {p : XNum ℝ} (hp : NormOrder p) {X : Fin n → Fin d → ℝ}
    (hx : ∀ i l, ∑ j, C l j * X i j ≤ D l) {r : ℝ} (hr : 0 ≤ r) :
    ∃ Q ∈ AssetBall C D p X r, ∀ eta alpha w tau, cvarRisk eta alpha w tau Q = avg fun i => meanCVaR eta alpha (∑ j, w j * X i j) tau := by
  set wt : Fin n → Fin 1 → ℝ := fun _ _ => 1 / n
  set dest : Fin n → Fin 1 → (Fin d → ℝ) := fun i _ => X i
  have hw : ∀ i j, 0 ≤ wt i j := fun i j => by positivity
  have hsum : ∀ i, ∑ j, wt i j = 1 / n := fun i => by simp [wt]
  refine ⟨(finPlan wt dest).map Prod.snd, ⟨finPlan_inBall hn hw hsum dest ?_, ?_⟩, fun eta alpha w tau => ?_⟩
  · refine le_trans (le_of_eq ?_) hr
    simp [dest, wt, (pnorm_eq_zero hp (fun _ : Fin d => (0 : ℝ))).2 fun _ => rfl]
  · refine finPlan_snd_ae dest ?_ fun i _ => hx i
    rw [Set.setOf_forall]
    exact MeasurableSet.iInter fun l => measurableSet_le (by fun_prop) measurable_const
  · unfold cvarRisk
    rw [finPlan_snd_integral hw dest (by unfold meanCVaR; fun_prop)]
    simp only [Fintype.sum_unique, wt, dest, avg, ← Finset.mul_sum]
    ring

/-- **C135** The same for the portfolio with `solver="dedicated"`, the error being the average displacement of the returns for the norm of
order `q`. -/
theorem C135_portfolio {J q p : ℕ} (hq : 1 ≤ q) (hs : ExactSolver solve) {grads : Autograd d} {train : Trainer d} {p0 : Portfolio}
    (hP : P.solver = "dedicated".toList) (hc : P.cost = joinDash ["t".toList, "NC".toList, decimal q, decimal p]) {rho : ℝ}
    (hR : P.rho = .num rho) (hr : 0 ≤ rho) (he : 0 ≤ P.eta) (ha : 0 < P.alpha) (ha1 : P.alpha ≤ 1) (hg : P.solver_reg ≠ none)
    (hn : 0 < n) (hd : 0 < d) {C : Fin J → Fin d → ℝ} {D : Fin J → ℝ} {X X' : Fin n → Fin d → ℝ} (hx : ∀ i l, ∑ j, C l j * X i j ≤ D l)
    (hx' : ∀ i l, ∑ j, C l j * X' i j ≤ D l) {δ : ℝ} (hδ : avg (fun i => pnorm (.fin q) fun j => X' i j - X i j) ≤ δ) :
    ∃ f wT tT theta tau V, portfolioFit ext grads solve train p0 P C D X' g = .ok f ∧ f.coef = some wT ∧ IsVec wT theta ∧
      f.tau = some tT ∧ IsVec tT (fun _ : Fin 1 => tau) ∧ InSimplex theta ∧
      IsLUB {e | ∃ Q ∈ AssetBall C D (.fin q) X' rho, e = cvarRisk P.eta P.alpha theta tau Q} V ∧
      (δ ≤ rho → avg (fun i => meanCVaR P.eta P.alpha (∑ j, theta j * X i j) tau) ≤ V ∧
        ∀ Q ∈ AssetBall C D (.fin q) X (rho - δ), cvarRisk P.eta P.alpha theta tau Q ≤ V) ∧
      ∀ theta' tau', InSimplex theta' → ∀ M, (∀ Q ∈ AssetBall C D (.fin q) X (rho + δ), cvarRisk P.eta P.alpha theta' tau' Q ≤ M) → V ≤ M := by
  obtain ⟨f, wT, tT, -, theta, tau, -, V, e1, e2, e3, e4, e5, -, -, hS, hV, hopt⟩ :=
    C94_portfolio (ext := ext) (g := g) hq hs (grads := grads) (train := train) (p0 := p0) hP hc hR hr he ha ha1 hg hn hd hx'
  have hp : NormOrder (.fin (q : ℝ)) := Or.inl ⟨q, by exact_mod_cast hq, rfl⟩
  have hback : avg (fun i => pnorm (.fin q) fun j => X i j - X' i j) ≤ δ := by
    simpa only [pnorm_sub_comm] using hδ
  refine ⟨f, wT, tT, theta, tau, V, e1, e2, e3, e4, e5, hS, hV, fun hle => ?_, fun w' t' hS' M hM => ?_⟩
  · have key : ∀ Q ∈ AssetBall C D (.fin q) X (rho - δ), cvarRisk P.eta P.alpha theta tau Q ≤ V := fun Q hQ => by
      have := assetBall_around hp hδ hQ
      rw [sub_add_cancel] at this
      exact hV.1 ⟨Q, this, rfl⟩
    obtain ⟨Q, hQ, he⟩ := sample_assetBall hn hp hx (r := rho - δ) (by linarith)
    exact ⟨by rw [← he]; exact key Q hQ, key⟩
  · exact hopt w' t' hS' M fun Q hQ => hM Q (assetBall_around hp hback hQ)

/-! ### The sampled loss -/

theorem validScale_centre {sc : XNum ℝ} {d₀ D : Dist} (h : validScale sc d₀ = .ok D) : D = d₀ ∧ ∀ d', validScale sc d' = .ok d' := by
  unfold validScale at h ⊢
  cases sc with
  | fin e =>
    dsimp only at h ⊢
    split at h
    · next he => exact ⟨(Except.ok.inj h).symm, fun d' => if_pos he⟩
    · cases h
  | pinf => exact ⟨(Except.ok.inj h).symm, fun d' => rfl⟩
  | ninf => cases h
  | nan => cases h

/-- the law of the noise on the inputs depends on the data through its centre only -/
theorem samplerData_centre {c : CostR} {x : Tensor ℝ} {e : Option ℝ} {D : Dist} (h : samplerData c x e = .ok D) :
    (∃ sc, D = .laplace x sc ∧ ∀ x', samplerData c x' e = .ok (.laplace x' sc)) ∨
    (∃ sc, D = .normal x sc ∧ ∀ x', samplerData c x' e = .ok (.normal x' sc)) := by
  have hl : ∀ sc, mkLaplace x sc = .ok D → (D = .laplace x sc ∧ ∀ x', mkLaplace x' sc = .ok (.laplace x' sc)) :=
    fun sc h => ⟨(validScale_centre h).1, fun x' => (validScale_centre h).2 _⟩
  have hn : ∀ sc, mkNormal x sc = .ok D → (D = .normal x sc ∧ ∀ x', mkNormal x' sc = .ok (.normal x' sc)) :=
    fun sc h => ⟨(validScale_centre h).1, fun x' => (validScale_centre h).2 _⟩
  unfold samplerData at h ⊢
  dsimp only at h ⊢
  split at h
  · next h1 =>
    simp only [if_pos h1]
    split at h
    · split at h
      · next h2 => simp only [if_pos h2]; exact Or.inl ⟨_, hl _ h⟩
      · next h2 =>
        simp only [if_neg h2]
        split at h
        · next h3 => simp only [if_pos h3]; exact Or.inr ⟨_, hn _ h⟩
        · cases h
    · exact Or.inr ⟨_, hn _ h⟩
    · cases h
  · next h1 =>
    simp only [if_neg h1]
    split at h
    · next h2 =>
      simp only [if_pos h2]
      split at h
      · split at h
        · next h3 => simp only [if_pos h3]; exact Or.inr ⟨_, hn _ h⟩
        · cases h
      · cases h
    · cases h

/-- two samplers built on two data sets of the same shape draw the same noise -/
theorem sample_shift {c : CostR} {e : Option ℝ} {s s' : Sampler} {x x' : Tensor ℝ} {m : ℕ} {X X' : Fin m → Fin d → ℝ} (hx : IsMat x X) (hx' : IsMat x' X')
    (h : samplerData c x e = .ok s.data_s) (h' : samplerData c x' e = .ok s'.data_s) (hl : s'.labels_s = s.labels_s) (N : ℕ) (g : G) :
    (s'.sample ext N g).2 = (s.sample ext N g).2 ∧ ∀ (j : Fin N) (i : Fin m) (k : Fin d),
      (s'.sample ext N g).1.get [j.1, i.1, k.1] = (s.sample ext N g).1.get [j.1, i.1, k.1] + (X' i k - X i k) := by
  have hsh : x'.shape = x.shape := hx'.1.trans hx.1.symm
  have key : (s'.data_s.rsample ext g N).2 = (s.data_s.rsample ext g N).2 ∧ ∀ (j : Fin N) (i : Fin m) (k : Fin d),
      (s'.data_s.rsample ext g N).1.get [j.1, i.1, k.1] = (s.data_s.rsample ext g N).1.get [j.1, i.1, k.1] + (X' i k - X i k) := by
    rcases samplerData_centre h with ⟨sc, e1, e2⟩ | ⟨sc, e1, e2⟩
    all_goals
      have e3 := (e2 x').symm.trans h'
      rw [e1, ← Except.ok.inj e3]
      simp only [Dist.rsample, hsh, List.tail_cons]
      refine ⟨trivial, fun j i k => ?_⟩
      have a1 := hx.2 i k
      have a2 := hx'.2 i k
      rw [a1, a2]
      ring
  unfold Sampler.sample
  rw [hl]
  cases s.labels_s with
  | none => exact ⟨by simp only [key.1], key.2⟩
  | some ls => exact ⟨by simp only [key.1], key.2⟩

/-- moving a point and its sample together leaves the ground cost unchanged -/
theorem costAt_shift {c : CostR} (hc : GoodCost c) {k : ℕ} (t x z : Fin d → ℝ) (y y' : Fin k → ℝ) :
    costAt c (fun i => x i + t i) (fun i => z i + t i) y y' = costAt c x z y y' := by
  have hn : pnorm c.p (fun i => (x i + t i) - (z i + t i)) = pnorm c.p (fun i => x i - z i) := by
    congr 1; funext i; ring
  cases hk : c.kind with
  | normCost => rw [C04_point_formula c hk hc.order, C04_point_formula c hk hc.order, hn]
  | normLabelCost =>
    rcases hc.weight hk with ⟨κ, h0, hκ⟩ | hκ
    · rw [(C05_point_formula c hk hc.order _ _ _ _).1 κ h0 hκ, (C05_point_formula c hk hc.order _ _ _ _).1 κ h0 hκ, hn]
    · rw [(C05_point_formula c hk hc.order _ _ _ _).2 hκ, (C05_point_formula c hk hc.order _ _ _ _).2 hκ]

theorem robust_change {N m : ℕ} (hN : 0 < N) {lam rho p eps : ℝ} (he : 0 < eps) {L L' C : Fin N → Fin m → ℝ} {b : Fin m → ℝ}
    (h : ∀ j i, |L' j i - L j i| ≤ b i) : |robust lam rho p eps L' C - robust lam rho p eps L C| ≤ avg b := by
  have key : ∀ L L' : Fin N → Fin m → ℝ, (∀ j i, |L' j i - L j i| ≤ b i) →
      avg (fun i => softmax eps fun j => L' j i - lam * C j i) ≤ avg (fun i => softmax eps fun j => L j i - lam * C j i) + avg b := by
    intro L L' hd
    rw [← avg_add]
    refine avg_mono fun i => ?_
    rw [← softmax_add_const hN he]
    exact softmax_mono hN he fun j => by have := abs_le.1 (hd j i); linarith
  have h1 := key L L' h
  have h2 := key L' L fun j i => by rw [abs_sub_comm]; exact h j i
  unfold robust
  rw [abs_le]
  constructor <;> linarith

theorem displaced_off {N m k : ℕ} (v : Fin m → Fin k → ℝ) (Z : Fin N → Fin m → Fin k → ℝ) : displaced false v Z = Z := by
  funext j i q
  simp [displaced]

/-- dualizing on other inputs of the same shape -/
theorem dualize_other {a : DualizeArgs} {g' : G} {D : DualLoss} (h : dualize ext a g = .ok (D, g')) (x' : Tensor ℝ) :
    ∃ D', dualize ext { a with xi := x' } g = .ok (D', g') ∧ D'.cost = D.cost ∧ D'.epsilon = D.epsilon ∧ D'.impSamp = D.impSamp ∧
      D'.nSamples = D.nSamples ∧ ∀ s, D.sampler = some s → ∃ s', D'.sampler = some s' ∧ s'.labels_s = s.labels_s := by
  obtain ⟨parsed, obj, c, s, h1, h2, h3, h4, rfl⟩ := dualize_ok h
  have h5 : ∃ s', dualizeSampler ext c x' a.xi_labels (expertSigma a.rho a.sigma SIGMA_FACTOR) a.seed g = .ok (s', g') ∧ s'.labels_s = s.labels_s := by
    cases hy : a.xi_labels with
    | none =>
      simp only [dualizeSampler, hy, mkNoLabelsCost] at h4 ⊢
      cases hd : samplerData c a.xi (some (expertSigma a.rho a.sigma SIGMA_FACTOR)) with
      | error e => simp [hd] at h4
      | ok l =>
        have : ∃ l', samplerData c x' (some (expertSigma a.rho a.sigma SIGMA_FACTOR)) = .ok l' := by
          rcases samplerData_centre hd with ⟨_, -, e2⟩ | ⟨_, -, e2⟩ <;> exact ⟨_, e2 x'⟩
        obtain ⟨l', hl'⟩ := this
        simp only [hd, ok_bind, Except.ok.injEq, Prod.mk.injEq] at h4
        simp only [hl', ok_bind, Except.ok.injEq, Prod.mk.injEq]
        exact ⟨_, ⟨rfl, h4.2⟩, by rw [← h4.1]⟩
    | some y =>
      simp only [dualizeSampler, hy, mkLabeledCost] at h4 ⊢
      cases hd : samplerData c a.xi (some (expertSigma a.rho a.sigma SIGMA_FACTOR)) with
      | error e => simp [hd] at h4
      | ok l =>
        have : ∃ l', samplerData c x' (some (expertSigma a.rho a.sigma SIGMA_FACTOR)) = .ok l' := by
          rcases samplerData_centre hd with ⟨_, -, e2⟩ | ⟨_, -, e2⟩ <;> exact ⟨_, e2 x'⟩
        obtain ⟨l', hl'⟩ := this
        cases hd2 : samplerLabels c (some y) (some (expertSigma a.rho a.sigma SIGMA_FACTOR)) with
        | error e => simp [hd, hd2] at h4
        | ok q =>
          cases q with
          | none => simp [hd, hd2] at h4
          | some ls =>
            simp only [hd, hd2, ok_bind, Except.ok.injEq, Prod.mk.injEq] at h4
            simp only [hl', ok_bind, Except.ok.injEq, Prod.mk.injEq]
            exact ⟨_, ⟨rfl, h4.2⟩, by rw [← h4.1]⟩
  obtain ⟨s', h5, h6⟩ := h5
  refine ⟨dualOf { a with xi := x' } c (decideOnImpsamp a.imp_samp parsed) s', ?_, rfl, rfl, rfl, rfl, fun s0 hs0 => ⟨s', rfl, ?_⟩⟩
  · unfold dualize
    simp only [h1, h2, h3, h5, ok_bind]
    rfl
  · have : s0 = s := by simpa [dualOf, eq_comm] using hs0
    rw [this, h6]

/-- **C135** The sampled robust loss, without importance sampling: on inputs `X'` instead of `X` (rounded to single precision, for instance),
all other arguments the same, the robust loss is built as well, and whatever the multiplier and the state of the generator, its value differs
from the value on `X` by at most the average of the displacements of the inputs, times the Lipschitz constant `K` of the loss in the inputs
at the labels drawn. -/
theorem C135_sampled {a : DualizeArgs} {D : DualLoss} {m k : ℕ} {g' : G} {rho : ℝ} (h : dualize ext a g = .ok (D, g')) (hr : a.rho = .num rho) (hpos : 0 < rho)
    (he : ∀ x, a.epsilon = some x → 0 < x) (hred : a.reduction = none) {y x' : Tensor ℝ} {X X' : Fin m → Fin d → ℝ} {Y : Fin m → Fin k → ℝ}
    (hy : a.xi_labels = some y) (hx : IsMat a.xi X) (hx' : IsMat x' X') (hY : IsMat y Y) (hn : 0 < a.n_samples) (hm : 0 < m) (hd : 0 < d) (hk : 0 < k)
    (hgs : GradShapes a.grads) {ell : (Fin d → ℝ) → (Fin k → ℝ) → ℝ} (hell : PointLoss a.wloss.value ell) (lam : ℝ) (g0 : G)
    (himp : D.impSamp = false) {K : (Fin k → ℝ) → ℝ} (hlip : ∀ v z z', |ell z' v - ell z v| ≤ K v * dist2 z z') {B : Fin m → ℝ}
    (hB : ∀ s w, D.sampler = some s → (s.sample ext D.nSamples (seedGlobal ext s.seed g0)).2.1 = some w → ∀ j < D.nSamples, ∀ i : Fin m,
      K (fun q => w.get [j, i.1, q.1]) ≤ B i) :
    ∃ D' v v' E E' g1 g1' r r', dualize ext { a with xi := x' } g = .ok (D', g') ∧
      postForward ext { D with lam := lam } a.xi (some y) true g0 = .ok (.val v, E, g1) ∧ IsScalar v r ∧
      postForward ext { D' with lam := lam } x' (some y) true g0 = .ok (.val v', E', g1') ∧ IsScalar v' r' ∧
      |r' - r| ≤ avg fun i => B i * dist2 (X i) (X' i) := by
  obtain ⟨D', h', f1, f2, f3, f4, f5⟩ := dualize_other h x'
  obtain ⟨s0, hs0, d1, -, -, -, d2⟩ := dualize_sampler h
  obtain ⟨s0', hs0', d1', -, -, -, d2'⟩ := dualize_sampler h'
  obtain ⟨s1, hs1, hlab⟩ := f5 s0 hs0
  have : s1 = s0' := by rw [hs0'] at hs1; exact (Option.some.inj hs1).symm
  subst this
  have o := labelledObjective h hr hpos he hred hy hx hY hn hm hd hk hgs hell lam (seedGlobal ext s0.seed g0) (by rw [himp]; simp)
  have o' := labelledObjective h' hr hpos he hred hy (by exact hx') hY hn hm hd hk (by exact hgs) (by exact hell) lam (seedGlobal ext s0.seed g0)
    (by rw [f3, himp]; simp)
  obtain ⟨s, Z, W, w, tg, tgl, gx, gy, v, q1, q2, q3, q4, -, -, -, -, q5, q6⟩ := o
  obtain ⟨s', Z', W', w', tg', tgl', gx', gy', v', p1, p2, p3, p4, -, -, -, -, p5, p6⟩ := o'
  rw [hs0] at q1; cases q1
  rw [hs0'] at p1; cases p1
  obtain ⟨k1, k2⟩ := sample_shift (ext := ext) hx hx' d1 (by rw [f1] at d1'; exact d1') hlab D.nSamples (seedGlobal ext s0.seed g0)
  refine ⟨D', v, v', _, _, _, _, _, _, h', q5 g0 rfl, q6, p5 g0 (by rw [d2', d2]), p6, ?_⟩
  have hN : 0 < D.nSamples := by rw [(dualize_fields h).2.2.2.2.2.2.1]; exact hn
  have hE : 0 < D.epsilon := by
    rw [(dualize_fields h).2.2.2.2.2.1, hr]; exact expertEpsilon_pos he
  have hgood := dualize_goodCost h
  obtain ⟨_, _, _, _, _, _, _, _, _, _, _, nS⟩ := D'
  simp only at f1 f2 f3 f4 p2 p3 p4 ⊢
  subst f1 f2 f3 f4
  rw [himp]
  have hw : w' = w := by
    rw [k1, q3] at p3; exact (Option.some.inj p3).symm
  subst hw
  have hW : W' = W := by
    funext j i q
    rw [← q4.2 j i q, ← p4.2 j i q]
  subst hW
  have hZ : ∀ j i k, Z' j i k = Z j i k + (X' i k - X i k) := fun j i k => by
    rw [← q2.2 j i k, ← p2.2 j i k]; exact k2 j i k
  have hZ' : ∀ j i, Z' j i = fun k => Z j i k + (X' i k - X i k) := fun j i => funext (hZ j i)
  have hX : ∀ i, X' i = fun k => X i k + (X' i k - X i k) := fun i => by funext k; ring
  simp only [displaced_off]
  have hC : ∀ j i, costAt D.cost (X' i) (fun k => Z' j i k) (Y i) (fun k => W' j i k) = costAt D.cost (X i) (fun k => Z j i k) (Y i) (fun k => W' j i k) := by
    intro j i
    rw [show (fun k => Z' j i k) = fun k => Z j i k + (X' i k - X i k) from hZ' j i]
    conv_lhs => rw [hX i]
    simpa using costAt_shift hgood (fun k => X' i k - X i k) (X i) (Z j i) (Y i) (W' j i)
  have hC' : (fun j i => costAt D.cost (X' i) (Z' j i) (Y i) (W' j i)) = fun j i => costAt D.cost (X i) (Z j i) (Y i) (W' j i) :=
    funext fun j => funext fun i => hC j i
  change |robust lam rho D.cost.power D.epsilon (fun j i => ell (Z' j i) (W' j i)) (fun j i => costAt D.cost (X' i) (Z' j i) (Y i) (W' j i)) -
    robust lam rho D.cost.power D.epsilon (fun j i => ell (Z j i) (W' j i)) (fun j i => costAt D.cost (X i) (Z j i) (Y i) (W' j i))| ≤ _
  rw [hC']
  refine robust_change hN hE fun j i => ?_
  refine (hlip _ _ _).trans ?_
  have hb : K (W' j i) ≤ B i := by
    have := hB s0 w' hs0 q3 j.1 j.2 i
    rwa [show (fun q : Fin k => w'.get [j.1, i.1, q.1]) = W' j i from funext fun q => q4.2 j i q] at this
  have hdist : dist2 (fun k => Z j i k) (fun k => Z' j i k) = dist2 (X i) (X' i) := by
    unfold dist2
    congr 1
    exact Finset.sum_congr rfl fun q _ => by dsimp only; rw [hZ]; ring
  rw [hdist]
  exact mul_le_mul_of_nonneg_right hb (dist2_nonneg _ _)

/-- **C135** The same without labels, for a cost on inputs only. -/
theorem C135_sampled_unlabelled {a : DualizeArgs} {D : DualLoss} {m : ℕ} {g' : G} {rho : ℝ} (h : dualize ext a g = .ok (D, g')) (hr : a.rho = .num rho)
    (hpos : 0 < rho) (he : ∀ x, a.epsilon = some x → 0 < x) (hred : a.reduction = none) {x' : Tensor ℝ} {X X' : Fin m → Fin d → ℝ}
    (hy : a.xi_labels = none) (hx : IsMat a.xi X) (hx' : IsMat x' X') (hn : 0 < a.n_samples) (hm : 0 < m) (hd : 0 < d)
    (hgs : GradShapes a.grads) {ell : (Fin d → ℝ) → ℝ} (hell : PointLoss0 a.wloss.value ell) (lam : ℝ) (g0 : G) (hkind : D.cost.kind = .normCost)
    (himp : D.impSamp = false) {K : ℝ} (hlip : ∀ z z', |ell z' - ell z| ≤ K * dist2 z z') :
    ∃ D' v v' E E' g1 g1' r r', dualize ext { a with xi := x' } g = .ok (D', g') ∧
      postForward ext { D with lam := lam } a.xi none true g0 = .ok (.val v, E, g1) ∧ IsScalar v r ∧
      postForward ext { D' with lam := lam } x' none true g0 = .ok (.val v', E', g1') ∧ IsScalar v' r' ∧
      |r' - r| ≤ K * avg fun i => dist2 (X i) (X' i) := by
  obtain ⟨D', h', f1, f2, f3, f4, f5⟩ := dualize_other h x'
  obtain ⟨s0, hs0, d1, -, -, -, d2⟩ := dualize_sampler h
  obtain ⟨s0', hs0', d1', -, -, -, d2'⟩ := dualize_sampler h'
  obtain ⟨s1, hs1, hlab⟩ := f5 s0 hs0
  have : s1 = s0' := by rw [hs0'] at hs1; exact (Option.some.inj hs1).symm
  subst this
  have o := unlabelledObjective h hr hpos he hred hy hx hn hm hd hgs hell lam (seedGlobal ext s0.seed g0) hkind
  have o' := unlabelledObjective h' hr hpos he hred hy (by exact hx') hn hm hd (by exact hgs) (by exact hell) lam (seedGlobal ext s0.seed g0)
    (by rw [f1]; exact hkind)
  obtain ⟨s, Z, tg, gx, v, q1, q2, -, -, -, -, q5, q6⟩ := o
  obtain ⟨s', Z', tg', gx', v', p1, p2, -, -, -, -, p5, p6⟩ := o'
  rw [hs0] at q1; cases q1
  rw [hs0'] at p1; cases p1
  obtain ⟨k1, k2⟩ := sample_shift (ext := ext) hx hx' d1 (by rw [f1] at d1'; exact d1') hlab D.nSamples (seedGlobal ext s0.seed g0)
  refine ⟨D', v, v', _, _, _, _, _, _, h', q5 g0 rfl, q6, p5 g0 (by rw [d2', d2]), p6, ?_⟩
  have hN : 0 < D.nSamples := by rw [(dualize_fields h).2.2.2.2.2.2.1]; exact hn
  have hE : 0 < D.epsilon := by
    rw [(dualize_fields h).2.2.2.2.2.1, hr]; exact expertEpsilon_pos he
  obtain ⟨_, _, _, _, _, _, _, _, _, _, _, nS⟩ := D'
  simp only at f1 f2 f3 f4 p2 ⊢
  subst f1 f2 f3 f4
  rw [himp]
  have hZ : ∀ j i k, Z' j i k = Z j i k + (X' i k - X i k) := fun j i k => by
    rw [← q2.2 j i k, ← p2.2 j i k]; exact k2 j i k
  simp only [displaced_off, Bool.false_eq_true, if_false]
  have hone : ∀ L C : Fin D.nSamples → Fin m → ℝ, robustW lam rho D.cost.power D.epsilon (fun _ _ => 1) L C = robust lam rho D.cost.power D.epsilon L C := by
    intro L C
    simp only [robustW, robust, softmax, one_mul]
  rw [hone, hone]
  have hC' : (fun (j : Fin D.nSamples) (i : Fin m) => pnorm D.cost.p (fun q => X' i q - Z' j i q) ^ D.cost.power) =
      fun j i => pnorm D.cost.p (fun q => X i q - Z j i q) ^ D.cost.power := by
    funext j i
    congr 2
    funext q
    rw [hZ]; ring
  rw [hC', show K * avg (fun i => dist2 (X i) (X' i)) = avg fun i => K * dist2 (X i) (X' i) by unfold avg; rw [← Finset.mul_sum]; ring]
  refine robust_change hN hE fun j i => ?_
  refine (hlip _ _).trans (le_of_eq ?_)
  congr 1
  unfold dist2
  congr 1
  exact Finset.sum_congr rfl fun q _ => by rw [hZ]; ring

/-- inputs rounded with a relative error of at most `u` (`2^-24` in single precision, without underflow) move by at most `u` times their norm -/
theorem C135_rounding {u : ℝ} (hu : 0 ≤ u) {x x' : Fin d → ℝ} (h : ∀ k, |x' k - x k| ≤ u * |x k|) : dist2 x x' ≤ u * norm2 x := by
  unfold dist2 norm2
  rw [← Real.sqrt_sq hu, ← Real.sqrt_mul (sq_nonneg u)]
  refine Real.sqrt_le_sqrt ?_
  rw [Finset.mul_sum]
  refine Finset.sum_le_sum fun k _ => ?_
  rw [← sq_abs, abs_sub_comm, ← sq_abs (x k), ← mul_pow]
  exact pow_le_pow_left₀ (abs_nonneg _) (h k) 2

theorem out_change (l : LinMap d 1) (z z' : Fin d → ℝ) : |l.out z' 0 - l.out z 0| ≤ dist2 z z' * norm2 (l.weight 0) := by
  have e : l.out z' 0 - l.out z 0 = ∑ k, (z' k - z k) * l.weight 0 k := by
    unfold LinMap.out
    rw [add_sub_add_right_eq_sub, ← Finset.sum_sub_distrib]
    exact Finset.sum_congr rfl fun k _ => by ring
  rw [e]
  exact cs2 z z' (l.weight 0)

/-- **C135** Binary logistic regression with a torch solver and without importance sampling: rounding the inputs with a relative error of at
most `u` changes the value handed to the optimizer by at most `u`, times the norm of the coefficients, the largest label drawn and the average norm
of the inputs. -/
theorem C135_logistic_sampled {grads : Autograd d} {N : ℕ} {post : Bool} {D : DualLoss} {g' : G} {rho : ℝ} (hgs : ∀ M, GradShapes (grads M))
    (heps : ∀ e, P.solver_reg = some e → 0 < e) (hrho : P.rho = .num rho) (hpos : 0 < rho) (hn : 0 < P.n_zeta_samples) (hN : 0 < N) (hd : 0 < d)
    (X X' : Fin N → Fin d → ℝ) (y : Fin N → ℝ) (l : LinMap d 1) {u : ℝ} (hu : 0 ≤ u) (hX : ∀ i k, |X' i k - X i k| ≤ u * |X i k|)
    (h : dualize ext (torchArgs grads .logistic P post false (matT X) (some (matT fun i (_ : Fin 1) => y i)) (.softMargin l)) g = .ok (D, g'))
    (lam : ℝ) (g0 : G) (himp : D.impSamp = false) {b : ℝ} (hb : ∀ s w, D.sampler = some s →
      (s.sample ext D.nSamples (seedGlobal ext s.seed g0)).2.1 = some w → ∀ j < D.nSamples, ∀ i < N, |w.get [j, i, 0]| ≤ b) :
    ∃ D' v v' E E' g1 g1' r r',
      dualize ext (torchArgs grads .logistic P post false (matT X') (some (matT fun i (_ : Fin 1) => y i)) (.softMargin l)) g = .ok (D', g') ∧
      postForward ext { D with lam := lam } (matT X) (some (matT fun i (_ : Fin 1) => y i)) true g0 = .ok (.val v, E, g1) ∧ IsScalar v r ∧
      postForward ext { D' with lam := lam } (matT X') (some (matT fun i (_ : Fin 1) => y i)) true g0 = .ok (.val v', E', g1') ∧ IsScalar v' r' ∧
      |r' - r| ≤ u * (b * norm2 (l.weight 0) * avg fun i => norm2 (X i)) := by
  have hw0 : 0 ≤ norm2 (l.weight 0) := Real.sqrt_nonneg _
  obtain ⟨D', v, v', E, E', g1, g1', r, r', e1, e2, e3, e4, e5, e6⟩ := C135_sampled (k := 1) (x' := matT X') h hrho hpos heps rfl rfl (matT_is X) (matT_is X') (matT_is _)
    (show 0 < P.n_zeta_samples.toNat by omega) hN hd one_pos (hgs _) (pointLoss_mean rfl rfl (softMargin_rows l)) lam g0 himp
    (K := fun v => |v 0| * norm2 (l.weight 0)) (fun v z z' => by
      rw [add_sub_add_right_eq_sub]
      refine (C26_lipschitz (v 0) (l.out z' 0) (l.out z 0)).trans ?_
      have := mul_le_mul_of_nonneg_left (out_change l z z') (abs_nonneg (v 0))
      linarith)
    (B := fun _ => b * norm2 (l.weight 0)) (fun s w hs hw j hj i => mul_le_mul_of_nonneg_right (hb s w hs hw j hj i.1 i.2) hw0)
  refine ⟨D', v, v', E, E', g1, g1', r, r', e1, e2, e3, e4, e5, e6.trans ?_⟩
  have hb0 : 0 ≤ b := by
    obtain ⟨s, hs, -⟩ := dualize_sampler h
    obtain ⟨s', Z, W, w, -, -, -, -, -, q1, -, q3, -⟩ := labelledObjective (k := 1) h hrho hpos heps rfl rfl (matT_is X) (matT_is _)
      (show 0 < P.n_zeta_samples.toNat by omega) hN hd one_pos (hgs _) (pointLoss_mean rfl rfl (softMargin_rows l)) lam (seedGlobal ext s.seed g0)
      (by rw [himp]; simp)
    rw [hs] at q1; cases q1
    have hNs : 0 < D.nSamples := by
      rw [(dualize_fields h).2.2.2.2.2.2.1]; exact show 0 < P.n_zeta_samples.toNat by omega
    exact (abs_nonneg _).trans (hb s w hs q3 0 hNs 0 hN)
  have : avg (fun i => b * norm2 (l.weight 0) * dist2 (X i) (X' i)) ≤ avg fun i => (u * (b * norm2 (l.weight 0))) * norm2 (X i) := by
    refine avg_mono fun i => ?_
    have := mul_le_mul_of_nonneg_left (C135_rounding hu (hX i)) (mul_nonneg hb0 hw0)
    linarith
  refine this.trans (le_of_eq ?_)
  unfold avg
  rw [← Finset.mul_sum]
  ring

theorem simplex_norm2 {w : Fin d → ℝ} (hw : InSimplex w) : norm2 w ≤ 1 := by
  unfold norm2
  refine (Real.sqrt_le_sqrt ?_).trans Real.sqrt_one.le
  refine le_trans (Finset.sum_le_sum fun k _ => ?_) hw.2.le
  have : w k ≤ 1 := hw.2 ▸ Finset.single_le_sum (fun k _ => hw.1 k) (Finset.mem_univ k)
  nlinarith [hw.1 k]

/-- **C135** The same for the portfolio with a cost on inputs only: at most `u (1 + eta / alpha)` times the average norm of the returns. -/
theorem C135_portfolio_sampled {grads : Autograd d} {N : ℕ} {post : Bool} {D : DualLoss} {g' : G} {rho : ℝ} (hgs : ∀ M, GradShapes (grads M))
    (heps : ∀ e, P.solver_reg = some e → 0 < e) (hrho : P.rho = .num rho) (hpos : 0 < rho) (hn : 0 < P.n_zeta_samples) (hN : 0 < N) (hd : 0 < d)
    (X X' : Fin N → Fin d → ℝ) (v : Fin d → ℝ) (tau eta alpha : ℝ) (he : 0 ≤ eta) (ha : 0 < alpha) {u : ℝ} (hu : 0 ≤ u)
    (hX : ∀ i k, |X' i k - X i k| ≤ u * |X i k|)
    (h : dualize ext (torchArgs grads .portfolio P post false (matT X) none (.portfolio ⟨List.ofFn v, tau, eta, alpha⟩)) g = .ok (D, g'))
    (lam : ℝ) (g0 : G) (hkind : D.cost.kind = .normCost) (himp : D.impSamp = false) :
    ∃ D' t t' E E' g1 g1' r r',
      dualize ext (torchArgs grads .portfolio P post false (matT X') none (.portfolio ⟨List.ofFn v, tau, eta, alpha⟩)) g = .ok (D', g') ∧
      postForward ext { D with lam := lam } (matT X) none true g0 = .ok (.val t, E, g1) ∧ IsScalar t r ∧
      postForward ext { D' with lam := lam } (matT X') none true g0 = .ok (.val t', E', g1') ∧ IsScalar t' r' ∧
      |r' - r| ≤ u * ((1 + eta / alpha) * avg fun i => norm2 (X i)) := by
  obtain ⟨w, hw1, hw2, hw3⟩ := portfolio_rows hd v tau eta alpha he ha
  have hk0 : 0 ≤ 1 + eta / alpha := by positivity
  obtain ⟨D', t, t', E, E', g1, g1', r, r', e1, e2, e3, e4, e5, e6⟩ := C135_sampled_unlabelled (x' := matT X') h hrho hpos heps rfl rfl (matT_is X) (matT_is X')
    (show 0 < P.n_zeta_samples.toNat by omega) hN hd (hgs _) (pointLoss0_mean rfl rfl hw3) lam g0 hkind himp (K := 1 + eta / alpha) (fun z z' => by
      rw [add_sub_add_right_eq_sub]
      have c1 : |∑ q, w q * z' q - ∑ q, w q * z q| ≤ dist2 z z' := by
        rw [← Finset.sum_sub_distrib]
        refine le_trans (le_of_eq (congrArg abs (Finset.sum_congr rfl fun q _ => ?_))) ((cs2 z z' w).trans (mul_le_of_le_one_right (dist2_nonneg _ _) (simplex_norm2 hw1)))
        ring
      have c2 := meanCVaR_lipschitz he ha (∑ q, w q * z' q) (∑ q, w q * z q) tau
      have c3 := meanCVaR_lipschitz he ha (∑ q, w q * z q) (∑ q, w q * z' q) tau
      rw [abs_sub_comm] at c3
      have c4 := mul_le_mul_of_nonneg_left c1 hk0
      rw [abs_le]
      constructor <;> linarith)
  refine ⟨D', t, t', E, E', g1, g1', r, r', e1, e2, e3, e4, e5, e6.trans ?_⟩
  have : avg (fun i => dist2 (X i) (X' i)) ≤ avg fun i => u * norm2 (X i) := avg_mono fun i => C135_rounding hu (hX i)
  have h2 : avg (fun i => u * norm2 (X i)) = u * avg fun i => norm2 (X i) := by
    unfold avg; rw [← Finset.mul_sum]; ring
  rw [h2] at this
  have := mul_le_mul_of_nonneg_left this hk0
  linarith

end

/-! ### Non-vacuity -/

/-- one point of each class, the inputs known up to 1/10, the radius being 1 -/
example : ∃ f wT bT w b V, logisticFit counterExt (onesGrad 1) witExact (fun _ M _ => .ok M) (fun _ _ => ⟨fun _ _ => 0, none⟩)
    { EstKind.logistic.defaults with rho := .num 1, solver := "dedicated".toList } (fun (i : Fin 2) (_ : Fin 1) => (i : ℝ) + 1 / 10) (fun i : Fin 2 => (i : ℕ)) 0 = .ok f ∧
    f.coef = some wT ∧ IsVec wT w ∧ f.intercept = some bT ∧ IsScalar bT b ∧
    avg (fun i : Fin 2 => logloss (if i = 0 then -1 else 1) (Spec.score w (some b) fun _ : Fin 1 => (i : ℝ))) ≤ V ∧
    V ∈ upperBounds {e | ∃ Q ∈ LabelBall (fun (i : Fin 2) (_ : Fin 1) => (i : ℝ) + 1 / 10) (fun i => if i = 0 then -1 else 1) 1000 1, e = logRisk w b Q} := by
  obtain ⟨f, wT, bT, w, b, V, h1, h2, h3, h4, h5, h6, h7, -⟩ := C135_logistic (ext := counterExt) (g := 0) witExact_exact (grads := onesGrad 1)
    (train := fun _ M _ => .ok M) (init := fun _ _ => ⟨fun _ _ => 0, none⟩)
    (P := { EstKind.logistic.defaults with rho := .num 1, solver := "dedicated".toList }) rfl ⟨_, rfl⟩ rfl one_pos one_pos
    (fun (i : Fin 2) (_ : Fin 1) => (i : ℝ)) (fun (i : Fin 2) (_ : Fin 1) => (i : ℝ) + 1 / 10) (y' := fun i : Fin 2 => (i : ℕ)) (c0 := 0) (c1 := 1) one_pos
    (fun i => by fin_cases i <;> simp) ⟨0, rfl⟩ ⟨1, rfl⟩ (s := fun i => if i = 0 then -1 else 1) (s' := fun i => if i = 0 then -1 else 1)
    (fun i h => by fin_cases i <;> simp_all) (fun i h => by fin_cases i <;> simp_all) (fun i => by fin_cases i <;> simp) (δ := 1 / 10) (by
      refine le_of_eq ?_
      simp only [avg, moveOrFlip, dist2, if_true, add_sub_cancel_left, Finset.sum_const, Finset.card_univ, Fintype.card_fin, one_smul, add_zero]
      rw [Real.sqrt_sq (by norm_num)]
      norm_num)
  exact ⟨f, wT, bT, w, b, V, h1, h2, h3, h4, h5, (h7 (by norm_num)).1, h6.1⟩

/-- the pre-sampled logistic regression and the portfolio, with the default arguments, build robust losses without importance sampling -/
example (X : Fin 2 → Fin 1 → ℝ) (y : Fin 2 → ℝ) (l : LinMap 1 1) (p : Portfolio) :
    (∃ D g', dualize counterExt (torchArgs (onesGrad 1) .logistic EstKind.logistic.defaults false false (matT X) (some (matT fun i (_ : Fin 1) => y i)) (.softMargin l)) 7 =
      .ok (D, g') ∧ D.impSamp = false ∧ ∃ b, ∀ s w, D.sampler = some s → (s.sample counterExt D.nSamples (seedGlobal counterExt s.seed 0)).2.1 = some w →
        ∀ j < D.nSamples, ∀ i < 2, |w.get [j, i, 0]| ≤ b) ∧
    ∃ D g', dualize counterExt (torchArgs (onesGrad 1) .portfolio EstKind.portfolio.defaults true false (matT X) none (.portfolio p)) 7 = .ok (D, g') ∧
      D.impSamp = false ∧ D.cost.kind = .normCost := by
  constructor
  · obtain ⟨D, g', s, hD, hs, -⟩ := costReady_dualize (ext := counterExt) (torch_costReady (grads := onesGrad 1) (e := .logistic) (post := false) (mc := false)
      (X := matT X) (y := some (matT fun i (_ : Fin 1) => y i)) (M0 := .softMargin l) (default_fitReady_labelled .logistic (by simp))) 7
    refine ⟨D, g', hD, Bool.eq_false_iff.2 fun h => ?_, ?_⟩
    · have := ((C21_enabled_iff counterExt hD).1 h).1
      exact absurd (show false = true from this) (by simp)
    · rcases hw : (s.sample counterExt D.nSamples (seedGlobal counterExt s.seed 0)).2.1 with _ | w
      · exact ⟨0, fun s' w' hs' hw' => by rw [hs] at hs'; cases hs'; rw [hw] at hw'; cases hw'⟩
      · refine ⟨∑ j ∈ Finset.range D.nSamples, ∑ i ∈ Finset.range 2, |w.get [j, i, 0]|, fun s' w' hs' hw' j hj i hi => ?_⟩
        rw [hs] at hs'; cases hs'; rw [hw] at hw'; cases hw'
        exact (Finset.single_le_sum (f := fun i => |w.get [j, i, 0]|) (fun _ _ => abs_nonneg _) (Finset.mem_range.2 hi)).trans
          (Finset.single_le_sum (f := fun j => ∑ i ∈ Finset.range 2, |w.get [j, i, 0]|) (fun _ _ => Finset.sum_nonneg fun _ _ => abs_nonneg _) (Finset.mem_range.2 hj))
  · obtain ⟨D, g', hD, hk⟩ := unlabelled_ready (ext := counterExt) (grads := onesGrad 1) (post := true) (g := 7) (e := .portfolio) (by simp) (matT X) (.portfolio p)
    refine ⟨D, g', hD, Bool.eq_false_iff.2 fun h => ?_, hk⟩
    have h2 := ((C21_enabled_iff counterExt hD).1 h).2.2
    obtain ⟨parsed, obj, c, s, h3, h4, h5, -, rfl⟩ := dualize_ok hD
    have hp := code_parse "NC".toList 1 1 (by decide) false
    have h6 := Except.ok.inj ((show parse_code_torch _ _ = _ from hp).symm.trans h3)
    subst h6
    cases h4
    cases h5
    simp [dualOf] at h2

end Skwdro
