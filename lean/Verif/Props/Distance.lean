import Verif.Spec.Distance
import Verif.Props.Dedicated
import Verif.Props.PresentationFits
import Verif.Props.Consistency
import Verif.Props.NewsvendorRegret
import Verif.Props.DataErrors

/-!
# The guarantees hold for the transport distance as an infimum over plans (C139)
-/

namespace Skwdro
open Spec Tensor MeasureTheory

section
variable {E : Type} [MeasurableSpace E] {n : ℕ} {z : Fin n → E} {cost : E → E → ℝ} {rho : ℝ} {Q : Measure E}

theorem inBall_costs : InBall z cost rho Q ↔ ∃ c ∈ PlanCosts z cost Q, c ≤ rho := by
  constructor
  · rintro ⟨π, h1, h2, h3, h4, h5⟩
    exact ⟨_, ⟨π, h1, h2, h3, h4, rfl⟩, h5⟩
  · rintro ⟨_, ⟨π, h1, h2, h3, h4, rfl⟩, h5⟩
    exact ⟨π, h1, h2, h3, h4, h5⟩

theorem within_plans (h : WithinDistance z cost rho Q) {rho' : ℝ} (hr : rho < rho') : InBall z cost rho' Q := by
  obtain ⟨δ, hδ, hle⟩ := h
  obtain ⟨c, hc, h1, h2⟩ := hδ.exists_between (hle.trans_lt hr)
  exact inBall_costs.2 ⟨c, hc, h2.le⟩

theorem inBall_within (hc : ∀ a b, 0 ≤ cost a b) (h : InBall z cost rho Q) : WithinDistance z cost rho Q := by
  obtain ⟨c, hm, hle⟩ := inBall_costs.1 h
  have hb : BddBelow (PlanCosts z cost Q) := by
    refine ⟨0, ?_⟩
    rintro _ ⟨π, -, -, -, -, rfl⟩
    exact integral_nonneg fun p => hc _ _
  have hg := isGLB_csInf ⟨c, hm⟩ hb
  exact ⟨_, hg, (hg.1 hm).trans hle⟩

/-- going part of the way -/
theorem inBall_shrink (hz : ∀ i, cost (z i) (z i) = 0) (hm : ∀ i, Measurable (cost (z i))) (h : InBall z cost rho Q) {t : ℝ} (t0 : 0 ≤ t) (t1 : t ≤ 1)
    (S : E → Prop) (hS : ∀ᵐ x ∂Q, S x) (hSm : MeasurableSet {x | S x}) (hSz : ∀ i, S (z i)) :
    ∃ Q', InBall z cost (t * rho) Q' ∧ (∀ᵐ x ∂Q', S x) ∧
      ∀ F : E → ℝ, Measurable F → Integrable F Q → ∫ x, F x ∂Q' = (1 - t) * avg (fun i => F (z i)) + t * ∫ x, F x ∂Q := by
  obtain ⟨π, hp, hmarg, rfl, hci, hc⟩ := h
  have hT : Measurable fun p : Fin n × E => (p.1, z p.1) := measurable_fst.prodMk ((measurable_of_finite z).comp measurable_fst)
  have hG : Measurable fun p : Fin n × E => cost (z p.1) p.2 := measurable_from_prod_countable_right fun i => hm i
  set π0 := π.map fun p => (p.1, z p.1) with hπ0
  have hp0 : IsProbabilityMeasure π0 := Measure.isProbabilityMeasure_map hT.aemeasurable
  set ρ : Measure (Fin n × E) := ENNReal.ofReal (1 - t) • π0 + ENNReal.ofReal t • π with hρ
  have hsum : ENNReal.ofReal (1 - t) + ENNReal.ofReal t = 1 := by
    rw [← ENNReal.ofReal_add (by linarith) t0]; simp
  have hpr : IsProbabilityMeasure ρ := ⟨by simp [hρ, hsum]⟩
  have hint0 : Integrable (fun p : Fin n × E => cost (z p.1) p.2) π0 := by
    rw [hπ0, integrable_map_measure hG.aestronglyMeasurable hT.aemeasurable]
    refine (integrable_zero _ ℝ _).congr (Filter.Eventually.of_forall fun p => ?_)
    simp [hz]
  have hval0 : ∫ p, cost (z p.1) p.2 ∂π0 = 0 := by
    rw [hπ0, integral_map hT.aemeasurable hG.aestronglyMeasurable]
    simp [hz]
  -- integrals under the mixture
  have hmix : ∀ F : Fin n × E → ℝ, Integrable F π0 → Integrable F π → ∫ p, F p ∂ρ = (1 - t) * ∫ p, F p ∂π0 + t * ∫ p, F p ∂π := by
    intro F i0 i1
    rw [hρ, integral_add_measure (i0.smul_measure ENNReal.ofReal_ne_top) (i1.smul_measure ENNReal.ofReal_ne_top), integral_smul_measure,
      integral_smul_measure, ENNReal.toReal_ofReal (by linarith), ENNReal.toReal_ofReal t0, smul_eq_mul, smul_eq_mul]
  refine ⟨ρ.map Prod.snd, ⟨ρ, hpr, fun i => ?_, rfl, ?_, ?_⟩, ?_, ?_⟩
  · have hset : MeasurableSet {p : Fin n × E | p.1 = i} := measurable_fst (measurableSet_singleton i)
    have e0 : π0.real {p | p.1 = i} = 1 / n := by
      rw [hπ0, map_measureReal_apply hT hset]
      exact hmarg i
    rw [← integral_indicator_one hset, hmix (Set.indicator {p | p.1 = i} 1) ((integrable_const (1 : ℝ)).indicator hset) ((integrable_const (1 : ℝ)).indicator hset), integral_indicator_one hset,
      integral_indicator_one hset, e0, hmarg i]
    ring
  · exact (hint0.smul_measure ENNReal.ofReal_ne_top).add_measure (hci.smul_measure ENNReal.ofReal_ne_top)
  · rw [hmix _ hint0 hci, hval0]
    have := mul_le_mul_of_nonneg_left hc t0
    linarith
  · rw [ae_map_iff measurable_snd.aemeasurable hSm, hρ, ae_add_measure_iff]
    refine ⟨Measure.ae_smul_measure ?_ _, Measure.ae_smul_measure (ae_of_ae_map measurable_snd.aemeasurable hS) _⟩
    rw [hπ0]
    refine (ae_map_iff (p := fun q : Fin n × E => S q.2) hT.aemeasurable (measurable_snd hSm)).2 ?_
    exact Filter.Eventually.of_forall fun p => hSz p.1
  · intro F hF hFi
    have i1 : Integrable (fun p : Fin n × E => F p.2) π := (integrable_map_measure hF.aestronglyMeasurable measurable_snd.aemeasurable).1 hFi
    have i0 : Integrable (fun p : Fin n × E => F p.2) π0 := by
      rw [hπ0]
      exact (integrable_map_measure (hF.comp measurable_snd).aestronglyMeasurable hT.aemeasurable).2 (integral_fst hmarg fun i => F (z i)).1
    rw [integral_map measurable_snd.aemeasurable hF.aestronglyMeasurable, hmix _ i0 i1, integral_map measurable_snd.aemeasurable hF.aestronglyMeasurable]
    congr 2
    rw [hπ0]
    exact (integral_map hT.aemeasurable (hF.comp measurable_snd).aestronglyMeasurable).trans (integral_fst hmarg fun i => F (z i)).2

/-- a bound of the expected loss over the plans of cost at most `rho` holds at distance at most `rho` -/
theorem within_bound (hr : 0 < rho) (hz : ∀ i, cost (z i) (z i) = 0) (hm : ∀ i, Measurable (cost (z i))) (S : E → Prop) (hSm : MeasurableSet {x | S x})
    (hSz : ∀ i, S (z i)) {F : E → ℝ} (hF : Measurable F) {M : ℝ} (hM : ∀ Q, InBall z cost rho Q → (∀ᵐ x ∂Q, S x) → ∫ x, F x ∂Q ≤ M)
    (hQ : WithinDistance z cost rho Q) (hS : ∀ᵐ x ∂Q, S x) (hFi : Integrable F Q) : ∫ x, F x ∂Q ≤ M := by
  set A := avg fun i => F (z i)
  set I := ∫ x, F x ∂Q
  have key : ∀ t : ℝ, 0 < t → t < 1 → (1 - t) * A + t * I ≤ M := by
    intro t t0 t1
    obtain ⟨Q', h1, h2, h3⟩ := inBall_shrink hz hm (within_plans hQ (rho' := rho / t) (by rw [lt_div_iff₀ t0]; nlinarith)) t0.le t1.le S hS hSm hSz
    rw [mul_div_cancel₀ _ t0.ne'] at h1
    rw [← h3 F hF hFi]
    exact hM Q' h1 h2
  have hlim : Filter.Tendsto (fun t : ℝ => (1 - t) * A + t * I) (nhdsWithin 1 (Set.Iio 1)) (nhds ((1 - 1) * A + 1 * I)) :=
    (Continuous.tendsto (by fun_prop) 1).mono_left nhdsWithin_le_nhds
  have := le_of_tendsto hlim (by
    filter_upwards [Ioo_mem_nhdsLT (zero_lt_one : (0 : ℝ) < 1)] with t ht
    exact key t ht.1 ht.2)
  linarith

end

/-- two families of laws whose risks have the same bounds have the same supremum -/
theorem lub_of_bounds {E : Type} [MeasurableSpace E] {A B : Set (Measure E)} {R : Measure E → ℝ} {V : ℝ} (h : IsLUB {e | ∃ Q ∈ A, e = R Q} V)
    (hb : ∀ M, (∀ Q ∈ A, R Q ≤ M) ↔ ∀ Q ∈ B, R Q ≤ M) : IsLUB {e | ∃ Q ∈ B, e = R Q} V := by
  constructor
  · rintro _ ⟨Q, hQ, rfl⟩
    exact (hb V).1 (fun Q' hQ' => h.1 ⟨Q', hQ', rfl⟩) Q hQ
  · intro M hM
    refine h.2 ?_
    rintro _ ⟨Q, hQ, rfl⟩
    exact (hb M).2 (fun Q' hQ' => hM ⟨Q', hQ', rfl⟩) Q hQ

theorem dist2_self {d : ℕ} (a : Fin d → ℝ) : dist2 a a = 0 := by simp [dist2]

section
variable {n d : ℕ}

theorem labels_within (hn : 0 < n) {kappa rho : ℝ} (hk : 0 ≤ kappa) (hr : 0 < rho) {X : Fin n → Fin d → ℝ} {y : Fin n → ℝ}
    (hy : ∀ i, y i = 1 ∨ y i = -1) (w : Fin d → ℝ) (b M : ℝ) :
    (∀ Q ∈ LabelBall X y kappa rho, logRisk w b Q ≤ M) ↔ ∀ Q ∈ LabelsWithin X y kappa rho, logRisk w b Q ≤ M := by
  refine ⟨fun h Q hQ => ?_, fun h Q hQ => h Q ⟨inBall_within (moveOrFlip_nonneg hk) hQ.1, hQ.2⟩⟩
  obtain ⟨lam, s, hf, -⟩ := logistic_exact hn hk hr.le (X := X) hy w b
  have hSm : MeasurableSet {p : (Fin d → ℝ) × ℝ | p.2 = 1 ∨ p.2 = -1} :=
    (measurable_snd (measurableSet_singleton 1)).union (measurable_snd (measurableSet_singleton (-1)))
  exact within_bound hr (fun i => by simp [moveOrFlip, dist2_self]) (fun i => moveOrFlip_measurable kappa _) (fun p => p.2 = 1 ∨ p.2 = -1) hSm hy
    (logloss_measurable w b) (fun Q h1 h2 => h Q ⟨h1, h2⟩) hQ.1 hQ.2
    (logistic_certificate hy hf ⟨within_plans hQ.1 (by linarith : rho < rho + 1), hQ.2⟩).1

theorem demands_within {k u rho : ℝ} (hu : 0 ≤ u) (hr : 0 < rho) {z : Fin n → ℝ} (hz : ∀ i, 0 ≤ z i) (theta M : ℝ) :
    (∀ Q ∈ DemandBall z rho, ∫ x, newsvendor k u theta x ∂Q ≤ M) ↔ ∀ Q ∈ DemandsWithin z rho, ∫ x, newsvendor k u theta x ∂Q ≤ M := by
  refine ⟨fun h Q hQ => ?_, fun h Q hQ => h Q ⟨inBall_within (fun _ _ => abs_nonneg _) hQ.1, hQ.2⟩⟩
  refine within_bound hr (fun i => by simp) (fun i => by fun_prop) (fun x => 0 ≤ x) measurableSet_Ici hz
    (newsvendor_measurable k u theta) (fun Q h1 h2 => h Q ⟨h1, h2⟩) hQ.1 hQ.2 ?_
  refine ball_integrable (within_plans hQ.1 (by linarith : rho < rho + 1)) (newsvendor_measurable k u theta) (s := fun i => |newsvendor k u theta (z i)|) (lam := u)
    (fun _ => True) (by simp) ?_
  intro i x _
  have h1 := newsvendor_lip (k := k) hu theta (z i) x
  have h2 := newsvendor_lip (k := k) hu theta x (z i)
  rw [abs_sub_comm x] at h2
  have h3 := neg_abs_le (newsvendor k u theta (z i))
  have h4 := le_abs_self (newsvendor k u theta (z i))
  rw [abs_le]
  constructor <;> linarith

theorem assets_within {m J : ℕ} {p q : XNum ℝ} (hpq : Conj p q) {rho : ℝ} (hr : 0 < rho) {C : Fin J → Fin m → ℝ} {D : Fin J → ℝ}
    {X : Fin n → Fin m → ℝ} (hx : ∀ i l, ∑ j, C l j * X i j ≤ D l) (eta alpha : ℝ) (theta : Fin m → ℝ) (tau M : ℝ) :
    (∀ Q ∈ AssetBall C D p X rho, cvarRisk eta alpha theta tau Q ≤ M) ↔ ∀ Q ∈ AssetsWithin C D p X rho, cvarRisk eta alpha theta tau Q ≤ M := by
  refine ⟨fun h Q hQ => ?_, fun h Q hQ => h Q ⟨inBall_within (fun _ _ => pnorm_nonneg _ _) hQ.1, hQ.2⟩⟩
  have hSm : MeasurableSet {x : Fin m → ℝ | ∀ l, ∑ j, C l j * x j ≤ D l} := by
    rw [Set.ofPred_forall]
    exact MeasurableSet.iInter fun l => measurableSet_le (by fun_prop) measurable_const
  refine within_bound hr (fun i => ?_) (fun i => ?_) (fun x => ∀ l, ∑ j, C l j * x j ≤ D l) hSm hx
    (cvar_measurable eta alpha theta tau) (fun Q h1 h2 => h Q ⟨h1, h2⟩) hQ.1 hQ.2
    (cvar_integrable hpq theta tau (C := C) (d := D) ⟨within_plans hQ.1 (by linarith : rho < rho + 1), hQ.2⟩)
  · simp only [sub_self]
    exact (pnorm_eq_zero hpq.normOrder_left _).2 fun _ => rfl
  · exact pnorm_measurable.comp (measurable_pi_lambda _ fun j => (measurable_pi_apply j).const_sub _)

theorem inputs_within {rho : ℝ} (hn : 0 < n) (hr : 0 ≤ rho) {X : Fin n → Fin d → ℝ} {y : Fin n → ℝ} (w : Fin d → ℝ) (b M : ℝ) :
    (∀ Q ∈ InputBall X y rho, rmseUnder Q w b ≤ M) ↔ ∀ Q ∈ InputsWithin X y rho, rmseUnder Q w b ≤ M := by
  constructor
  · intro h Q hQ
    obtain ⟨⟨Q0, h0, e0⟩, -⟩ := (C61_worst_case hn hr X y true w b).1
    have h1 := h Q0 h0
    rw [← e0, linreg_objective] at h1
    refine le_trans ?_ h1
    have key : ∀ r > rho, rmseUnder Q w b ≤ rmse X y w b + r * norm2 w := fun r hr' => (linreg_upper (hr.trans hr'.le) X y w b (hQ r hr')).2
    have hlim : Filter.Tendsto (fun r : ℝ => rmse X y w b + r * norm2 w) (nhdsWithin rho (Set.Ioi rho)) (nhds (rmse X y w b + rho * norm2 w)) :=
      (Continuous.tendsto (by fun_prop) rho).mono_left nhdsWithin_le_nhds
    exact ge_of_tendsto hlim (by filter_upwards [self_mem_nhdsWithin] with r hr' using key r hr')
  · intro h Q hQ
    refine h Q fun r hr' => ?_
    obtain ⟨π, h1, h2, h3, h4, h5, h6⟩ := hQ
    exact ⟨π, h1, h2, h3, h4, h5, h6.trans (pow_le_pow_left₀ hr hr'.le 2)⟩

end

section
variable {n d : ℕ} {G : Type} {ext : TorchExt G} {solve : Oracle} {P : EstParams} {g : G}

/-- **C139** Linear regression with `solver="dedicated"`: the stored coefficients have the smallest worst-case error over the laws at a distance of at
most `rho`, whether or not a plan attains the distance. -/
theorem C139_linreg (hs : ExactSolver solve) {grads : Autograd d} {train : Trainer d} {init : LinInit d} (hP : P.solver = "dedicated".toList)
    (hc : ∃ c, cost_from_str P.cost = .ok c) {rho : ℝ} (hR : P.rho = .num rho) (hr : 0 < rho) (hn : 0 < n) (hd : 0 < d)
    (X : Fin n → Fin d → ℝ) (y : Fin n → ℝ) :
    ∃ f wT bT w b, linregFit ext grads solve train init P X y g = .ok f ∧ f.coef = some wT ∧ IsVec wT w ∧
      f.intercept = some bT ∧ IsVec bT (fun _ : Fin 1 => b) ∧ (P.fit_intercept = false → b = 0) ∧
      ∀ (w' : Fin d → ℝ) (b' : ℝ), (P.fit_intercept = false → b' = 0) → ∀ M, (∀ Q ∈ InputsWithin X y rho, rmseUnder Q w' b' ≤ M) →
        ∀ Q ∈ InputsWithin X y rho, rmseUnder Q w b ≤ M := by
  obtain ⟨f, wT, bT, w, b, h1, h2, h3, h4, h5, h6, h7⟩ := C94_linreg (ext := ext) (g := g) (grads := grads) (train := train) (init := init) hs hP hc hR hr hn hd X y
  refine ⟨f, wT, bT, w, b, h1, h2, h3, h4, h5, h6, fun w' b' hb' M hM => ?_⟩
  exact (inputs_within hn hr.le w b M).1 (h7 w' b' hb' M ((inputs_within hn hr.le w' b' M).2 hM))

/-- **C139** The same for two-class logistic regression. -/
theorem C139_logistic {L : Type} [LinearOrder L] (hs : ExactSolver solve) {grads : Autograd d} {train : Trainer d} {init : LinInit d}
    (hP : P.solver = "dedicated".toList) (hc : ∃ c, cost_from_str P.cost = .ok c) {rho : ℝ} (hR : P.rho = .num rho) (hr : 0 < rho)
    (hd : 0 < d) (X : Fin n → Fin d → ℝ) {y : Fin n → L} {c0 c1 : L} (hlt : c0 < c1) (hy : ∀ i, y i = c0 ∨ y i = c1)
    (h0 : ∃ i, y i = c0) (h1 : ∃ i, y i = c1) {s : Fin n → ℝ} (hs0 : ∀ i, y i = c0 → s i = -1) (hs1 : ∀ i, y i = c1 → s i = 1) :
    ∃ f wT bT w b V, logisticFit ext grads solve train init P X y g = .ok f ∧ f.coef = some wT ∧ IsVec wT w ∧
      f.intercept = some bT ∧ IsScalar bT b ∧ (P.fit_intercept = false → b = 0) ∧
      IsLUB {e | ∃ Q ∈ LabelsWithin X s 1000 rho, e = logRisk w b Q} V ∧
      ∀ w' b', (P.fit_intercept = false → b' = 0) → ∀ M, (∀ Q ∈ LabelsWithin X s 1000 rho, logRisk w' b' Q ≤ M) → V ≤ M := by
  obtain ⟨f, wT, bT, lT, w, b, lam, V, g1, -, g2, g3, g4, g5, g6, -, -, -, g7, g8⟩ :=
    C94_logistic (ext := ext) (g := g) (grads := grads) (train := train) (init := init) hs hP hc hR hr hd X hlt hy h0 h1 hs0 hs1
  have hn : 0 < n := h0.choose.pos
  have hsl : ∀ i, s i = 1 ∨ s i = -1 := fun i => (hy i).elim (fun h => .inr (hs0 i h)) (fun h => .inl (hs1 i h))
  have hb := fun w b M => labels_within hn (by norm_num : (0 : ℝ) ≤ 1000) hr (X := X) hsl w b M
  refine ⟨f, wT, bT, w, b, V, g1, g2, g3, g4, g5, g6, lub_of_bounds g7 (hb w b), fun w' b' hb' M hM => g8 w' b' hb' M ((hb w' b' M).2 hM)⟩

/-- **C139** The same for portfolio choice. -/
theorem C139_portfolio {J q p : ℕ} (hq : 1 ≤ q) (hs : ExactSolver solve) {grads : Autograd d} {train : Trainer d} {p0 : Portfolio}
    (hP : P.solver = "dedicated".toList) (hc : P.cost = joinDash ["t".toList, "NC".toList, decimal q, decimal p]) {rho : ℝ}
    (hR : P.rho = .num rho) (hr : 0 < rho) (he : 0 ≤ P.eta) (ha : 0 < P.alpha) (ha1 : P.alpha ≤ 1) (hg : P.solver_reg ≠ none)
    (hn : 0 < n) (hd : 0 < d) {C : Fin J → Fin d → ℝ} {D : Fin J → ℝ} {X : Fin n → Fin d → ℝ} (hx : ∀ i l, ∑ j, C l j * X i j ≤ D l) :
    ∃ f wT tT theta tau V, portfolioFit ext grads solve train p0 P C D X g = .ok f ∧ f.coef = some wT ∧ IsVec wT theta ∧
      f.tau = some tT ∧ IsVec tT (fun _ : Fin 1 => tau) ∧ InSimplex theta ∧
      IsLUB {e | ∃ Q ∈ AssetsWithin C D (.fin q) X rho, e = cvarRisk P.eta P.alpha theta tau Q} V ∧
      ∀ theta' tau', InSimplex theta' → ∀ M, (∀ Q ∈ AssetsWithin C D (.fin q) X rho, cvarRisk P.eta P.alpha theta' tau' Q ≤ M) → V ≤ M := by
  obtain ⟨f, wT, tT, lT, theta, tau, lam, V, g1, g2, g3, g4, g5, -, -, g6, g7, g8⟩ :=
    C94_portfolio (ext := ext) (g := g) (grads := grads) (train := train) (p0 := p0) hq hs hP hc hR hr.le he ha ha1 hg hn hd hx
  have hp : NormOrder (.fin (q : ℝ)) := Or.inl ⟨q, by exact_mod_cast hq, rfl⟩
  obtain ⟨q', hq'⟩ : ∃ q', pfQ (.fin (q : ℝ)) = .ok q' := by
    simp only [pfQ]
    split_ifs with h1 h2
    · exact ⟨_, rfl⟩
    · have : (1 : ℝ) ≤ q := by exact_mod_cast hq
      linarith
    · exact ⟨_, rfl⟩
  have hb := fun w t M => assets_within (pfQ_conj hp hq') hr hx P.eta P.alpha w t M
  exact ⟨f, wT, tT, theta, tau, V, g1, g2, g3, g4, g5, g6, lub_of_bounds g7 (hb theta tau),
    fun theta' tau' ht M hM => g8 theta' tau' ht M ((hb theta' tau' M).2 hM)⟩

/-- an order has the least worst-case cost for the distance exactly when it has it for the plans -/
theorem newsvendor_within {k u rho : ℝ} (hu : 0 ≤ u) (hr : 0 < rho) {z : Fin n → ℝ} (hz : ∀ i, 0 ≤ z i) (theta : ℝ) :
    Minimax (DemandsWithin z rho) (newsvendor k u) (fun t => 0 ≤ t) theta ↔ Minimax (DemandBall z rho) (newsvendor k u) (fun t => 0 ≤ t) theta := by
  have hb := fun t M => demands_within (k := k) hu hr hz t M
  constructor
  · rintro ⟨h1, h2⟩
    exact ⟨h1, fun t ht M hM => (hb theta M).2 (h2 t ht M ((hb t M).1 hM))⟩
  · rintro ⟨h1, h2⟩
    exact ⟨h1, fun t ht M hM => (hb theta M).1 (h2 t ht M ((hb t M).2 hM))⟩

/-- **C139** (partial) The newsvendor with `solver="dedicated"`: the stored order has the least worst-case cost over the laws of demands at a distance
of at most `rho` exactly in the cases listed.  Missing: the remaining cases, where it has not (`C139_newsvendor_false`). -/
theorem C139_newsvendor_partial (hs : ExactSolver solve) {grads : Autograd 1} {train : Trainer 1} {theta0 : ℝ} (hP : P.solver = "dedicated".toList)
    (hc : ∃ c, cost_from_str P.cost = .ok c) {rho : ℝ} (hR : P.rho = .num rho) (hr : 0 < rho) (hk : 0 < P.k) (hu : 0 ≤ P.u) (hn : 0 < n)
    (hd : 0 < d) (X : Fin n → Fin d → ℝ) (hX : ∀ i, 0 ≤ avg (X i)) :
    ∃ f cT theta, newsvendorFit ext grads solve train theta0 P X g = .ok f ∧ f.coef = some cT ∧ IsScalar cT theta ∧
      (Minimax (DemandsWithin (fun i => avg (X i)) rho) (newsvendor P.k P.u) (fun t => 0 ≤ t) theta ↔
        (theta = 0 ∧ ∀ t, 0 ≤ t → 0 ≤ avg (fun i => newsvendor P.k P.u t (avg (X i))) + P.u * rho) ∨
        (0 < theta ∧ avg (fun i => newsvendor P.k P.u theta (avg (X i))) + P.u * rho ≤ 0)) := by
  obtain ⟨f, cT, lT, theta, lam, h1, h2, h3, -, -, -, -, -, h4⟩ :=
    C94_newsvendor_partial (ext := ext) (g := g) (grads := grads) (train := train) (theta0 := theta0) hs hP hc hR hr.le hk.le hu hn hd X hX
  exact ⟨f, cT, theta, h1, h2, h3, (newsvendor_within hu hr hX theta).trans (h4 hk)⟩

/-- **C139** (violated) The remaining cases occur: as soon as the average demand is at most the radius and ordering is worthwhile without ambiguity, the
stored order has not the least worst-case cost. -/
theorem C139_newsvendor_false (hs : ExactSolver solve) {grads : Autograd 1} {train : Trainer 1} {theta0 : ℝ} (hP : P.solver = "dedicated".toList)
    (hc : ∃ c, cost_from_str P.cost = .ok c) {rho : ℝ} (hR : P.rho = .num rho) (hr : 0 < rho) (hk : 0 < P.k) (hu : 0 ≤ P.u) (hn : 0 < n)
    (hd : 0 < d) (X : Fin n → Fin d → ℝ) (hX : ∀ i, 0 ≤ avg (X i)) (hlarge : ∑ i, avg (X i) ≤ n * rho)
    (hworth : P.k * n < P.u * Nat.card {i // 0 < avg (X i)}) :
    ∃ f cT theta, newsvendorFit ext grads solve train theta0 P X g = .ok f ∧ f.coef = some cT ∧ IsScalar cT theta ∧
      ¬ Minimax (DemandsWithin (fun i => avg (X i)) rho) (newsvendor P.k P.u) (fun t => 0 ≤ t) theta := by
  obtain ⟨f, cT, theta, h1, h2, h3, -, h4, Q, hQ, h5⟩ :=
    C137_large_radius_false (ext := ext) (g := g) (grads := grads) (train := train) (theta0 := theta0) hs hP hc hR hr.le hk hu hn hd X hX hlarge hworth
  refine ⟨f, cT, theta, h1, h2, h3, fun h => ?_⟩
  have := ((newsvendor_within hu hr hX theta).1 h).2 0 le_rfl 0 h4 Q hQ
  linarith

end

end Skwdro
