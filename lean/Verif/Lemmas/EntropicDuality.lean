import Verif.Lemmas.Duality
import Verif.Props.Adversary
import Mathlib.Probability.ConditionalProbability

/-!
# Strong duality of transport penalised by the divergence
-/

namespace Skwdro
open Spec MeasureTheory ProbabilityTheory InformationTheory Filter
open scoped Topology

section
variable {α : Type} [MeasurableSpace α]

/-- mixtures -/
noncomputable def mixture (t : ℝ) (Q Q' : Measure α) : Measure α := ENNReal.ofReal t • Q + ENNReal.ofReal (1 - t) • Q'

theorem mixture_prob {t : ℝ} (ht : 0 ≤ t) (ht' : t ≤ 1) (Q Q' : Measure α) [IsProbabilityMeasure Q] [IsProbabilityMeasure Q'] :
    IsProbabilityMeasure (mixture t Q Q') := by
  refine ⟨?_⟩
  simp only [mixture, Measure.add_apply, Measure.smul_apply, smul_eq_mul, measure_univ, mul_one]
  rw [← ENNReal.ofReal_add ht (by linarith)]
  simp

theorem mixture_integral {t : ℝ} (ht : 0 ≤ t) (ht' : t ≤ 1) {Q Q' : Measure α} {f : α → ℝ} (hf : Integrable f Q) (hf' : Integrable f Q') :
    Integrable f (mixture t Q Q') ∧ ∫ u, f u ∂(mixture t Q Q') = t * ∫ u, f u ∂Q + (1 - t) * ∫ u, f u ∂Q' := by
  have g := hf.smul_measure (c := ENNReal.ofReal t) ENNReal.ofReal_ne_top
  have g' := hf'.smul_measure (c := ENNReal.ofReal (1 - t)) ENNReal.ofReal_ne_top
  refine ⟨g.add_measure g', ?_⟩
  unfold mixture
  rw [integral_add_measure g g', integral_smul_measure, integral_smul_measure, ENNReal.toReal_ofReal ht, ENNReal.toReal_ofReal (by linarith)]
  rfl

/-- the divergence is convex -/
theorem klDiv_mixture {t : ℝ} (ht : 0 ≤ t) (ht' : t ≤ 1) {Q Q' nu : Measure α} [IsProbabilityMeasure Q] [IsProbabilityMeasure Q']
    [IsProbabilityMeasure nu] (h : Q ≪ nu) (h' : Q' ≪ nu) :
    klDiv (mixture t Q Q') nu ≤ ENNReal.ofReal t * klDiv Q nu + ENNReal.ofReal (1 - t) * klDiv Q' nu := by
  haveI := mixture_prob ht ht' Q Q'
  have hs : 0 ≤ 1 - t := by linarith
  have hac : mixture t Q Q' ≪ nu := (h.smul_left _).add_left (h'.smul_left _)
  rw [klDiv_eq_lintegral_klFun_of_ac hac, klDiv_eq_lintegral_klFun_of_ac h, klDiv_eq_lintegral_klFun_of_ac h',
    ← lintegral_const_mul' _ _ ENNReal.ofReal_ne_top, ← lintegral_const_mul' _ _ ENNReal.ofReal_ne_top, ← lintegral_add_left]
  · refine lintegral_mono_ae ?_
    have e1 := Measure.rnDeriv_smul_left_of_ne_top Q nu (r := ENNReal.ofReal t) ENNReal.ofReal_ne_top
    have e2 := Measure.rnDeriv_smul_left_of_ne_top Q' nu (r := ENNReal.ofReal (1 - t)) ENNReal.ofReal_ne_top
    haveI : IsFiniteMeasure (ENNReal.ofReal t • Q) := Measure.smul_finite Q ENNReal.ofReal_ne_top
    haveI : IsFiniteMeasure (ENNReal.ofReal (1 - t) • Q') := Measure.smul_finite Q' ENNReal.ofReal_ne_top
    have e3 := Measure.rnDeriv_add (ENNReal.ofReal t • Q) (ENNReal.ofReal (1 - t) • Q') nu
    filter_upwards [e1, e2, e3, Measure.rnDeriv_lt_top Q nu, Measure.rnDeriv_lt_top Q' nu] with x h1 h2 h3 h4 h5
    have hx : ((mixture t Q Q').rnDeriv nu x).toReal = t * (Q.rnDeriv nu x).toReal + (1 - t) * (Q'.rnDeriv nu x).toReal := by
      unfold mixture
      rw [h3, Pi.add_apply, h1, h2, Pi.smul_apply, Pi.smul_apply, smul_eq_mul, smul_eq_mul, ENNReal.toReal_add
        (ENNReal.mul_ne_top ENNReal.ofReal_ne_top h4.ne) (ENNReal.mul_ne_top ENNReal.ofReal_ne_top h5.ne), ENNReal.toReal_mul, ENNReal.toReal_mul,
        ENNReal.toReal_ofReal ht, ENNReal.toReal_ofReal hs]
    rw [hx, ← ENNReal.ofReal_mul ht, ← ENNReal.ofReal_mul hs, ← ENNReal.ofReal_add (mul_nonneg ht (klFun_nonneg ENNReal.toReal_nonneg))
      (mul_nonneg hs (klFun_nonneg ENNReal.toReal_nonneg))]
    refine ENNReal.ofReal_le_ofReal ?_
    have := convexOn_klFun.2 (x := (Q.rnDeriv nu x).toReal) (y := (Q'.rnDeriv nu x).toReal) (Set.mem_Ici.2 ENNReal.toReal_nonneg)
      (Set.mem_Ici.2 ENNReal.toReal_nonneg) ht hs (by ring)
    simpa only [smul_eq_mul] using this
  · refine Measurable.const_mul (ENNReal.measurable_ofReal.comp ?_) _
    exact measurable_klFun.comp (Measure.measurable_rnDeriv Q nu).ennreal_toReal

/-- conditioning on an event of positive probability costs a finite divergence -/
theorem klDiv_cond {nu : Measure α} [IsProbabilityMeasure nu] {A : Set α} (hA : MeasurableSet A) (h0 : nu A ≠ 0) :
    klDiv (cond nu A) nu ≠ ⊤ := by
  haveI := cond_isProbabilityMeasure h0
  have hac : cond nu A ≪ nu := cond_absolutelyContinuous
  rw [klDiv_eq_lintegral_klFun_of_ac hac]
  have e1 := Measure.rnDeriv_smul_left_of_ne_top (nu.restrict A) nu (r := (nu A)⁻¹) (ENNReal.inv_ne_top.2 h0)
  have e2 := Measure.rnDeriv_restrict_self nu hA
  refine ((lintegral_mono_ae (g := fun _ => ENNReal.ofReal (max (klFun (nu A)⁻¹.toReal) (klFun 0))) ?_).trans_lt ?_).ne
  · filter_upwards [e1, e2] with x h1 h2
    refine ENNReal.ofReal_le_ofReal ?_
    have : (cond nu A).rnDeriv nu x = (nu A)⁻¹ * A.indicator 1 x := by
      unfold ProbabilityTheory.cond
      rw [h1, Pi.smul_apply, smul_eq_mul, h2]
    rw [this]
    by_cases hx : x ∈ A
    · simp [hx]
    · simp [hx]
  · simp

/-- tilts by functions that are bounded above -/
theorem tilt_min {nu : Measure α} [IsProbabilityMeasure nu] {f : α → ℝ} (hf : Integrable f nu) (N : ℝ) :
    Integrable (fun u => Real.exp (min (f u) N)) nu ∧ (∀ g : α → ℝ, Integrable g nu → Integrable g (nu.tilted fun u => min (f u) N)) := by
  have hm : AEStronglyMeasurable (fun u => Real.exp (min (f u) N)) nu :=
    Real.continuous_exp.comp_aestronglyMeasurable (hf.aestronglyMeasurable.inf aestronglyMeasurable_const)
  have hb : ∀ᵐ u ∂nu, ‖Real.exp (min (f u) N)‖ ≤ Real.exp N := Eventually.of_forall fun u => by
    rw [Real.norm_eq_abs, Real.abs_exp]
    exact Real.exp_le_exp.2 (min_le_right _ _)
  have h1 : Integrable (fun u => Real.exp (min (f u) N)) nu := (integrable_const (Real.exp N)).mono' hm hb
  refine ⟨h1, fun g hg => ?_⟩
  rw [integrable_tilted_iff h1]
  exact hg.bdd_mul hm hb

end

/-- a concave increasing function has a non-negative slope at every interior point of its domain, which has no right end -/
theorem slope_exists_of {v : ℝ → ℝ} {S : Set ℝ} (hv : ConcaveOn ℝ S v) (hmono : MonotoneOn v S) (hup : ∀ a ∈ S, ∀ b, a ≤ b → b ∈ S) {r0 a0 : ℝ}
    (ha0 : a0 ∈ S) (h0 : a0 < r0) : ∃ lam, 0 ≤ lam ∧ ∀ r ∈ S, v r ≤ v r0 + lam * (r - r0) := by
  have hr0 := hup a0 ha0 r0 h0.le
  have hslope : ∀ a ∈ S, ∀ b, a < r0 → r0 < b → (v b - v r0) / (b - r0) ≤ (v r0 - v a) / (r0 - a) := fun a ha b h1 h2 =>
    hv.slope_anti_adjacent ha (hup r0 hr0 b h2.le) h1 h2
  set A : Set ℝ := {q | ∃ b, r0 < b ∧ q = (v b - v r0) / (b - r0)} with hA
  have hne : A.Nonempty := ⟨_, r0 + 1, by linarith, rfl⟩
  have hbd : BddAbove A := ⟨(v r0 - v a0) / (r0 - a0), by rintro _ ⟨b, hb, rfl⟩; exact hslope a0 ha0 b h0 hb⟩
  refine ⟨sSup A, ?_, fun r hr => ?_⟩
  · refine le_trans ?_ (le_csSup hbd ⟨r0 + 1, by linarith, rfl⟩)
    exact div_nonneg (sub_nonneg.2 (hmono hr0 (hup r0 hr0 _ (by linarith)) (by linarith))) (by linarith)
  · rcases lt_trichotomy r r0 with h | h | h
    · have h1 : sSup A ≤ (v r0 - v r) / (r0 - r) := csSup_le hne (by rintro _ ⟨b, hb, rfl⟩; exact hslope r hr b h hb)
      rw [le_div_iff₀ (by linarith)] at h1
      linarith
    · subst h
      simp
    · have h1 := le_csSup hbd ⟨r, h, rfl⟩
      rw [div_le_iff₀ (by linarith)] at h1
      linarith

section
variable {m d k : ℕ} {c : Fin m → (Fin d → ℝ) → (Fin k → ℝ) → ℝ} {loss : (Fin d → ℝ) → (Fin k → ℝ) → ℝ}
  {nu : Fin m → Measure ((Fin d → ℝ) × (Fin k → ℝ))} {eps : ℝ}

/-- penalised expected losses of the adversaries of budget `r` -/
def Penalised (c : Fin m → (Fin d → ℝ) → (Fin k → ℝ) → ℝ) (loss : (Fin d → ℝ) → (Fin k → ℝ) → ℝ)
    (nu : Fin m → Measure ((Fin d → ℝ) × (Fin k → ℝ))) (eps r : ℝ) : Set ℝ :=
  {v | ∃ Q, Adversary c loss nu Q r ∧ v = avg (fun i => ∫ u, loss u.1 u.2 ∂(Q i) - eps * (klDiv (Q i) (nu i)).toReal)}

theorem penalised_mono {r r' : ℝ} (h : r ≤ r') : Penalised c loss nu eps r ⊆ Penalised c loss nu eps r' := by
  rintro v ⟨Q, hQ, rfl⟩
  exact ⟨Q, ⟨hQ.prob, hQ.div, hQ.loss_int, hQ.cost_int, hQ.budget.trans h⟩, rfl⟩

/-- mixtures of adversaries do at least as well as the mixture of their values -/
theorem penalised_mix [∀ i, IsProbabilityMeasure (nu i)] (he : 0 ≤ eps) {r r' a b t : ℝ} (ht : 0 ≤ t) (ht' : t ≤ 1)
    (ha : a ∈ Penalised c loss nu eps r) (hb : b ∈ Penalised c loss nu eps r') :
    ∃ v ∈ Penalised c loss nu eps (t * r + (1 - t) * r'), t * a + (1 - t) * b ≤ v := by
  obtain ⟨Q, hQ, rfl⟩ := ha
  obtain ⟨Q', hQ', rfl⟩ := hb
  have hs : 0 ≤ 1 - t := by linarith
  have hp := hQ.prob
  have hp' := hQ'.prob
  have hkl : ∀ i, klDiv (mixture t (Q i) (Q' i)) (nu i) ≠ ⊤ ∧ (klDiv (mixture t (Q i) (Q' i)) (nu i)).toReal ≤
      t * (klDiv (Q i) (nu i)).toReal + (1 - t) * (klDiv (Q' i) (nu i)).toReal := by
    intro i
    have h := klDiv_mixture ht ht' (klDiv_ne_top_iff.1 (hQ.div i)).1 (klDiv_ne_top_iff.1 (hQ'.div i)).1
    have hfin1 := ENNReal.mul_ne_top (ENNReal.ofReal_ne_top (r := t)) (hQ.div i)
    have hfin2 := ENNReal.mul_ne_top (ENNReal.ofReal_ne_top (r := 1 - t)) (hQ'.div i)
    have hfin := ENNReal.add_ne_top.2 ⟨hfin1, hfin2⟩
    refine ⟨ne_top_of_le_ne_top hfin h, (ENNReal.toReal_mono hfin h).trans (le_of_eq ?_)⟩
    rw [ENNReal.toReal_add hfin1 hfin2, ENNReal.toReal_mul, ENNReal.toReal_mul, ENNReal.toReal_ofReal ht, ENNReal.toReal_ofReal hs]
  have hl := fun i => mixture_integral ht ht' (hQ.loss_int i) (hQ'.loss_int i)
  have hc := fun i => mixture_integral ht ht' (hQ.cost_int i) (hQ'.cost_int i)
  have hmix : ∀ f g : Fin m → ℝ, avg (fun i => t * f i + (1 - t) * g i) = t * avg f + (1 - t) * avg g := by
    intro f g
    simp only [avg, Finset.sum_add_distrib, ← Finset.mul_sum]
    ring
  refine ⟨_, ⟨fun i => mixture t (Q i) (Q' i), ⟨fun i => mixture_prob ht ht' _ _, fun i => (hkl i).1, fun i => (hl i).1, fun i => (hc i).1, ?_⟩, rfl⟩, ?_⟩
  · simp only [(hc _).2]
    rw [hmix]
    exact add_le_add (mul_le_mul_of_nonneg_left hQ.budget ht) (mul_le_mul_of_nonneg_left hQ'.budget hs)
  · rw [← hmix]
    refine avg_mono fun i => ?_
    rw [(hl i).2]
    have := mul_le_mul_of_nonneg_left (hkl i).2 he
    linarith

/-- **Strong duality**: at some multiplier the objective with exact expectations is finite, and is the least upper bound of the penalised expected
losses of the adversaries -/
theorem entropic_duality (hm : 0 < m) [∀ i, IsProbabilityMeasure (nu i)] (he : 0 < eps) {rho p : ℝ}
    (hl : ∀ i, Integrable (fun u => loss u.1 u.2) (nu i)) (hc : ∀ i, Integrable (fun u => c i u.1 u.2) (nu i)) {r0 : ℝ} (hr0 : r0 < rho ^ p)
    {Q0 : Fin m → Measure ((Fin d → ℝ) × (Fin k → ℝ))} (hQ0 : Adversary c loss nu Q0 r0)
    (hgrow : ∃ lam0, 0 ≤ lam0 ∧ ∀ i, Integrable (fun u => Real.exp ((loss u.1 u.2 - lam0 * c i u.1 u.2) / eps)) (nu i)) :
    ∃ lam, 0 ≤ lam ∧ (∀ i, Integrable (fun u => Real.exp ((loss u.1 u.2 - lam * c i u.1 u.2) / eps)) (nu i)) ∧
      IsLUB (Penalised c loss nu eps (rho ^ p)) (population lam rho p eps loss c nu) := by
  obtain ⟨lam0, hlam0, hexp0⟩ := hgrow
  have hmR : (0 : ℝ) < m := by exact_mod_cast hm
  have hbdd : ∀ r, BddAbove (Penalised c loss nu eps r) := by
    intro r
    refine ⟨population lam0 r 1 eps loss c nu, ?_⟩
    rintro v ⟨Q, hQ, rfl⟩
    exact population_covers hlam0 he hexp0 (by rwa [Real.rpow_one])
  set S : Set ℝ := {r | (Penalised c loss nu eps r).Nonempty} with hS
  have hup : ∀ a ∈ S, ∀ b, a ≤ b → b ∈ S := fun a ha b hab => ha.mono (penalised_mono hab)
  have hr0S : r0 ∈ S := ⟨_, Q0, hQ0, rfl⟩
  set V : ℝ → ℝ := fun q => sSup (Penalised c loss nu eps q) with hV
  have hmono : MonotoneOn V S := fun a ha b _ hab => csSup_le_csSup (hbdd b) ha (penalised_mono hab)
  have hconc : ConcaveOn ℝ S V := by
    refine ⟨fun a ha b hb t s ht hs hts => ?_, fun a ha b hb t s ht hs hts => ?_⟩
    · have hs' : s = 1 - t := by linarith
      subst hs'
      obtain ⟨u, hu⟩ := ha
      obtain ⟨w, hw⟩ := hb
      obtain ⟨v, hv, -⟩ := penalised_mix he.le ht (by linarith) hu hw
      exact ⟨v, hv⟩
    · have hs' : s = 1 - t := by linarith
      subst hs'
      simp only [smul_eq_mul]
      refine le_of_forall_pos_le_add fun δ hδ => ?_
      obtain ⟨u, hu, hu'⟩ := exists_lt_of_lt_csSup ha (show V a - δ < V a by linarith)
      obtain ⟨w, hw, hw'⟩ := exists_lt_of_lt_csSup hb (show V b - δ < V b by linarith)
      obtain ⟨v, hv, hle⟩ := penalised_mix he.le ht (by linarith) hu hw
      have h1 := le_csSup (hbdd _) hv
      have h2 := mul_le_mul_of_nonneg_left hu'.le ht
      have h3 := mul_le_mul_of_nonneg_left hw'.le hs
      have h4 : t * (V a - δ) + (1 - t) * (V b - δ) = t * V a + (1 - t) * V b - δ := by ring
      linarith
  obtain ⟨lam, hlam, hslope⟩ := slope_exists_of hconc hmono hup hr0S hr0
  set f : Fin m → (Fin d → ℝ) × (Fin k → ℝ) → ℝ := fun i u => (loss u.1 u.2 - lam * c i u.1 u.2) / eps with hf
  have hfi : ∀ i, Integrable (f i) (nu i) := fun i => ((hl i).sub ((hc i).const_mul lam)).div_const eps
  -- the tilts of the exponent cut at `N` are adversaries
  have htrunc : ∀ N : ℝ, avg (fun i => eps * Real.log (∫ u, Real.exp (min (f i u) N) ∂(nu i))) ≤ V (rho ^ p) - lam * rho ^ p := by
    intro N
    have ht := fun i => tilt_min (hfi i) N
    set Q : Fin m → Measure ((Fin d → ℝ) × (Fin k → ℝ)) := fun i => (nu i).tilted fun u => min (f i u) N with hQ
    have hfN : ∀ i, Integrable (fun u => min (f i u) N) (Q i) := fun i => (ht i).2 _ ((hfi i).inf (integrable_const N))
    have hdv := fun i => donsker_varadhan_eq (ht i).1 (hfN i)
    have hQa : Adversary c loss nu Q (avg fun i => ∫ u, c i u.1 u.2 ∂(Q i)) :=
      ⟨fun i => isProbabilityMeasure_tilted (ht i).1, fun i => (hdv i).1, fun i => (ht i).2 _ (hl i), fun i => (ht i).2 _ (hc i), le_rfl⟩
    have h1 := le_csSup (hbdd _) ⟨Q, hQa, rfl⟩
    have h2 := hslope _ ⟨_, Q, hQa, rfl⟩
    have h3 : avg (fun i => eps * Real.log (∫ u, Real.exp (min (f i u) N) ∂(nu i))) ≤
        avg (fun i => (∫ u, loss u.1 u.2 ∂(Q i) - eps * (klDiv (Q i) (nu i)).toReal) - lam * ∫ u, c i u.1 u.2 ∂(Q i)) := by
      refine avg_mono fun i => ?_
      rw [← (hdv i).2]
      have h4 : ∫ u, min (f i u) N ∂(Q i) ≤ ∫ u, f i u ∂(Q i) := integral_mono (hfN i) ((ht i).2 _ (hfi i)) fun u => min_le_left _ _
      have h5 : ∫ u, f i u ∂(Q i) = (∫ u, loss u.1 u.2 ∂(Q i) - lam * ∫ u, c i u.1 u.2 ∂(Q i)) / eps := by
        simp only [hf]
        rw [integral_div, integral_sub ((ht i).2 _ (hl i)) (((ht i).2 _ (hc i)).const_mul lam), integral_const_mul]
      rw [h5, le_div_iff₀ he] at h4
      have : eps * (∫ u, min (f i u) N ∂(Q i) - (klDiv (Q i) (nu i)).toReal) =
        (∫ u, min (f i u) N ∂(Q i)) * eps - eps * (klDiv (Q i) (nu i)).toReal := by ring
      simp only [hQ] at this h4 ⊢
      linarith
    have h6 : avg (fun i => (∫ u, loss u.1 u.2 ∂(Q i) - eps * (klDiv (Q i) (nu i)).toReal) - lam * ∫ u, c i u.1 u.2 ∂(Q i)) =
        avg (fun i => ∫ u, loss u.1 u.2 ∂(Q i) - eps * (klDiv (Q i) (nu i)).toReal) - lam * avg (fun i => ∫ u, c i u.1 u.2 ∂(Q i)) := by
      unfold avg
      rw [Finset.sum_sub_distrib, ← Finset.mul_sum]
      ring
    rw [h6] at h3
    have h7 : V (avg fun i => ∫ u, c i u.1 u.2 ∂(Q i)) = sSup (Penalised c loss nu eps (avg fun i => ∫ u, c i u.1 u.2 ∂(Q i))) := rfl
    rw [h7] at h2
    linarith
  have hpos : ∀ i (N : ℝ), 0 < ∫ u, Real.exp (min (f i u) N) ∂(nu i) := fun i N => integral_exp_pos (tilt_min (hfi i) N).1
  have hmonoN : ∀ i, Monotone fun N : ℝ => ∫ u, Real.exp (min (f i u) N) ∂(nu i) := fun i a b hab =>
    integral_mono (tilt_min (hfi i) a).1 (tilt_min (hfi i) b).1 fun u => Real.exp_le_exp.2 (min_le_min_left _ hab)
  -- each of the integrals stays bounded
  have hB : ∀ i, ∃ B, ∀ N : ℝ, 0 ≤ N → ∫ u, Real.exp (min (f i u) N) ∂(nu i) ≤ B := by
    intro i
    set K := ∑ j ∈ Finset.univ.erase i, eps * Real.log (∫ u, Real.exp (min (f j u) 0) ∂(nu j)) with hK
    refine ⟨Real.exp ((m * (V (rho ^ p) - lam * rho ^ p) - K) / eps), fun N hN => ?_⟩
    have h1 := htrunc N
    unfold avg at h1
    rw [div_le_iff₀ hmR, ← Finset.add_sum_erase _ _ (Finset.mem_univ i)] at h1
    have h2 : K ≤ ∑ j ∈ Finset.univ.erase i, eps * Real.log (∫ u, Real.exp (min (f j u) N) ∂(nu j)) :=
      Finset.sum_le_sum fun j _ => mul_le_mul_of_nonneg_left (Real.log_le_log (hpos j 0) (hmonoN j hN)) he.le
    rw [← Real.log_le_iff_le_exp (hpos i N), le_div_iff₀ he]
    linarith
  have hlimpt : ∀ i u, Tendsto (fun n : ℕ => Real.exp (min (f i u) n)) atTop (𝓝 (Real.exp (f i u))) := by
    intro i u
    refine tendsto_const_nhds.congr' ?_
    filter_upwards [eventually_ge_atTop ⌈f i u⌉₊] with n hn
    rw [min_eq_left ((Nat.le_ceil _).trans (by exact_mod_cast hn))]
  have hexp : ∀ i, Integrable (fun u => Real.exp (f i u)) (nu i) := by
    intro i
    obtain ⟨B, hBi⟩ := hB i
    have hmeas : AEStronglyMeasurable (fun u => Real.exp (f i u)) (nu i) := Real.continuous_exp.comp_aestronglyMeasurable (hfi i).aestronglyMeasurable
    refine ⟨hmeas, ?_⟩
    have hle := lintegral_liminf_le' (μ := nu i) (u := atTop) (f := fun (n : ℕ) u => ENNReal.ofReal (Real.exp (min (f i u) n)))
      fun n => (tilt_min (hfi i) n).1.aestronglyMeasurable.aemeasurable.ennreal_ofReal
    have heq : ∀ u, liminf (fun n : ℕ => ENNReal.ofReal (Real.exp (min (f i u) n))) atTop = ENNReal.ofReal (Real.exp (f i u)) := fun u =>
      (ENNReal.tendsto_ofReal (hlimpt i u)).liminf_eq
    simp only [heq] at hle
    rw [hasFiniteIntegral_iff_ofReal (Eventually.of_forall fun u => (Real.exp_pos _).le)]
    refine hle.trans_lt (lt_of_le_of_lt ?_ (ENNReal.ofReal_lt_top (r := B)))
    refine (liminf_le_liminf (v := fun _ => ENNReal.ofReal B) (Eventually.of_forall fun n => ?_)).trans (by simp)
    rw [← ofReal_integral_eq_lintegral_ofReal (tilt_min (hfi i) n).1 (Eventually.of_forall fun u => (Real.exp_pos _).le)]
    exact ENNReal.ofReal_le_ofReal (hBi n n.cast_nonneg)
  have hlim : Tendsto (fun n : ℕ => avg (fun i => eps * Real.log (∫ u, Real.exp (min (f i u) n) ∂(nu i)))) atTop
      (𝓝 (avg fun i => eps * Real.log (∫ u, Real.exp (f i u) ∂(nu i)))) := by
    unfold avg
    refine Tendsto.div_const (tendsto_finsetSum _ fun i _ => Tendsto.const_mul _ ?_) _
    refine Tendsto.log ?_ (integral_exp_pos (hexp i)).ne'
    refine tendsto_integral_of_dominated_convergence (fun u => Real.exp (f i u)) (fun n => (tilt_min (hfi i) n).1.aestronglyMeasurable) (hexp i)
      (fun n => Eventually.of_forall fun u => ?_) (Eventually.of_forall fun u => hlimpt i u)
    rw [Real.norm_eq_abs, Real.abs_exp]
    exact Real.exp_le_exp.2 (min_le_left _ _)
  refine ⟨lam, hlam, hexp, ?_, fun B hBub => ?_⟩
  · rintro v ⟨Q, hQ, rfl⟩
    exact population_covers hlam he hexp hQ
  · have h1 := le_of_tendsto' hlim fun n => htrunc n
    have h2 : V (rho ^ p) ≤ B := csSup_le (hup r0 hr0S _ hr0.le) hBub
    have h3 : population lam rho p eps loss c nu = lam * rho ^ p + avg fun i => eps * Real.log (∫ u, Real.exp (f i u) ∂(nu i)) := rfl
    rw [h3]
    linarith

end

end Skwdro
