import Mathlib.InformationTheory.KullbackLeibler.DataProcessing
import Verif.Props.BallWorstCase
import Verif.Lemmas.EntropicDuality

/-!
# Transport costs have a finite mean under normal noise, and duality without labels
-/

namespace Skwdro
open Spec Tensor MeasureTheory ProbabilityTheory InformationTheory Filter
open scoped Topology

theorem pnorm_le_norm {d : ℕ} {p : XNum ℝ} (hp : NormOrder p) : ∃ K : ℝ, 0 ≤ K ∧ ∀ v : Fin d → ℝ, pnorm p v ≤ K * ‖v‖ := by
  rcases hp with ⟨q, hq, rfl⟩ | rfl
  · have hq0 : 0 < q := by linarith
    refine ⟨(d : ℝ) ^ (1 / q), by positivity, fun v => ?_⟩
    have h1 : ∑ i, |v i| ^ q ≤ d * ‖v‖ ^ q := by
      refine (Finset.sum_le_card_nsmul _ _ (‖v‖ ^ q) fun i _ => Real.rpow_le_rpow (abs_nonneg _) (norm_le_pi_norm v i) hq0.le).trans (le_of_eq ?_)
      simp
    calc pnorm (.fin q) v = (∑ i, |v i| ^ q) ^ (1 / q) := rfl
      _ ≤ (d * ‖v‖ ^ q) ^ (1 / q) := Real.rpow_le_rpow (Finset.sum_nonneg fun i _ => Real.rpow_nonneg (abs_nonneg _) _) h1 (by positivity)
      _ = (d : ℝ) ^ (1 / q) * ‖v‖ := by
        rw [Real.mul_rpow (by positivity) (by positivity), ← Real.rpow_mul (norm_nonneg _), mul_one_div_cancel hq0.ne', Real.rpow_one]
  · refine ⟨1, zero_le_one, fun v => ?_⟩
    rw [one_mul]
    exact Real.iSup_le (fun i => norm_le_pi_norm v i) (norm_nonneg v)

theorem norm_rpow_le {d : ℕ} {w : ℝ} (hw : 0 < w) (v : Fin d → ℝ) : ‖v‖ ^ w ≤ ∑ i, |v i| ^ w := by
  rcases isEmpty_or_nonempty (Fin d) with h | h
  · have : v = 0 := Subsingleton.elim _ _
    subst this
    simp [Real.zero_rpow hw.ne']
  · obtain ⟨i, -, hi⟩ := Finset.exists_mem_eq_sup' Finset.univ_nonempty fun i => ‖v i‖
    have hn : ‖v‖ = |v i| :=
      le_antisymm ((pi_norm_le_iff_of_nonneg (abs_nonneg _)).2 fun j => (Finset.le_sup' (fun i => ‖v i‖) (Finset.mem_univ j)).trans hi.le)
        (norm_le_pi_norm v i)
    rw [hn]
    exact Finset.single_le_sum (f := fun i => |v i| ^ w) (fun i _ => Real.rpow_nonneg (abs_nonneg _) _) (Finset.mem_univ i)

section
variable {m d : ℕ} {D : DualLoss} {X : Fin m → Fin d → ℝ}

theorem noise_cost_integrable (hp : NormOrder D.cost.p) (hw : 0 < D.cost.power) (sigma : ℝ) (i : Fin m) :
    Integrable (fun e : Fin d → ℝ => moveCost D X i (fun r => X i r + sigma * e r)) (Measure.pi fun _ : Fin d => gaussianReal 0 1) := by
  obtain ⟨K, hK, hle⟩ := pnorm_le_norm (d := d) hp
  have hcont : Continuous fun e : Fin d → ℝ => moveCost D X i (fun r => X i r + sigma * e r) :=
    (moveCost_continuous hp hw i).comp (continuous_pi fun q => continuous_const.add (continuous_const.mul (continuous_apply q)))
  have hone : ∀ r : Fin d, Integrable (fun e : Fin d → ℝ => |e r| ^ D.cost.power) (Measure.pi fun _ : Fin d => gaussianReal 0 1) := by
    intro r
    have h1 : Integrable (fun t : ℝ => |t| ^ D.cost.power) (gaussianReal 0 1) := by
      have := (memLp_id_gaussianReal (μ := 0) (v := 1) (D.cost.power.toNNReal)).integrable_norm_rpow
        (by simp [hw]) (by simp)
      simpa [Real.coe_toNNReal _ hw.le] using this
    exact (measurePreserving_eval (fun _ : Fin d => gaussianReal 0 1) r).integrable_comp_of_integrable h1
  refine Integrable.mono' (((integrable_finsetSum Finset.univ fun r _ => hone r).const_mul ((K * |sigma|) ^ D.cost.power)))
    hcont.aestronglyMeasurable (Eventually.of_forall fun e => ?_)
  have h0 : 0 ≤ moveCost D X i (fun r => X i r + sigma * e r) := Real.rpow_nonneg (pnorm_nonneg _ _) _
  rw [Real.norm_of_nonneg h0]
  have h2 : (fun q => X i q - (X i q + sigma * e q)) = fun q => -sigma * e q := by funext q; ring
  have h3 : ‖(fun q => -sigma * e q)‖ = |sigma| * ‖e‖ := by
    have : (fun q => -sigma * e q) = (-sigma) • e := rfl
    rw [this, norm_smul, norm_neg, Real.norm_eq_abs]
  calc moveCost D X i (fun r => X i r + sigma * e r) ≤ (K * (|sigma| * ‖e‖)) ^ D.cost.power := by
        unfold moveCost
        rw [h2]
        refine Real.rpow_le_rpow (pnorm_nonneg _ _) ?_ hw.le
        rw [← h3]
        exact hle _
    _ = (K * |sigma|) ^ D.cost.power * ‖e‖ ^ D.cost.power := by
        rw [← mul_assoc, Real.mul_rpow (by positivity) (norm_nonneg _)]
    _ ≤ _ := mul_le_mul_of_nonneg_left (norm_rpow_le hw e) (by positivity)

theorem normal_cost_integrable (hp : NormOrder D.cost.p) (hw : 0 < D.cost.power) {sigma : ℝ} (hs : 0 < sigma) (i : Fin m) :
    Integrable (moveCost D X i) (Measure.pi fun q => gaussianReal (X i q) (sigma.toNNReal ^ 2)) := by
  have hT : _root_.Measurable fun (e : Fin d → ℝ) r => X i r + sigma * e r :=
    measurable_pi_lambda _ fun r => ((measurable_pi_apply r).const_mul _).const_add _
  rw [← noise_law hs]
  exact (integrable_map_measure (moveCost_measurable i).aestronglyMeasurable hT.aemeasurable).2 (noise_cost_integrable hp hw sigma i)

end

section
variable {m d k : ℕ} {D : DualLoss} {X : Fin m → Fin d → ℝ} {Y : Fin m → Fin k → ℝ}

theorem sampleLaw_cost_integrable (hc : GoodCost D.cost) (hplain : D.cost.kind = .normCost) (hw : 0 < D.cost.power) (sigma : ℝ) (i : Fin m) :
    Integrable (fun u => costAt D.cost (X i) u.1 (Y i) u.2) (sampleLaw sigma (X i) (Y i)) := by
  have hT : _root_.Measurable fun e : Fin d → ℝ => ((fun q => X i q + sigma * e q, Y i) : (Fin d → ℝ) × (Fin k → ℝ)) :=
    (measurable_pi_lambda _ fun r => ((measurable_pi_apply r).const_mul _).const_add _).prodMk measurable_const
  refine (integrable_map_measure (costAt_measurable hc (X i) (Y i)).aestronglyMeasurable hT.aemeasurable).2 ?_
  refine (noise_cost_integrable (X := X) hc.order hw sigma i).congr (Eventually.of_forall fun e => ?_)
  dsimp only [Function.comp]
  rw [C04_point_formula D.cost hplain hc.order]
  rfl

end

section
variable {m d : ℕ} {c : Fin m → (Fin d → ℝ) → ℝ} {loss : (Fin d → ℝ) → ℝ} {nu : Fin m → Measure (Fin d → ℝ)} {eps : ℝ}

/-- **Strong duality without labels** -/
theorem entropic_duality0 (hm : 0 < m) [∀ i, IsProbabilityMeasure (nu i)] (he : 0 < eps) {rho p : ℝ} (hloss : _root_.Measurable loss)
    (hcost : ∀ i, _root_.Measurable (c i)) (hl : ∀ i, Integrable loss (nu i)) (hc : ∀ i, Integrable (c i) (nu i)) {r0 : ℝ} (hr0 : r0 < rho ^ p)
    {Q0 : Fin m → Measure (Fin d → ℝ)} (hQ0 : Adversary0 c loss nu Q0 r0)
    (hgrow : ∃ lam0, 0 ≤ lam0 ∧ ∀ i, Integrable (fun z => Real.exp ((loss z - lam0 * c i z) / eps)) (nu i)) :
    ∃ lam, 0 ≤ lam ∧ (∀ i, Integrable (fun z => Real.exp ((loss z - lam * c i z) / eps)) (nu i)) ∧
      IsLUB {v | ∃ Q, Adversary0 c loss nu Q (rho ^ p) ∧ v = avg (fun i => ∫ z, loss z ∂(Q i) - eps * (klDiv (Q i) (nu i)).toReal)}
        (populationU lam rho p eps loss c nu) := by
  have hexpm : ∀ lam i, _root_.Measurable fun z => Real.exp ((loss z - lam * c i z) / eps) := fun lam i =>
    Real.measurable_exp.comp ((hloss.sub ((hcost i).const_mul lam)).div_const eps)
  have : ∀ i, IsProbabilityMeasure ((nu i).map (unlabel (d := d))) := fun i => Measure.isProbabilityMeasure_map unlabel_measurable.aemeasurable
  have hp0 := hQ0.prob
  have hQ0' : Adversary (fun i z (_ : Fin 1 → ℝ) => c i z) (fun z _ => loss z) (fun i => (nu i).map unlabel) (fun i => (Q0 i).map unlabel) r0 := by
    refine ⟨fun i => Measure.isProbabilityMeasure_map unlabel_measurable.aemeasurable,
      fun i => ne_top_of_le_ne_top (hQ0.div i) (klDiv_map_le _ _ unlabel_measurable), fun i => (unlabel_integrable hloss).2 (hQ0.loss_int i),
      fun i => (unlabel_integrable (hcost i)).2 (hQ0.cost_int i), ?_⟩
    simp only [unlabel_integral (hcost _)]
    exact hQ0.budget
  obtain ⟨lam0, hlam0, hg⟩ := hgrow
  obtain ⟨lam, hlam, hexp, hlub⟩ := entropic_duality (k := 1) (c := fun i z _ => c i z) (loss := fun z _ => loss z) hm he
    (fun i => (unlabel_integrable hloss).2 (hl i)) (fun i => (unlabel_integrable (hcost i)).2 (hc i)) hr0 hQ0'
    ⟨lam0, hlam0, fun i => (unlabel_integrable (hexpm lam0 i)).2 (hg i)⟩
  have hexp' := fun i => (unlabel_integrable (hexpm lam i)).1 (hexp i)
  have hpop : population lam rho p eps (fun z (_ : Fin 1 → ℝ) => loss z) (fun i z _ => c i z) (fun i => (nu i).map unlabel) =
      populationU lam rho p eps loss c nu := by
    unfold population populationU
    congr 2
    funext i
    congr 2
    exact unlabel_integral (hexpm lam i)
  refine ⟨lam, hlam, hexp', ?_, fun B hB => ?_⟩
  · rintro v ⟨Q, hQ, rfl⟩
    exact population_covers0 hlam he hexp' hQ
  · rw [← hpop]
    refine hlub.2 ?_
    rintro v ⟨Q, hQ, rfl⟩
    have hp := hQ.prob
    have hback : ∀ i, ((nu i).map (unlabel (d := d))).map Prod.fst = nu i := fun i => by
      rw [Measure.map_map measurable_fst unlabel_measurable]
      exact Measure.map_id
    have hkl : ∀ i, klDiv ((Q i).map Prod.fst) (nu i) ≤ klDiv (Q i) ((nu i).map unlabel) := fun i => by
      have := klDiv_map_le (μ := Q i) (ν := (nu i).map (unlabel (d := d))) (g := Prod.fst) measurable_fst
      rwa [hback i] at this
    have hint : ∀ i (f : (Fin d → ℝ) → ℝ), _root_.Measurable f → ∫ z, f z ∂((Q i).map Prod.fst) = ∫ u, f u.1 ∂(Q i) := fun i f hf =>
      integral_map measurable_fst.aemeasurable hf.aestronglyMeasurable
    have hadv : Adversary0 c loss nu (fun i => (Q i).map Prod.fst) (rho ^ p) := by
      refine ⟨fun i => Measure.isProbabilityMeasure_map measurable_fst.aemeasurable, fun i => ne_top_of_le_ne_top (hQ.div i) (hkl i),
        fun i => (integrable_map_measure hloss.aestronglyMeasurable measurable_fst.aemeasurable).2 (hQ.loss_int i),
        fun i => (integrable_map_measure (hcost i).aestronglyMeasurable measurable_fst.aemeasurable).2 (hQ.cost_int i), ?_⟩
      simp only [hint _ _ (hcost _)]
      exact hQ.budget
    refine le_trans (avg_mono fun i => ?_) (hB ⟨_, hadv, rfl⟩)
    rw [hint i _ hloss]
    have := mul_le_mul_of_nonneg_left (ENNReal.toReal_mono (hQ.div i) (hkl i)) he.le
    linarith

end

end Skwdro
