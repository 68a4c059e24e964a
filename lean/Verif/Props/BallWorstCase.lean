import Verif.Lemmas.Duality
import Verif.Props.SmallTemperatureUnlabelled
import Verif.Props.Portfolio

/-!
# The robust loss at the best multiplier is the worst case over the transport ball (C143)
-/

namespace Skwdro
open Spec Tensor MeasureTheory ProbabilityTheory Filter Topology

/-! ### Without labels -/

section
variable {m d s : ℕ} {w : WLoss} {D : DualLoss} {ell : (Fin d → ℝ) → Fin s → ℝ} {rho : ℝ} {X : Fin m → Fin d → ℝ} {G : Type} (ext : TorchExt G)

theorem moveCost_continuous (hp : NormOrder D.cost.p) (hw : 0 < D.cost.power) (i : Fin m) : Continuous (moveCost D X i) :=
  ((pnorm_continuous hp).comp (continuous_pi fun q => continuous_const.sub (continuous_apply q))).rpow_const fun _ => Or.inr hw.le

theorem moveCost_self (hp : NormOrder D.cost.p) (hw : 0 < D.cost.power) (i : Fin m) : moveCost D X i (X i) = 0 := by
  unfold moveCost
  rw [Real.rpow_eq_zero (pnorm_nonneg _ _) hw.ne', pnorm_eq_zero hp]
  simp

/-- expected losses under the distributions of the ball, as expected losses of plans -/
theorem ball_losses (hell : _root_.Measurable (lossAt0 w ell)) (r : ℝ) :
    {v | ∃ Q : Measure (Fin d → ℝ), InBall X (fun a b => pnorm D.cost.p (fun q => a q - b q) ^ D.cost.power) r Q ∧ Integrable (lossAt0 w ell) Q ∧
      v = ∫ z, lossAt0 w ell z ∂Q} = PlanLosses (moveCost D X) (fun _ => lossAt0 w ell) r := by
  ext v
  constructor
  · rintro ⟨Q, ⟨π, h1, h2, rfl, h3, h4⟩, h5, rfl⟩
    exact ⟨π, h1, h2, h3, (integrable_map_measure hell.aestronglyMeasurable measurable_snd.aemeasurable).1 h5, h4,
      integral_map measurable_snd.aemeasurable hell.aestronglyMeasurable⟩
  · rintro ⟨π, h1, h2, h3, h4, h5, rfl⟩
    exact ⟨π.map Prod.snd, ⟨π, h1, h2, rfl, h3, h5⟩, (integrable_map_measure hell.aestronglyMeasurable measurable_snd.aemeasurable).2 h4,
      (integral_map measurable_snd.aemeasurable hell.aestronglyMeasurable).symm⟩

theorem priced (h : NoLabels w D ell rho) (lam : ℝ) : NoLabels w { D with lam := lam } ell rho :=
  ⟨h.primal, h.hasLabels, h.reduceSpatial, h.s_pos, h.rows, h.kind, h.order, h.rho_eq, h.rho_pos, h.eps_pos, h.erm, h.imp⟩

/-- **C143** A continuous loss without labels that grows no faster than the transport cost: the expected losses under the distributions within transport
distance `rho` of the data have a least upper bound `V`, the worst case.  For some multiplier `lam` the robust loss comes as close to `V` as one
likes, at small temperatures and with a probability that tends to one as the number of samples grows; for no multiplier that keeps the objective finite does
it fall below `V` by a fixed amount. -/
theorem C143_worst_case (h : NoLabels w D ell rho) (hr : D.reduction = .mean) (hm : 0 < m) {Ω : Type} [MeasurableSpace Ω]
    {μ : Measure Ω} {gen : Ω → G} (hN : NormalContract ext μ gen) {c : CostR} (hp : NormalSampled c) {sigma : ℝ} (hs : 0 < sigma) {T : Sampler} (hkind : T.kind = .noLabelsCost)
    (hgen : T.generating_cost = some c) (hsig : T.sigma = some sigma) (hseed : T.seed = none) (hD : D.sampler = some T)
    (hcont : Continuous (lossAt0 w ell)) (hw : 0 < D.cost.power)
    (hgrow : ∃ lam0, 0 ≤ lam0 ∧ ∀ i, BddAbove (Set.range (gain0 w { D with lam := lam0 } ell X i))) :
    ∃ V, IsLUB {v | ∃ Q : Measure (Fin d → ℝ), InBall X (fun a b => pnorm D.cost.p (fun q => a q - b q) ^ D.cost.power) (rho ^ D.cost.power) Q ∧
        Integrable (lossAt0 w ell) Q ∧ v = ∫ z, lossAt0 w ell z ∂Q} V ∧
      (∃ lam, 0 ≤ lam ∧ ∀ δ > 0, ∃ e0 > 0, ∀ eps, 0 < eps → eps ≤ e0 → Tendsto (fun n => μ {ω | ¬ ∃ v D' g',
        postForward ext { D with lam := lam, epsilon := eps, nSamples := n } (mat X) none true (gen ω) = .ok (.val v, D', g') ∧ |v.get [] - V| < δ})
        atTop (𝓝 0)) ∧
      ∀ lam, 0 ≤ lam → (∀ i, BddAbove (Set.range (gain0 w { D with lam := lam } ell X i))) → ∀ δ > 0, ∃ e0 > 0, ∀ eps, 0 < eps → eps ≤ e0 →
        Tendsto (fun n => μ {ω | ¬ ∃ v D' g', postForward ext { D with lam := lam, epsilon := eps, nSamples := n } (mat X) none true (gen ω) =
          .ok (.val v, D', g') ∧ V - δ < v.get []}) atTop (𝓝 0) := by
  have hcg : ∀ lam i, Continuous (gain0 w { D with lam := lam } ell X i) := fun lam i =>
    hcont.sub (continuous_const.mul (moveCost_continuous h.order hw i))
  have hrho : 0 < rho ^ D.cost.power := Real.rpow_pos_of_pos h.rho_pos _
  obtain ⟨lam, hlam, hbd, hlub⟩ := transport_duality (c := moveCost D X) (l := fun _ => lossAt0 w ell) hm hrho X (fun i => moveCost_self h.order hw i)
    (fun i e => Real.rpow_nonneg (pnorm_nonneg _ _) _) hgrow
  rw [ball_losses hcont.measurable]
  refine ⟨_, hlub, ⟨lam, hlam, fun δ hδ => ?_⟩, fun lam' hlam' hbd' δ hδ => ?_⟩
  · exact C141_limit_unlabelled ext (priced h lam) hr hm hN hp hs hkind hgen hsig hseed hD hcont.measurable (hcg lam)
      (fun i => isLUB_csSup ⟨_, ⟨0, rfl⟩⟩ (hbd i)) hδ
  · obtain ⟨e0, he0, hlim⟩ := C141_limit_unlabelled ext (priced h lam') hr hm hN hp hs hkind hgen hsig hseed hD hcont.measurable (hcg lam')
      (fun i => isLUB_csSup ⟨_, ⟨0, rfl⟩⟩ (hbd' i)) hδ
    refine ⟨e0, he0, fun eps he hle => ?_⟩
    refine tendsto_of_tendsto_of_tendsto_of_le_of_le tendsto_const_nhds (hlim eps he hle) (fun n => zero_le) fun n => measure_mono ?_
    intro ω hω hgood
    obtain ⟨v, D', g', hf, hv⟩ := hgood
    refine hω ⟨v, D', g', hf, ?_⟩
    have h1 := hlub.2 fun u hu => planLosses_le (S := fun i => sSup (Set.range fun e => lossAt0 w ell e - lam' * moveCost D X i e)) hlam'
      (fun i e => le_csSup (hbd' i) ⟨e, rfl⟩) hu
    have h2 : -δ < v.get [] - (lam' * rho ^ D.cost.power + avg fun i => sSup (Set.range fun e => lossAt0 w ell e - lam' * moveCost D X i e)) := (abs_lt.1 hv).1
    exact lt_of_le_of_lt (sub_le_sub_right h1 δ) (by linarith)

end

/-! ### With labels, which plain costs leave in place -/

section
variable {m d k s : ℕ} {w : WLoss} {D : DualLoss} {ell : (Fin d → ℝ) → (Fin k → ℝ) → Fin s → ℝ} {rho : ℝ}
  {X : Fin m → Fin d → ℝ} {Y : Fin m → Fin k → ℝ} {G : Type} (ext : TorchExt G)

theorem priced_labelled (h : Labelled w D ell rho) (lam : ℝ) : Labelled w { D with lam := lam } ell rho :=
  ⟨h.primal, h.hasLabels, h.reduceSpatial, h.s_pos, h.rows, h.cost, h.rho_eq, h.rho_pos, h.eps_pos, h.erm, h.imp⟩

/-- **C143** With labels and a plain cost: the worst case is that of the plans that move the inputs and keep every label with its data point. -/
theorem C143_worst_case_labelled (h : Labelled w D ell rho) (hr : D.reduction = .mean) (hm : 0 < m) {Ω : Type} [MeasurableSpace Ω] {μ : Measure Ω}
    [IsProbabilityMeasure μ] {gen : Ω → G} (hN : NormalContract ext μ gen) {c : CostR} (hk : c.kind = .normCost) (hp : NormalSampled c) {sigma : ℝ} (hs : 0 < sigma) {T : Sampler} (hkind : T.kind = .labeledCost)
    (hgen : T.generating_cost = some c) (hsig : T.sigma = some sigma) (hseed : T.seed = none) (hD : D.sampler = some T)
    (hell : _root_.Measurable fun u : (Fin d → ℝ) × (Fin k → ℝ) => lossAt w ell u.1 u.2) (hcont : ∀ i, Continuous fun z => lossAt w ell z (Y i))
    (hplain : D.cost.kind = .normCost) (hw : 0 < D.cost.power)
    (hgrow : ∃ lam0, 0 ≤ lam0 ∧ ∀ i, BddAbove (Set.range (gain w { D with lam := lam0 } ell X Y i))) :
    ∃ V, IsLUB (PlanLosses (fun i z => pnorm D.cost.p (fun q => X i q - z q) ^ D.cost.power) (fun i z => lossAt w ell z (Y i)) (rho ^ D.cost.power)) V ∧
      (∃ lam, 0 ≤ lam ∧ ∀ δ > 0, ∃ e0 > 0, ∀ eps, 0 < eps → eps ≤ e0 → Tendsto (fun n => μ {ω | ¬ ∃ v D' g',
        postForward ext { D with lam := lam, epsilon := eps, nSamples := n } (mat X) (some (mat Y)) true (gen ω) = .ok (.val v, D', g') ∧
        |v.get [] - V| < δ}) atTop (𝓝 0)) ∧
      ∀ lam, 0 ≤ lam → (∀ i, BddAbove (Set.range (gain w { D with lam := lam } ell X Y i))) → ∀ δ > 0, ∃ e0 > 0, ∀ eps, 0 < eps → eps ≤ e0 →
        Tendsto (fun n => μ {ω | ¬ ∃ v D' g', postForward ext { D with lam := lam, epsilon := eps, nSamples := n } (mat X) (some (mat Y)) true (gen ω) =
          .ok (.val v, D', g') ∧ V - δ < v.get []}) atTop (𝓝 0) := by
  have hcost : ∀ i z, costAt D.cost (X i) z (Y i) (Y i) = pnorm D.cost.p (fun q => X i q - z q) ^ D.cost.power := fun i z =>
    C04_point_formula D.cost hplain h.cost.order (X i) z (Y i) (Y i)
  have hgain : ∀ lam i z, gain w { D with lam := lam } ell X Y i z = lossAt w ell z (Y i) - lam * pnorm D.cost.p (fun q => X i q - z q) ^ D.cost.power := by
    intro lam i z
    unfold gain
    rw [← hcost]
  have hgainf : ∀ lam i, gain w { D with lam := lam } ell X Y i = fun z => lossAt w ell z (Y i) - lam * moveCost D X i z := fun lam i => funext (hgain lam i)
  have hcg : ∀ lam i, Continuous (gain w { D with lam := lam } ell X Y i) := fun lam i => by
    rw [hgainf]
    exact (hcont i).sub (continuous_const.mul (moveCost_continuous h.cost.order hw i))
  have hrho : 0 < rho ^ D.cost.power := Real.rpow_pos_of_pos h.rho_pos _
  simp only [hgainf] at hgrow ⊢
  obtain ⟨lam, hlam, hbd, hlub⟩ := transport_duality (c := moveCost D X) (l := fun i z => lossAt w ell z (Y i)) hm hrho X
    (fun i => moveCost_self h.cost.order hw i) (fun i e => Real.rpow_nonneg (pnorm_nonneg _ _) _) hgrow
  refine ⟨_, hlub, ⟨lam, hlam, fun δ hδ => ?_⟩, fun lam' hlam' hbd' δ hδ => ?_⟩
  · exact C141_limit ext (priced_labelled h lam) hr hm hN hk hp hs hkind hgen hsig hseed hD hell (hcg lam)
      (fun i => by rw [hgainf]; exact isLUB_csSup ⟨_, ⟨0, rfl⟩⟩ (hbd i)) hδ
  · obtain ⟨e0, he0, hlim⟩ := C141_limit ext (priced_labelled h lam') hr hm hN hk hp hs hkind hgen hsig hseed hD hell (hcg lam')
      (fun i => by rw [hgainf]; exact isLUB_csSup ⟨_, ⟨0, rfl⟩⟩ (hbd' i)) hδ
    refine ⟨e0, he0, fun eps he hle => ?_⟩
    refine tendsto_of_tendsto_of_tendsto_of_le_of_le tendsto_const_nhds (hlim eps he hle) (fun n => zero_le) fun n => measure_mono ?_
    intro ω hω hgood
    obtain ⟨v, D', g', hf, hv⟩ := hgood
    refine hω ⟨v, D', g', hf, ?_⟩
    have h1 := hlub.2 fun u hu => planLosses_le hlam' (fun i e => le_csSup (hbd' i) ⟨e, rfl⟩) hu
    have h2 := (abs_lt.1 hv).1
    refine lt_of_le_of_lt (sub_le_sub_right h1 δ) ?_
    dsimp only at h2
    linarith

end

/-! ### The hypotheses can be met -/

example := C143_worst_case bankExt (X := exX) (exU_noLabels 0) rfl (by norm_num) bank_contract (c := ⟨.normCost, .fin 2, 2, .nan⟩) (Or.inl ⟨rfl, Or.inr rfl⟩)
  (sigma := 1) one_pos rfl rfl rfl rfl rfl
  (by rw [show lossAt0 exW0 (fun (x : Fin 1 → ℝ) (c : Fin 1) => x c ^ 2) = fun z => z 0 ^ 2 + 9 from funext exU_loss]; fun_prop)
  (by norm_num [exU]) ⟨2, by norm_num, fun i => ⟨2 * exX i 0 ^ 2 + 9, by rintro _ ⟨z, rfl⟩; exact exU_bound 0 i z⟩⟩

theorem exCons_loss (z y : Fin 1 → ℝ) : lossAt exW (fun (x y : Fin 1 → ℝ) (c : Fin 1) => (x c - y c) ^ 2) z y = (z 0 - y 0) ^ 2 := by
  simp [lossAt, exW, avg, ridge]

example := C143_worst_case_labelled bankExt exCons_labelled rfl (by norm_num) bank_contract (c := ⟨.normCost, .fin 2, 2, .fin 0⟩)
  rfl (Or.inl ⟨rfl, Or.inr rfl⟩) (sigma := 1) one_pos rfl rfl rfl rfl rfl exCons_measurable (X := exX) (Y := exShift)
  (fun i => by simp only [exCons_loss]; fun_prop) rfl (by norm_num [exCons]) ⟨2, by norm_num, fun i => ⟨2, (exCons_lub i).1⟩⟩

end Skwdro
