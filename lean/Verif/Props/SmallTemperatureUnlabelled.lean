import Verif.Props.SmallTemperature
import Verif.Props.ConsistencyUnlabelled
import Verif.Spec.Wasserstein

/-!
# The robust loss at a small temperature, without labels (C141)
-/

namespace Skwdro
open Spec Tensor MeasureTheory ProbabilityTheory Filter Topology

section
variable {m d s : ℕ} {w : WLoss} {D : DualLoss} {ell : (Fin d → ℝ) → Fin s → ℝ} {rho : ℝ} {X : Fin m → Fin d → ℝ} {G : Type} (ext : TorchExt G)

/-- loss minus price of a destination -/
noncomputable def gain0 (w : WLoss) (D : DualLoss) (ell : (Fin d → ℝ) → Fin s → ℝ) (X : Fin m → Fin d → ℝ) (i : Fin m) (z : Fin d → ℝ) : ℝ :=
  lossAt0 w ell z - D.lam * moveCost D X i z

theorem noise_open {sigma : ℝ} (hs : 0 < sigma) (x : Fin d → ℝ) :
    (Measure.pi fun k => gaussianReal (x k) (sigma.toNNReal ^ 2)).IsOpenPosMeasure := by
  have hv : sigma.toNNReal ^ 2 ≠ 0 := pow_ne_zero _ (Real.toNNReal_pos.2 hs).ne'
  have : ∀ k, (gaussianReal (x k) (sigma.toNNReal ^ 2)).IsOpenPosMeasure := fun k => (gaussianReal_absolutelyContinuous' (x k) hv).isOpenPosMeasure
  infer_instance

theorem populationU_limit {sigma : ℝ} (hs : 0 < sigma) (hcont : ∀ i, Continuous (gain0 w D ell X i)) {S : Fin m → ℝ}
    (hS : ∀ i, IsLUB (Set.range (gain0 w D ell X i)) (S i)) :
    Tendsto (fun eps => populationU D.lam rho D.cost.power eps (lossAt0 w ell) (moveCost D X)
      (fun i => Measure.pi fun k => gaussianReal (X i k) (sigma.toNNReal ^ 2))) (𝓝[>] 0) (𝓝 (D.lam * rho ^ D.cost.power + avg S)) := by
  unfold populationU avg
  refine Tendsto.const_add _ (Tendsto.div_const (tendsto_finsetSum _ fun i _ => ?_) _)
  have := noise_open hs (X i)
  exact temperature_limit (hcont i) (hS i)

theorem tempered0 (h : NoLabels w D ell rho) {eps : ℝ} (he : 0 < eps) : NoLabels w { D with epsilon := eps } ell rho :=
  ⟨h.primal, h.hasLabels, h.reduceSpatial, h.s_pos, h.rows, h.kind, h.order, h.rho_eq, h.rho_pos, he, h.erm, h.imp⟩

/-- **C141** Without labels, for every order and power of the transport cost: the same limit. -/
theorem C141_limit_unlabelled (h : NoLabels w D ell rho) (hr : D.reduction = .mean) (hm : 0 < m) {Ω : Type} [MeasurableSpace Ω]
    {μ : Measure Ω} {gen : Ω → G} (hN : NormalContract ext μ gen) {c : CostR} (hp : NormalSampled c) {sigma : ℝ} (hs : 0 < sigma) {T : Sampler} (hkind : T.kind = .noLabelsCost)
    (hgen : T.generating_cost = some c) (hsig : T.sigma = some sigma) (hseed : T.seed = none) (hD : D.sampler = some T)
    (hell : _root_.Measurable (lossAt0 w ell)) (hcont : ∀ i, Continuous (gain0 w D ell X i)) {S : Fin m → ℝ}
    (hS : ∀ i, IsLUB (Set.range (gain0 w D ell X i)) (S i)) {δ : ℝ} (hδ : 0 < δ) :
    ∃ e0 > 0, ∀ eps, 0 < eps → eps ≤ e0 → Tendsto (fun n => μ {ω | ¬ ∃ v D' g',
      postForward ext { D with epsilon := eps, nSamples := n } (mat X) none true (gen ω) = .ok (.val v, D', g') ∧
      |v.get [] - (D.lam * rho ^ D.cost.power + avg S)| < δ}) atTop (𝓝 0) := by
  have hlim := populationU_limit (rho := rho) hs hcont hS
  rw [Metric.tendsto_nhds] at hlim
  have hev := hlim (δ / 2) (by linarith)
  rw [eventually_nhdsWithin_iff, Metric.eventually_nhds_iff] at hev
  obtain ⟨e1, he1, hev⟩ := hev
  refine ⟨e1 / 2, by positivity, fun eps he hle => ?_⟩
  have hclose := hev (y := eps) (by rw [Real.dist_eq, sub_zero, abs_of_pos he]; linarith) he
  have key := C96_forward_unlabelled ext (X := X) (D := { D with epsilon := eps }) (tempered0 h he) hr hm hN hp hs hkind hgen hsig hseed hD hell
    (fun i => temperature_integrable (hcont i) (fun z => (hS i).1 (Set.mem_range_self z)) he) (δ := δ / 2) (by linarith)
  refine tendsto_of_tendsto_of_tendsto_of_le_of_le tendsto_const_nhds key (fun n => zero_le) fun n => measure_mono ?_
  intro ω hω hgood
  obtain ⟨v, D', g', hf, hv⟩ := hgood
  refine hω ⟨v, D', g', hf, ?_⟩
  rw [Real.dist_eq, abs_lt] at hclose
  rw [abs_lt] at hv ⊢
  have h1 := hv.1
  have h2 := hv.2
  have e : moveCost { D with epsilon := eps } X = moveCost D X := rfl
  rw [e] at h1 h2
  dsimp only at h1 h2
  constructor <;> linarith [hclose.1, hclose.2]

/-- **C141** So at small temperatures and with many samples the robust loss covers, up to any precision, the expected loss under every distribution within
transport distance `rho` of the data, with a probability that tends to one. -/
theorem C141_covers_unlabelled (h : NoLabels w D ell rho) (hr : D.reduction = .mean) (hm : 0 < m) (hlam : 0 ≤ D.lam) {Ω : Type} [MeasurableSpace Ω]
    {μ : Measure Ω} {gen : Ω → G} (hN : NormalContract ext μ gen) {c : CostR} (hp : NormalSampled c) {sigma : ℝ} (hs : 0 < sigma) {T : Sampler} (hkind : T.kind = .noLabelsCost)
    (hgen : T.generating_cost = some c) (hsig : T.sigma = some sigma) (hseed : T.seed = none) (hD : D.sampler = some T)
    (hell : _root_.Measurable (lossAt0 w ell)) (hcont : ∀ i, Continuous (gain0 w D ell X i))
    (hS : ∀ i, BddAbove (Set.range (gain0 w D ell X i))) {δ : ℝ} (hδ : 0 < δ) :
    ∃ e0 > 0, ∀ eps, 0 < eps → eps ≤ e0 → Tendsto (fun n => μ {ω | ¬ ∃ v D' g',
      postForward ext { D with epsilon := eps, nSamples := n } (mat X) none true (gen ω) = .ok (.val v, D', g') ∧
      ∀ Q : Measure (Fin d → ℝ), InBall X (fun a b => pnorm D.cost.p (fun q => a q - b q) ^ D.cost.power) (rho ^ D.cost.power) Q →
        Integrable (lossAt0 w ell) Q → ∫ z, lossAt0 w ell z ∂Q < v.get [] + δ}) atTop (𝓝 0) := by
  have hlub : ∀ i, IsLUB (Set.range (gain0 w D ell X i)) (sSup (Set.range (gain0 w D ell X i))) := fun i => isLUB_csSup ⟨_, ⟨0, rfl⟩⟩ (hS i)
  set S : Fin m → ℝ := fun i => sSup (Set.range (gain0 w D ell X i)) with hSdef
  obtain ⟨e0, he0, hlim⟩ := C141_limit_unlabelled ext h hr hm hN hp hs hkind hgen hsig hseed hD hell hcont hlub hδ
  refine ⟨e0, he0, fun eps he hle => ?_⟩
  refine tendsto_of_tendsto_of_tendsto_of_le_of_le tendsto_const_nhds (hlim eps he hle) (fun n => zero_le) fun n => measure_mono ?_
  intro ω hω hgood
  obtain ⟨v, D', g', hf, hv⟩ := hgood
  refine hω ⟨v, D', g', hf, ?_⟩
  rintro Q ⟨π, hπ, hmarg, rfl, hci, hcost⟩ hli
  have hli' : Integrable (fun p : Fin m × (Fin d → ℝ) => lossAt0 w ell p.2) π :=
    (integrable_map_measure hell.aestronglyMeasurable measurable_snd.aemeasurable).1 hli
  have hmap : ∫ z, lossAt0 w ell z ∂(π.map Prod.snd) = ∫ p, lossAt0 w ell p.2 ∂π := integral_map measurable_snd.aemeasurable hell.aestronglyMeasurable
  rw [hmap]
  obtain ⟨hsi, hsv⟩ := integral_fst hmarg S
  have h1 : ∫ p, lossAt0 w ell p.2 ∂π ≤ ∫ p, (D.lam * pnorm D.cost.p (fun q => X p.1 q - p.2 q) ^ D.cost.power + S p.1) ∂π := by
    refine integral_mono hli' ((hci.const_mul _).add hsi) fun p => ?_
    have := (hlub p.1).1 ⟨p.2, rfl⟩
    simp only [gain0, moveCost] at this
    dsimp only
    linarith
  rw [integral_add (hci.const_mul _) hsi, integral_const_mul, hsv] at h1
  have h2 := mul_le_mul_of_nonneg_left hcost hlam
  have h3 := (abs_lt.1 hv).1
  linarith

end

/-! ### The hypotheses can be met -/

theorem exU_continuous (i : Fin 2) : Continuous (gain0 exW0 (exU 0) (fun (x : Fin 1 → ℝ) (c : Fin 1) => x c ^ 2) exX i) := by
  have : gain0 exW0 (exU 0) (fun (x : Fin 1 → ℝ) (c : Fin 1) => x c ^ 2) exX i = fun z => z 0 ^ 2 + 9 - (exU 0).lam * (exX i 0 - z 0) ^ 2 := by
    funext z
    unfold gain0
    rw [exU_loss, exU_cost]
  rw [this]
  fun_prop

theorem exU_lub (i : Fin 2) : IsLUB (Set.range (gain0 exW0 (exU 0) (fun (x : Fin 1 → ℝ) (c : Fin 1) => x c ^ 2) exX i)) (2 * exX i 0 ^ 2 + 9) := by
  constructor
  · rintro _ ⟨z, rfl⟩
    exact exU_bound 0 i z
  · intro b hb
    have := hb ⟨fun _ => 2 * exX i 0, rfl⟩
    unfold gain0 at this
    rw [exU_loss, exU_cost, show (exU 0).lam = 2 from rfl] at this
    nlinarith

example {δ : ℝ} (hδ : 0 < δ) := C141_limit_unlabelled bankExt (X := exX) (exU_noLabels 0) rfl (by norm_num) bank_contract
  (c := ⟨.normCost, .fin 2, 2, .nan⟩) (Or.inl ⟨rfl, Or.inr rfl⟩) (sigma := 1) one_pos rfl rfl rfl rfl rfl exU_measurable exU_continuous exU_lub hδ

example {δ : ℝ} (hδ : 0 < δ) := C141_covers_unlabelled bankExt (X := exX) (exU_noLabels 0) rfl (by norm_num) (by norm_num [exU]) bank_contract
  (c := ⟨.normCost, .fin 2, 2, .nan⟩) (Or.inl ⟨rfl, Or.inr rfl⟩) (sigma := 1) one_pos rfl rfl rfl rfl rfl exU_measurable exU_continuous
  (fun i => ⟨_, (exU_lub i).1⟩) hδ

end Skwdro
