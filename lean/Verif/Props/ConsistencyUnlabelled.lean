import Verif.Props.ImpConsistency
import Verif.Props.DualUnlabelled
import Verif.Props.SampleBias
import Verif.Props.SampleSize
import Verif.Props.Adversary

/-! # C96, C97, C98, C113 without labels: for losses such as those of the news vendor and of the portfolio, any order and power of the cost -/

namespace Skwdro
open Spec Tensor MeasureTheory ProbabilityTheory InformationTheory
open scoped Topology

variable {G : Type} (ext : TorchExt G)

/-- a point with a label nobody reads -/
def unlabel {d : ℕ} (z : Fin d → ℝ) : (Fin d → ℝ) × (Fin 1 → ℝ) := (z, 0)

theorem unlabel_measurable {d : ℕ} : Measurable (unlabel (d := d)) := measurable_id.prodMk measurable_const

/-- the same loss, handed labels it does not read -/
def WLoss.ignoring (w : WLoss) : WLoss := { w with hasLabels := true, flat := fun t _ => w.flat t none }

/-- the robust loss of `WLoss.ignoring` -/
noncomputable def DualLoss.ignoring (D : DualLoss) (w : WLoss) : DualLoss := { D with primal := w.ignoring.value }

section
variable {m d s : ℕ} {w : WLoss} {D : DualLoss} {ell : (Fin d → ℝ) → Fin s → ℝ} {rho : ℝ} {X : Fin m → Fin d → ℝ}

/-- the cost between a data point and a sample -/
noncomputable def moveCost (D : DualLoss) (X : Fin m → Fin d → ℝ) (i : Fin m) (z : Fin d → ℝ) : ℝ :=
  pnorm D.cost.p (fun q => X i q - z q) ^ D.cost.power

theorem ignoring_labelled (h : NoLabels w D ell rho) :
    Labelled (k := 1) w.ignoring (D.ignoring w) (fun x _ => ell x) rho where
  primal := rfl
  hasLabels := rfl
  reduceSpatial := h.reduceSpatial
  s_pos := h.s_pos
  rows := fun N x _ X' _ hx _ => h.rows N x X' hx
  cost := ⟨h.order, fun hk => by have := h.kind; simp [DualLoss.ignoring, this] at hk⟩
  rho_eq := h.rho_eq
  rho_pos := h.rho_pos
  eps_pos := h.eps_pos
  erm := h.erm
  imp := h.imp

theorem ignoring_loss (z : Fin d → ℝ) (y : Fin 1 → ℝ) : lossAt w.ignoring (fun x (_ : Fin 1 → ℝ) => ell x) z y = lossAt0 w ell z := rfl

theorem ignoring_cost (h : NoLabels w D ell rho) (i : Fin m) (z : Fin d → ℝ) (y y' : Fin 1 → ℝ) :
    costAt (D.ignoring w).cost (X i) z y y' = moveCost D X i z := C04_point_formula D.cost h.kind h.order _ _ _ _

/-- the number the robust loss returns on `n ≥ 1` samples -/
theorem num_samples0 (h : NoLabels w D ell rho) (hr : D.reduction = .mean) (hm : 0 < m) {n : ℕ} (hn : 0 < n)
    (Z : Fin n → Fin m → Fin d → ℝ) : num (computeDual ext D (mat X) none (ten Z) none) =
      D.lam * rho ^ D.cost.power + avg (fun i => D.epsilon * Real.log (avg fun j =>
        Real.exp ((lossAt0 w ell (Z j i) - D.lam * moveCost D X i (Z j i)) / D.epsilon))) :=
  num_plain ext (plain_of_noLabels h hn hm (isMat_mat X) (isTen_ten _)) hr

theorem num_ignoring (h : NoLabels w D ell rho) (hr : D.reduction = .mean) (hm : 0 < m) {n : ℕ} (hn : 0 < n)
    (Z : Fin n → Fin m → Fin d → ℝ) :
    num (computeDual ext (D.ignoring w) (mat X) (some (mat (fun _ => 0 : Fin m → Fin 1 → ℝ))) (ten fun j i => (unlabel (Z j i)).1)
      (some (ten fun j i => (unlabel (Z j i)).2))) = num (computeDual ext D (mat X) none (ten Z) none) := by
  rw [num_samples ext (ignoring_labelled h) hr hm hn (fun j i => unlabel (Z j i)), num_samples0 ext h hr hm hn Z]
  simp only [ignoring_loss, ignoring_cost h]
  rfl

theorem moveCost_measurable (i : Fin m) : Measurable (moveCost D X i) :=
  (pnorm_measurable.comp (measurable_pi_lambda _ fun q => (measurable_pi_apply q).const_sub _)).pow_const _

theorem ignoring_measurable (hell : Measurable (lossAt0 w ell)) :
    Measurable fun u : (Fin d → ℝ) × (Fin 1 → ℝ) => lossAt w.ignoring (fun x (_ : Fin 1 → ℝ) => ell x) u.1 u.2 := hell.comp measurable_fst

/-- integrals against a law with labels added -/
theorem unlabel_integral {nu : Measure (Fin d → ℝ)} {f : (Fin d → ℝ) → ℝ} (hf : Measurable f) :
    ∫ u, f u.1 ∂(nu.map (unlabel (d := d))) = ∫ z, f z ∂nu :=
  integral_map unlabel_measurable.aemeasurable (hf.comp measurable_fst).aestronglyMeasurable

theorem unlabel_integrable {nu : Measure (Fin d → ℝ)} {f : (Fin d → ℝ) → ℝ} (hf : Measurable f) :
    Integrable (fun u : (Fin d → ℝ) × (Fin 1 → ℝ) => f u.1) (nu.map unlabel) ↔ Integrable f nu :=
  integrable_map_measure (hf.comp measurable_fst).aestronglyMeasurable unlabel_measurable.aemeasurable

theorem exponent_measurable0 (hell : Measurable (lossAt0 w ell)) (i : Fin m) :
    Measurable fun z => (lossAt0 w ell z - D.lam * moveCost D X i z) / D.epsilon :=
  (hell.sub ((moveCost_measurable i).const_mul _)).div_const _

theorem population_ignoring (h : NoLabels w D ell rho) (hell : Measurable (lossAt0 w ell)) (nu : Fin m → Measure (Fin d → ℝ)) :
    population (D.ignoring w).lam rho (D.ignoring w).cost.power (D.ignoring w).epsilon (lossAt w.ignoring fun x (_ : Fin 1 → ℝ) => ell x)
      (fun i z y => costAt (D.ignoring w).cost (X i) z (0 : Fin 1 → ℝ) y) (fun i => (nu i).map unlabel) =
    populationU D.lam rho D.cost.power D.epsilon (lossAt0 w ell) (moveCost D X) nu := by
  unfold population populationU
  simp only [ignoring_loss, ignoring_cost h]
  simp only [DualLoss.ignoring]
  congr 2
  funext i
  congr 2
  exact unlabel_integral (Real.measurable_exp.comp (exponent_measurable0 (D := D) (X := X) hell i))

/-- **C96** Without labels, for a cost of any order and power: almost surely, the robust loss on `n` independent samples per data point tends to
the robust objective with exact expectations. -/
theorem C96_almost_sure_unlabelled (h : NoLabels w D ell rho) (hr : D.reduction = .mean) (hm : 0 < m) {Ω : Type} [MeasurableSpace Ω]
    {μ : Measure Ω} [IsProbabilityMeasure μ] (Z : ℕ → Fin m → Ω → Fin d → ℝ) (nu : Fin m → Measure (Fin d → ℝ))
    (hZ : ∀ j i, Measurable (Z j i)) (hlaw : ∀ j i, μ.map (Z j i) = nu i)
    (hind : ∀ i, Pairwise fun j j' => IndepFun (Z j i) (Z j' i) μ) (hell : Measurable (lossAt0 w ell))
    (hint : ∀ i, Integrable (fun z => Real.exp ((lossAt0 w ell z - D.lam * moveCost D X i z) / D.epsilon)) (nu i)) :
    ∀ᵐ ω ∂μ, Filter.Tendsto (fun n => num (computeDual ext D (mat X) none (ten fun (j : Fin n) i => Z j i ω) none)) Filter.atTop
      (𝓝 (populationU D.lam rho D.cost.power D.epsilon (lossAt0 w ell) (moveCost D X) nu)) := by
  have key := C96_almost_sure ext (X := X) (Y := fun _ => 0) (ignoring_labelled h) hr hm (fun j i ω => unlabel (Z j i ω))
    (fun i => (nu i).map unlabel) (fun j i => unlabel_measurable.comp (hZ j i))
    (fun j i => by rw [← hlaw j i, Measure.map_map unlabel_measurable (hZ j i)]; rfl)
    (fun i j j' hj => (hind i hj).comp unlabel_measurable unlabel_measurable) (ignoring_measurable hell) (fun i => by
      simp only [ignoring_loss, ignoring_cost h]
      exact (unlabel_integrable (Real.measurable_exp.comp (exponent_measurable0 (D := D) (X := X) hell i))).2 (hint i))
  rw [population_ignoring h hell] at key
  filter_upwards [key] with ω hω
  refine hω.congr' ?_
  filter_upwards [Filter.eventually_gt_atTop 0] with n hn
  exact num_ignoring ext h hr hm hn fun j i => Z j i ω

/-- the law of a batch of samples with labels added -/
theorem unlabel_batch {kap : Measure (Fin m → Fin d → ℝ)} (i : Fin m) :
    (kap.map fun u i => unlabel (u i)).map (fun u => u i) = (kap.map fun u => u i).map unlabel := by
  have hb : Measurable fun (u : Fin m → Fin d → ℝ) i => unlabel (u i) :=
    measurable_pi_lambda _ fun i => unlabel_measurable.comp (measurable_pi_apply i)
  rw [Measure.map_map (measurable_pi_apply i) hb, Measure.map_map unlabel_measurable (measurable_pi_apply i)]
  rfl

theorem unlabel_pi {n : ℕ} {Ω : Type} [MeasurableSpace Ω] {μ : Measure Ω} {kap : Measure (Fin m → Fin d → ℝ)} [IsProbabilityMeasure kap]
    {T : Ω → Fin n → Fin m → Fin d → ℝ} (hT : Measurable T) (hlaw : μ.map T = Measure.pi fun _ => kap) :
    Measurable (fun ω j i => unlabel (T ω j i)) ∧
      μ.map (fun ω j i => unlabel (T ω j i)) = Measure.pi fun _ => kap.map fun u i => unlabel (u i) := by
  have hb : Measurable fun (u : Fin m → Fin d → ℝ) i => unlabel (u i) :=
    measurable_pi_lambda _ fun i => unlabel_measurable.comp (measurable_pi_apply i)
  have hB : Measurable fun (U : Fin n → Fin m → Fin d → ℝ) j i => unlabel (U j i) :=
    measurable_pi_lambda _ fun j => hb.comp (measurable_pi_apply j)
  refine ⟨hB.comp hT, ?_⟩
  have : (fun ω j i => unlabel (T ω j i)) = (fun (U : Fin n → Fin m → Fin d → ℝ) j i => unlabel (U j i)) ∘ T := rfl
  rw [this, ← Measure.map_map hB hT, hlaw]
  exact Measure.pi_map_pi (μ := fun _ : Fin n => kap) (f := fun _ (u : Fin m → Fin d → ℝ) i => unlabel (u i)) fun _ => hb.aemeasurable

instance unlabel_prob {kap : Measure (Fin m → Fin d → ℝ)} [IsProbabilityMeasure kap] :
    IsProbabilityMeasure (kap.map fun u i => unlabel (u i)) :=
  Measure.isProbabilityMeasure_map (measurable_pi_lambda _ fun i => unlabel_measurable.comp (measurable_pi_apply i)).aemeasurable

/-- **C96** Without labels, in probability: whatever the tolerance, the probability that the robust loss on `n` fresh samples misses the exact
objective by more tends to zero. -/
theorem C96_in_probability_unlabelled (h : NoLabels w D ell rho) (hr : D.reduction = .mean) (hm : 0 < m) {Ω : ℕ → Type}
    [∀ n, MeasurableSpace (Ω n)] (μ : ∀ n, Measure (Ω n)) (kap : Measure (Fin m → Fin d → ℝ)) [IsProbabilityMeasure kap]
    (T : ∀ n, Ω n → Fin n → Fin m → Fin d → ℝ) (hT : ∀ n, Measurable (T n)) (hlaw : ∀ n, (μ n).map (T n) = Measure.pi fun _ => kap)
    (hell : Measurable (lossAt0 w ell))
    (hint : ∀ i, Integrable (fun z => Real.exp ((lossAt0 w ell z - D.lam * moveCost D X i z) / D.epsilon)) (kap.map fun u => u i))
    {δ : ℝ} (hδ : 0 < δ) :
    Filter.Tendsto (fun n => μ n {ω | δ ≤ |num (computeDual ext D (mat X) none (ten (T n ω)) none) -
      populationU D.lam rho D.cost.power D.epsilon (lossAt0 w ell) (moveCost D X) (fun i => kap.map fun u => u i)|}) Filter.atTop (𝓝 0) := by
  have key := C96_in_probability ext (X := X) (Y := fun _ => 0) (ignoring_labelled h) hr hm μ (kap.map fun u i => unlabel (u i))
    (fun n ω j i => unlabel (T n ω j i)) (fun n => (unlabel_pi (hT n) (hlaw n)).1) (fun n => (unlabel_pi (hT n) (hlaw n)).2)
    (ignoring_measurable hell) (fun i => by
      have h1 := (unlabel_integrable (Real.measurable_exp.comp (exponent_measurable0 (D := D) (X := X) hell i))).2 (hint i)
      rw [← unlabel_batch i] at h1
      simp only [ignoring_loss, ignoring_cost h]
      exact h1.comp_measurable (measurable_pi_apply i)) hδ
  simp only [unlabel_batch] at key
  rw [population_ignoring h hell] at key
  refine key.congr' ?_
  filter_upwards [Filter.eventually_gt_atTop 0] with n hn
  simp only [num_ignoring ext h hr hm hn]

/-- **C113** Without labels: with `B i` above the penalised losses of the samples of data point `i` and `q i` the mean of
`exp((loss - lam*cost - B i)/eps)`, the probability that the robust loss on `n` samples misses the exact objective by `t` or more is at most the
sum over the data points of `2 exp(-2 n (q i (1 - exp(-t/eps)))^2)`. -/
theorem C113_tail_unlabelled {n : ℕ} (h : NoLabels w D ell rho) (hr : D.reduction = .mean) (hm : 0 < m) (hn : 0 < n) {Ω : Type}
    [MeasurableSpace Ω] (μ : Measure Ω) [IsProbabilityMeasure μ] (kap : Measure (Fin m → Fin d → ℝ)) [IsProbabilityMeasure kap]
    (T : Ω → Fin n → Fin m → Fin d → ℝ) (hT : Measurable T) (hlaw : μ.map T = Measure.pi fun _ => kap)
    (hell : Measurable (lossAt0 w ell)) (B : Fin m → ℝ)
    (hB : ∀ i, ∀ᵐ z ∂(kap.map fun u => u i), lossAt0 w ell z - D.lam * moveCost D X i z ≤ B i) {q : Fin m → ℝ}
    (hq : ∀ i, q i = ∫ z, Real.exp ((lossAt0 w ell z - D.lam * moveCost D X i z - B i) / D.epsilon) ∂(kap.map fun u => u i))
    {t : ℝ} (ht : 0 < t) :
    (∀ i, 0 < q i) ∧
    μ.real {ω | t ≤ |num (computeDual ext D (mat X) none (ten (T ω)) none) -
      populationU D.lam rho D.cost.power D.epsilon (lossAt0 w ell) (moveCost D X) (fun i => kap.map fun u => u i)|} ≤
      ∑ i, 2 * Real.exp (-(2 * n * (q i * (1 - Real.exp (-(t / D.epsilon)))) ^ 2)) := by
  have hp : ∀ i, Measurable fun z => lossAt0 w ell z - D.lam * moveCost D X i z := fun i => hell.sub ((moveCost_measurable i).const_mul _)
  have key := C113_tail ext (X := X) (Y := fun _ => 0) (n := n) (ignoring_labelled h) hr hm hn μ (kap.map fun u i => unlabel (u i))
    (fun ω j i => unlabel (T ω j i)) (unlabel_pi hT hlaw).1 (unlabel_pi hT hlaw).2 (ignoring_measurable hell) B (q := q) (fun i => by
      simp only [ignoring_loss, ignoring_cost h, unlabel_batch]
      refine (ae_map_iff unlabel_measurable.aemeasurable ?_).2 (hB i)
      exact measurableSet_le ((hp i).comp measurable_fst) measurable_const) (fun i => by
      simp only [ignoring_loss, ignoring_cost h, unlabel_batch]
      rw [hq i]
      exact (unlabel_integral (Real.measurable_exp.comp (((hp i).sub_const (B i)).div_const D.epsilon))).symm) ht
  simp only [unlabel_batch] at key
  rw [population_ignoring h hell] at key
  simp only [num_ignoring ext h hr hm hn] at key
  exact key

/-- **C113** Without labels, a number of samples that suffices: for a tolerance `t` and a probability of failure `δ`, with `σ` at most every
`q i (1 - exp(-t/eps))`, any `n ≥ log(2 m / δ) / (2 σ^2)` will do. -/
theorem C113_enough_unlabelled {n : ℕ} (h : NoLabels w D ell rho) (hr : D.reduction = .mean) (hm : 0 < m) (hn : 0 < n) {Ω : Type}
    [MeasurableSpace Ω] (μ : Measure Ω) [IsProbabilityMeasure μ] (kap : Measure (Fin m → Fin d → ℝ)) [IsProbabilityMeasure kap]
    (T : Ω → Fin n → Fin m → Fin d → ℝ) (hT : Measurable T) (hlaw : μ.map T = Measure.pi fun _ => kap)
    (hell : Measurable (lossAt0 w ell)) (B : Fin m → ℝ)
    (hB : ∀ i, ∀ᵐ z ∂(kap.map fun u => u i), lossAt0 w ell z - D.lam * moveCost D X i z ≤ B i) {t δ σ : ℝ} (ht : 0 < t)
    (hδ : 0 < δ) (hσ : 0 < σ) (hs : ∀ i, σ ≤ (1 - Real.exp (-(t / D.epsilon))) *
      ∫ z, Real.exp ((lossAt0 w ell z - D.lam * moveCost D X i z - B i) / D.epsilon) ∂(kap.map fun u => u i))
    (hN : Real.log (2 * m / δ) / (2 * σ ^ 2) ≤ n) :
    μ.real {ω | t ≤ |num (computeDual ext D (mat X) none (ten (T ω)) none) -
      populationU D.lam rho D.cost.power D.epsilon (lossAt0 w ell) (moveCost D X) (fun i => kap.map fun u => u i)|} ≤ δ := by
  have hp : ∀ i, Measurable fun z => lossAt0 w ell z - D.lam * moveCost D X i z := fun i => hell.sub ((moveCost_measurable i).const_mul _)
  have key := C113_enough ext (X := X) (Y := fun _ => 0) (n := n) (ignoring_labelled h) hr hm hn μ (kap.map fun u i => unlabel (u i))
    (fun ω j i => unlabel (T ω j i)) (unlabel_pi hT hlaw).1 (unlabel_pi hT hlaw).2 (ignoring_measurable hell) B (fun i => by
      simp only [ignoring_loss, ignoring_cost h, unlabel_batch]
      refine (ae_map_iff unlabel_measurable.aemeasurable ?_).2 (hB i)
      exact measurableSet_le ((hp i).comp measurable_fst) measurable_const) ht hδ hσ (fun i => by
      simp only [ignoring_loss, ignoring_cost h, unlabel_batch]
      refine (hs i).trans (le_of_eq ?_)
      congr 1
      exact (unlabel_integral (Real.measurable_exp.comp (((hp i).sub_const (B i)).div_const D.epsilon))).symm) hN
  simp only [unlabel_batch] at key
  rw [population_ignoring h hell] at key
  simp only [num_ignoring ext h hr hm hn] at key
  exact key

/-- the expected value of the robust loss over `n` independent samples of law `kap` (one sample per data point at a time) -/
noncomputable def expectedLoss0 (D : DualLoss) (X : Fin m → Fin d → ℝ) (kap : Measure (Fin m → Fin d → ℝ)) (n : ℕ) : ℝ :=
  ∫ Z : Fin n → Fin m → Fin d → ℝ, num (computeDual ext D (mat X) none (ten Z) none) ∂(Measure.pi fun _ => kap)

theorem expectedLoss_ignoring (h : NoLabels w D ell rho) (hr : D.reduction = .mean) (hm : 0 < m) (kap : Measure (Fin m → Fin d → ℝ))
    [IsProbabilityMeasure kap] (hell : Measurable (lossAt0 w ell)) {n : ℕ} (hn : 0 < n) :
    expectedLoss ext (D.ignoring w) X (fun _ => 0 : Fin m → Fin 1 → ℝ) (kap.map fun u i => unlabel (u i)) n = expectedLoss0 ext D X kap n := by
  have hm' : Measurable fun U : Fin n → Fin m → (Fin d → ℝ) × (Fin 1 → ℝ) =>
      num (computeDual ext (D.ignoring w) (mat X) (some (mat (fun _ => 0 : Fin m → Fin 1 → ℝ))) (ten fun j i => (U j i).1)
        (some (ten fun j i => (U j i).2))) := by
    have e : (fun U : Fin n → Fin m → (Fin d → ℝ) × (Fin 1 → ℝ) =>
      num (computeDual ext (D.ignoring w) (mat X) (some (mat (fun _ => 0 : Fin m → Fin 1 → ℝ))) (ten fun j i => (U j i).1)
        (some (ten fun j i => (U j i).2)))) = fun U => num (computeDual ext D (mat X) none (ten fun j i => (U j i).1) none) := by
      funext U
      rw [num_samples ext (ignoring_labelled h) hr hm hn U, num_samples0 ext h hr hm hn fun j i => (U j i).1]
      simp only [ignoring_loss, ignoring_cost h]
      rfl
    rw [e]
    simp only [num_samples0 ext h hr hm hn]
    refine Measurable.const_add ?_ _
    unfold avg
    refine Measurable.div_const (Finset.measurable_fun_sum _ fun i _ => ?_) _
    refine (Real.measurable_log.comp ((Finset.measurable_fun_sum _ fun j _ => ?_).div_const _)).const_mul _
    have he : Measurable fun U : Fin n → Fin m → (Fin d → ℝ) × (Fin 1 → ℝ) => (U j i).1 :=
      measurable_fst.comp ((measurable_pi_apply i).comp (measurable_pi_apply j))
    exact (Real.measurable_exp.comp (exponent_measurable0 (D := D) (X := X) hell i)).comp he
  unfold expectedLoss expectedLoss0
  obtain ⟨h1, h2⟩ := unlabel_pi (n := n) (μ := Measure.pi fun _ => kap) (kap := kap) measurable_id Measure.map_id
  rw [← h2, integral_map h1.aemeasurable hm'.aestronglyMeasurable]
  refine integral_congr_ae (Filter.Eventually.of_forall fun Z => ?_)
  exact num_ignoring ext h hr hm hn Z

section
variable (h : NoLabels w D ell rho) (hr : D.reduction = .mean) (hm : 0 < m) (kap : Measure (Fin m → Fin d → ℝ))
  [IsProbabilityMeasure kap] (hell : Measurable (lossAt0 w ell))
  (hlin : ∀ i, Integrable (fun z => (lossAt0 w ell z - D.lam * moveCost D X i z) / D.epsilon) (kap.map fun u => u i))
  (hexp : ∀ i, Integrable (fun z => Real.exp ((lossAt0 w ell z - D.lam * moveCost D X i z) / D.epsilon)) (kap.map fun u => u i))

omit [IsProbabilityMeasure kap] in
include h hell hlin hexp in
theorem unlabel_exponents (i : Fin m) :
    Integrable (exponent (k := 1) w.ignoring (D.ignoring w) (fun x _ => ell x) X (fun _ => 0) i) (kap.map fun u i => unlabel (u i)) ∧
    Integrable (fun u => Real.exp (exponent (k := 1) w.ignoring (D.ignoring w) (fun x _ => ell x) X (fun _ => 0) i u))
      (kap.map fun u i => unlabel (u i)) := by
  have hz := exponent_measurable0 (D := D) (X := X) hell i
  have e : exponent (k := 1) w.ignoring (D.ignoring w) (fun x _ => ell x) X (fun _ => 0) i =
      fun u => (lossAt0 w ell (u i).1 - D.lam * moveCost D X i (u i).1) / D.epsilon := by
    funext u
    unfold exponent
    rw [ignoring_loss, ignoring_cost h]
    rfl
  rw [e]
  have h1 := (unlabel_integrable hz).2 (hlin i)
  have h2 := (unlabel_integrable (Real.measurable_exp.comp hz)).2 (hexp i)
  rw [← unlabel_batch i] at h1 h2
  exact ⟨h1.comp_measurable (measurable_pi_apply i), h2.comp_measurable (measurable_pi_apply i)⟩

include h hr hm hell hlin hexp in
/-- **C97** Without labels: on average over the samples, the robust loss never exceeds the robust objective with exact expectations. -/
theorem C97_underestimates_unlabelled {n : ℕ} (hn : 0 < n) : expectedLoss0 ext D X kap n ≤
    populationU D.lam rho D.cost.power D.epsilon (lossAt0 w ell) (moveCost D X) (fun i => kap.map fun u => u i) := by
  have key := C97_underestimates ext (X := X) (Y := fun _ => 0) (ignoring_labelled h) hr hm (kap.map fun u i => unlabel (u i))
    (ignoring_measurable hell) (fun i => (unlabel_exponents h kap hell hlin hexp i).1) (fun i => (unlabel_exponents h kap hell hlin hexp i).2) hn
  simp only [unlabel_batch] at key
  rw [population_ignoring h hell] at key
  rwa [← expectedLoss_ignoring ext h hr hm kap hell hn]

include h hr hm hell hlin hexp in
/-- **C97** Without labels: drawing more samples never lowers the robust loss on average. -/
theorem C97_more_samples_unlabelled {n n' : ℕ} (hn : 0 < n) (hle : n ≤ n') : expectedLoss0 ext D X kap n ≤ expectedLoss0 ext D X kap n' := by
  have key := C97_more_samples ext (X := X) (Y := fun _ => 0) (ignoring_labelled h) hr hm (kap.map fun u i => unlabel (u i))
    (ignoring_measurable hell) (fun i => (unlabel_exponents h kap hell hlin hexp i).1) (fun i => (unlabel_exponents h kap hell hlin hexp i).2)
    hn hle
  rwa [← expectedLoss_ignoring ext h hr hm kap hell hn, ← expectedLoss_ignoring ext h hr hm kap hell (hn.trans_le hle)]

end

/-- an adversary without labels: a law for each data point, with a finite divergence from the law of its samples, moving at an average cost of
at most `r` -/
structure Adversary0 (c : Fin m → (Fin d → ℝ) → ℝ) (loss : (Fin d → ℝ) → ℝ) (nu Q : Fin m → Measure (Fin d → ℝ)) (r : ℝ) : Prop where
  prob : ∀ i, IsProbabilityMeasure (Q i)
  div : ∀ i, klDiv (Q i) (nu i) ≠ ⊤
  loss_int : ∀ i, Integrable loss (Q i)
  cost_int : ∀ i, Integrable (c i) (Q i)
  budget : avg (fun i => ∫ z, c i z ∂(Q i)) ≤ r

theorem population_covers0 {lam p eps : ℝ} (hlam : 0 ≤ lam) (heps : 0 < eps) {c : Fin m → (Fin d → ℝ) → ℝ}
    {loss : (Fin d → ℝ) → ℝ} {nu Q : Fin m → Measure (Fin d → ℝ)} [∀ i, IsProbabilityMeasure (nu i)]
    (hexp : ∀ i, Integrable (fun z => Real.exp ((loss z - lam * c i z) / eps)) (nu i)) (hQ : Adversary0 c loss nu Q (rho ^ p)) :
    avg (fun i => ∫ z, loss z ∂(Q i) - eps * (klDiv (Q i) (nu i)).toReal) ≤ populationU lam rho p eps loss c nu := by
  have h1 : ∀ i, (∫ z, loss z ∂(Q i) - eps * (klDiv (Q i) (nu i)).toReal) - lam * ∫ z, c i z ∂(Q i) ≤
      eps * Real.log (∫ z, Real.exp ((loss z - lam * c i z) / eps) ∂(nu i)) := by
    intro i
    have := hQ.prob i
    have hlin : Integrable (fun z => (loss z - lam * c i z) / eps) (Q i) :=
      ((hQ.loss_int i).sub ((hQ.cost_int i).const_mul lam)).div_const eps
    have h := mul_le_mul_of_nonneg_left (donsker_varadhan (hQ.div i) hlin (hexp i)) heps.le
    rw [integral_div, integral_sub (hQ.loss_int i) ((hQ.cost_int i).const_mul lam), integral_const_mul, mul_sub,
      mul_div_cancel₀ _ heps.ne'] at h
    linarith
  have h2 := avg_mono h1
  have h3 : avg (fun i => (∫ z, loss z ∂(Q i) - eps * (klDiv (Q i) (nu i)).toReal) - lam * ∫ z, c i z ∂(Q i)) =
      avg (fun i => ∫ z, loss z ∂(Q i) - eps * (klDiv (Q i) (nu i)).toReal) - lam * avg (fun i => ∫ z, c i z ∂(Q i)) := by
    unfold avg
    rw [Finset.sum_sub_distrib, ← Finset.mul_sum]
    ring
  have h4 := mul_le_mul_of_nonneg_left hQ.budget hlam
  unfold populationU
  linarith

/-- **C98** Without labels: almost surely, once enough samples are drawn the robust loss exceeds, up to any tolerance, the expected loss
(penalised by the divergence) of any law that moves the data at an average cost of at most `rho^p`. -/
theorem C98_covers_adversaries_unlabelled (h : NoLabels w D ell rho) (hr : D.reduction = .mean) (hm : 0 < m) (hlam : 0 ≤ D.lam) {Ω : Type}
    [MeasurableSpace Ω] {μ : Measure Ω} [IsProbabilityMeasure μ] (Z : ℕ → Fin m → Ω → Fin d → ℝ) (nu : Fin m → Measure (Fin d → ℝ))
    (hZ : ∀ j i, Measurable (Z j i)) (hlaw : ∀ j i, μ.map (Z j i) = nu i)
    (hind : ∀ i, Pairwise fun j j' => IndepFun (Z j i) (Z j' i) μ) (hell : Measurable (lossAt0 w ell))
    (hint : ∀ i, Integrable (fun z => Real.exp ((lossAt0 w ell z - D.lam * moveCost D X i z) / D.epsilon)) (nu i))
    (Q : Fin m → Measure (Fin d → ℝ)) (hQ : Adversary0 (moveCost D X) (lossAt0 w ell) nu Q (rho ^ D.cost.power)) {δ : ℝ} (hδ : 0 < δ) :
    ∀ᵐ ω ∂μ, ∀ᶠ n in Filter.atTop, avg (fun i => ∫ z, lossAt0 w ell z ∂(Q i) - D.epsilon * (klDiv (Q i) (nu i)).toReal) - δ <
      num (computeDual ext D (mat X) none (ten fun (j : Fin n) i => Z j i ω) none) := by
  have hp : ∀ i, IsProbabilityMeasure (nu i) := fun i => by rw [← hlaw 0 i]; exact Measure.isProbabilityMeasure_map (hZ 0 i).aemeasurable
  have hcov := population_covers0 hlam h.eps_pos hint hQ
  filter_upwards [C96_almost_sure_unlabelled ext (X := X) h hr hm Z nu hZ hlaw hind hell hint] with ω hω
  exact hω.eventually (lt_mem_nhds (by linarith))

/-- **C98** Without labels the bound is tight: the tilted laws meet it, up to the price of the cost they leave unspent. -/
theorem C98_worst_case_unlabelled (h : NoLabels w D ell rho) (nu : Fin m → Measure (Fin d → ℝ)) [∀ i, IsProbabilityMeasure (nu i)]
    (hint : ∀ i, Integrable (fun z => Real.exp ((lossAt0 w ell z - D.lam * moveCost D X i z) / D.epsilon)) (nu i))
    {Q : Fin m → Measure (Fin d → ℝ)}
    (hQ : ∀ i, Q i = (nu i).tilted fun z => (lossAt0 w ell z - D.lam * moveCost D X i z) / D.epsilon)
    (hl : ∀ i, Integrable (lossAt0 w ell) (Q i)) (hc : ∀ i, Integrable (moveCost D X i) (Q i)) :
    avg (fun i => ∫ z, lossAt0 w ell z ∂(Q i) - D.epsilon * (klDiv (Q i) (nu i)).toReal) +
        D.lam * (rho ^ D.cost.power - avg (fun i => ∫ z, moveCost D X i z ∂(Q i))) =
      populationU D.lam rho D.cost.power D.epsilon (lossAt0 w ell) (moveCost D X) nu := by
  have h1 : ∀ i, (∫ z, lossAt0 w ell z ∂(Q i) - D.epsilon * (klDiv (Q i) (nu i)).toReal) - D.lam * ∫ z, moveCost D X i z ∂(Q i) =
      D.epsilon * Real.log (∫ z, Real.exp ((lossAt0 w ell z - D.lam * moveCost D X i z) / D.epsilon) ∂(nu i)) := by
    intro i
    have hlin : Integrable (fun z => (lossAt0 w ell z - D.lam * moveCost D X i z) / D.epsilon) (Q i) :=
      ((hl i).sub ((hc i).const_mul D.lam)).div_const D.epsilon
    have he := (donsker_varadhan_eq (hint i) (by rw [← hQ i]; exact hlin)).2
    rw [← hQ i] at he
    rw [← he, integral_div, integral_sub (hl i) ((hc i).const_mul D.lam), integral_const_mul, mul_sub, mul_div_cancel₀ _ h.eps_pos.ne']
    ring
  unfold populationU
  rw [← funext h1]
  unfold avg
  simp only [Finset.sum_sub_distrib, ← Finset.mul_sum]
  ring

/-! ## Through the forward pass -/

/-- what the cost-based sampler draws once re-centred on the batch, for a Euclidean or max-norm cost -/
theorem cost_sampler_draws0 {c : CostR} (hp : NormalSampled c) {sigma : ℝ} (hs : 0 < sigma) {S : Sampler}
    (hkind : S.kind = .noLabelsCost) (hgen : S.generating_cost = some c) (hsig : S.sigma = some sigma) (hseed : S.seed = none)
    (X : Fin m → Fin d → ℝ) (g : G) :
    ∃ S', S.resetMean ext (mat X) none g = .ok (S', g) ∧ ∀ n,
      IsTen (S'.sample ext n g).1 (fun (j : Fin n) i r => X i r + sigma * (ext.stdNormal g [n, m, d]).1.get [j, i, r]) ∧
      (S'.sample ext n g).2.1 = none := by
  have hd : samplerData c (mat X) (some sigma) = .ok (.normal (mat X) (.fin sigma)) := by
    rcases hp with ⟨h1, h | h⟩ | ⟨h1, h⟩ <;> simp [samplerData, h, h1, defaultEps, mkNormal, validScale, hs]
  refine ⟨_, by simp [Sampler.resetMean, hkind, hgen, hsig, hseed, mkNoLabelsCost, hd, seedGlobal]; rfl, fun n => ?_⟩
  refine ⟨⟨rfl, fun j i r => ?_⟩, rfl⟩
  show (mat X).get [(i : ℕ), (r : ℕ)] + scaleVal (.fin sigma) * _ = _
  rw [(isMat_mat X).2 i r]; rfl

/-- the law of one normal draw around every data point -/
noncomputable def noiseAround (sigma : ℝ) (X : Fin m → Fin d → ℝ) : Measure (Fin m → Fin d → ℝ) :=
  (Measure.pi fun _ : Fin m => Measure.pi fun _ : Fin d => gaussianReal 0 1).map fun e i r => X i r + sigma * e i r

theorem noise_measurable (sigma : ℝ) (X : Fin m → Fin d → ℝ) : Measurable fun (e : Fin m → Fin d → ℝ) i r => X i r + sigma * e i r :=
  measurable_pi_lambda _ fun i => measurable_pi_lambda _ fun r => by
    have h1 : Measurable fun e : Fin m → Fin d → ℝ => e i r := (measurable_pi_apply r).comp (measurable_pi_apply i)
    exact (h1.const_mul sigma).const_add (X i r)

instance noise_prob (sigma : ℝ) (X : Fin m → Fin d → ℝ) : IsProbabilityMeasure (noiseAround sigma X) :=
  Measure.isProbabilityMeasure_map (noise_measurable sigma X).aemeasurable

theorem noise_marginal {sigma : ℝ} (hs : 0 < sigma) (X : Fin m → Fin d → ℝ) (i : Fin m) :
    (noiseAround sigma X).map (fun u => u i) = Measure.pi fun k => gaussianReal (X i k) (sigma.toNNReal ^ 2) := by
  have hphi1 : Measurable fun (e : Fin d → ℝ) r => X i r + sigma * e r :=
    measurable_pi_lambda _ fun r => ((measurable_pi_apply r).const_mul _).const_add _
  rw [noiseAround, Measure.map_map (measurable_pi_apply i) (noise_measurable sigma X)]
  have : (fun u : Fin m → Fin d → ℝ => u i) ∘ (fun (e : Fin m → Fin d → ℝ) i r => X i r + sigma * e i r) =
      (fun (e : Fin d → ℝ) r => X i r + sigma * e r) ∘ (fun e => e i) := rfl
  rw [this, ← Measure.map_map hphi1 (measurable_pi_apply i)]
  have he : (Measure.pi fun _ : Fin m => Measure.pi fun _ : Fin d => gaussianReal 0 1).map (fun e => e i) =
      Measure.pi fun _ : Fin d => gaussianReal 0 1 :=
    (measurePreserving_eval (fun _ : Fin m => Measure.pi fun _ : Fin d => gaussianReal 0 1) i).map_eq
  rw [he, noise_law hs]

/-- the samples drawn from a generator state -/
noncomputable def drawn (sigma : ℝ) (X : Fin m → Fin d → ℝ) (g : G) (n : ℕ) (j : Fin n) (i : Fin m) (r : Fin d) : ℝ :=
  X i r + sigma * (ext.stdNormal g [n, m, d]).1.get [j, i, r]

theorem drawn_law {Ω : Type} [MeasurableSpace Ω] {μ : Measure Ω} {gen : Ω → G} (hN : NormalContract ext μ gen) (sigma : ℝ)
    (X : Fin m → Fin d → ℝ) (n : ℕ) :
    Measurable (fun ω => drawn ext sigma X (gen ω) n) ∧
      μ.map (fun ω => drawn ext sigma X (gen ω) n) = Measure.pi fun _ => noiseAround sigma X := by
  have hPhi : Measurable fun (e : Fin n → Fin m → Fin d → ℝ) j i r => X i r + sigma * e j i r :=
    measurable_pi_lambda _ fun j => (noise_measurable sigma X).comp (measurable_pi_apply j)
  refine ⟨hPhi.comp (hN n m d).1, ?_⟩
  have : (fun ω => drawn ext sigma X (gen ω) n) = (fun (e : Fin n → Fin m → Fin d → ℝ) j i r => X i r + sigma * e j i r) ∘
      (fun ω (j : Fin n) (i : Fin m) (k : Fin d) => (ext.stdNormal (gen ω) [n, m, d]).1.get [(j : ℕ), (i : ℕ), (k : ℕ)]) := rfl
  rw [this, ← Measure.map_map hPhi (hN n m d).1, (hN n m d).2]
  exact Measure.pi_map_pi (μ := fun _ : Fin n => Measure.pi fun _ : Fin m => Measure.pi fun _ : Fin d => gaussianReal 0 1)
    (f := fun _ (e : Fin m → Fin d → ℝ) i r => X i r + sigma * e i r) fun _ => (noise_measurable sigma X).aemeasurable

/-- the value of the forward pass on the samples it draws -/
theorem forward_drawn (h : NoLabels w D ell rho) (hr : D.reduction = .mean) (hm : 0 < m) {c : CostR} (hp : NormalSampled c) {sigma : ℝ} (hs : 0 < sigma) {S : Sampler} (hkind : S.kind = .noLabelsCost)
    (hgen : S.generating_cost = some c) (hsig : S.sigma = some sigma) (hseed : S.seed = none) (hD : D.sampler = some S) (g : G)
    (hn : 0 < D.nSamples) :
    ∃ v D' g', postForward ext D (mat X) none true g = .ok (.val v, D', g') ∧
      v.get [] = num (computeDual ext D (mat X) none (ten (drawn ext sigma X g D.nSamples)) none) := by
  obtain ⟨S', hS', hdraw⟩ := cost_sampler_draws0 ext hp hs hkind hgen hsig hseed X g
  obtain ⟨hz, hl⟩ := hdraw D.nSamples
  have hpl : Plain D (mat X) none (S'.sample ext D.nSamples g).1 (S'.sample ext D.nSamples g).2.1 rho
      (fun j i => lossAt0 w ell (drawn ext sigma X g D.nSamples j i))
      (fun j i => pnorm D.cost.p (fun q => X i q - drawn ext sigma X g D.nSamples j i q) ^ D.cost.power) := by
    rw [hl]
    exact plain_of_noLabels h hn hm (isMat_mat X) hz
  obtain ⟨v, D', hf, -, hv⟩ := C29_formula_postsampled ext hD hS' hpl hr
  refine ⟨v, D', _, hf, ?_⟩
  rw [hv.2, num_samples0 ext h hr hm hn]
  rfl

/-- **C96** Without labels, through the forward pass: with the unseeded sampler of a Euclidean or max-norm cost, the value returned with `n` samples per
point tends in probability to the robust objective with exact expectations under normal noise. -/
theorem C96_forward_unlabelled (h : NoLabels w D ell rho) (hr : D.reduction = .mean) (hm : 0 < m) {Ω : Type} [MeasurableSpace Ω]
    {μ : Measure Ω} {gen : Ω → G} (hN : NormalContract ext μ gen) {c : CostR} (hp : NormalSampled c) {sigma : ℝ} (hs : 0 < sigma) {S : Sampler} (hkind : S.kind = .noLabelsCost)
    (hgen : S.generating_cost = some c) (hsig : S.sigma = some sigma) (hseed : S.seed = none) (hD : D.sampler = some S)
    (hell : Measurable (lossAt0 w ell))
    (hint : ∀ i, Integrable (fun z => Real.exp ((lossAt0 w ell z - D.lam * moveCost D X i z) / D.epsilon))
      (Measure.pi fun k => gaussianReal (X i k) (sigma.toNNReal ^ 2)))
    {δ : ℝ} (hδ : 0 < δ) :
    Filter.Tendsto (fun n => μ {ω | ¬ ∃ v D' g', postForward ext { D with nSamples := n } (mat X) none true (gen ω) = .ok (.val v, D', g') ∧
      |v.get [] - populationU D.lam rho D.cost.power D.epsilon (lossAt0 w ell) (moveCost D X)
        (fun i => Measure.pi fun k => gaussianReal (X i k) (sigma.toNNReal ^ 2))| < δ}) Filter.atTop (𝓝 0) := by
  have key := C96_in_probability_unlabelled ext (X := X) h hr hm (Ω := fun _ => Ω) (fun _ => μ) (noiseAround sigma X)
    (fun n ω => drawn ext sigma X (gen ω) n) (fun n => (drawn_law ext hN sigma X n).1) (fun n => (drawn_law ext hN sigma X n).2) hell
    (fun i => by rw [noise_marginal hs]; exact hint i) hδ
  simp only [noise_marginal hs] at key
  refine key.congr' ?_
  filter_upwards [Filter.eventually_gt_atTop 0] with n hn
  congr 1
  ext ω
  simp only [Set.mem_ofPred_eq]
  have hn' : NoLabels w { D with nSamples := n } ell rho :=
    ⟨h.primal, h.hasLabels, h.reduceSpatial, h.s_pos, h.rows, h.kind, h.order, h.rho_eq, h.rho_pos, h.eps_pos, h.erm, h.imp⟩
  obtain ⟨v, D', g', hf, hv⟩ := forward_drawn ext (X := X) hn' hr hm hp hs hkind hgen hsig hseed hD (gen ω) hn
  have hval : v.get [] = num (computeDual ext D (mat X) none (ten (drawn ext sigma X (gen ω) n)) none) := by
    rw [hv, num_samples0 ext hn' hr hm hn, num_samples0 ext h hr hm hn]
    rfl
  rw [hf, ← hval]
  constructor
  · rintro hle ⟨v', D'', g'', he, hlt⟩
    simp only [Except.ok.injEq, Prod.mk.injEq, DualVal.val.injEq] at he
    rw [← he.1] at hlt
    linarith
  · intro hno
    by_contra hlt
    exact hno ⟨v, D', _, rfl, not_le.1 hlt⟩

/-- **C113** Without labels, through the forward pass: with at least `log(2 m / δ) / (2 σ^2)` samples per point the value returned is within `t`
of the exact objective with probability at least `1 - δ`. -/
theorem C113_forward_unlabelled (h : NoLabels w D ell rho) (hr : D.reduction = .mean) (hm : 0 < m) {Ω : Type} [MeasurableSpace Ω]
    {μ : Measure Ω} [IsProbabilityMeasure μ] {gen : Ω → G} (hN : NormalContract ext μ gen) {c : CostR} (hp : NormalSampled c) {sigma : ℝ} (hsg : 0 < sigma) {S : Sampler} (hkind : S.kind = .noLabelsCost)
    (hgen : S.generating_cost = some c) (hsig : S.sigma = some sigma) (hseed : S.seed = none) (hD : D.sampler = some S)
    (hell : Measurable (lossAt0 w ell)) (B : Fin m → ℝ)
    (hB : ∀ i, ∀ᵐ z ∂(Measure.pi fun k => gaussianReal (X i k) (sigma.toNNReal ^ 2)), lossAt0 w ell z - D.lam * moveCost D X i z ≤ B i)
    {t δ σ : ℝ} (ht : 0 < t) (hδ : 0 < δ) (hσ : 0 < σ) (hs : ∀ i, σ ≤ (1 - Real.exp (-(t / D.epsilon))) *
      ∫ z, Real.exp ((lossAt0 w ell z - D.lam * moveCost D X i z - B i) / D.epsilon)
        ∂(Measure.pi fun k => gaussianReal (X i k) (sigma.toNNReal ^ 2)))
    (hn : 0 < D.nSamples) (hbig : Real.log (2 * m / δ) / (2 * σ ^ 2) ≤ D.nSamples) :
    1 - δ ≤ μ.real {ω | ∃ v D' g', postForward ext D (mat X) none true (gen ω) = .ok (.val v, D', g') ∧
      |v.get [] - populationU D.lam rho D.cost.power D.epsilon (lossAt0 w ell) (moveCost D X)
        (fun i => Measure.pi fun k => gaussianReal (X i k) (sigma.toNNReal ^ 2))| < t} := by
  have key := C113_enough_unlabelled ext (X := X) h hr hm hn μ (noiseAround sigma X) (fun ω => drawn ext sigma X (gen ω) D.nSamples)
    (drawn_law ext hN sigma X _).1 (drawn_law ext hN sigma X _).2 hell B (fun i => by rw [noise_marginal hsg]; exact hB i) ht hδ hσ
    (fun i => by rw [noise_marginal hsg]; exact hs i) hbig
  simp only [noise_marginal hsg] at key
  set A := {ω | t ≤ |num (computeDual ext D (mat X) none (ten (drawn ext sigma X (gen ω) D.nSamples)) none) -
      populationU D.lam rho D.cost.power D.epsilon (lossAt0 w ell) (moveCost D X)
        (fun i => Measure.pi fun k => gaussianReal (X i k) (sigma.toNNReal ^ 2))|} with hA
  refine le_trans ?_ (measureReal_mono (s₁ := Aᶜ) ?_ (measure_ne_top _ _))
  · have h1 : (1 : ℝ) ≤ μ.real A + μ.real Aᶜ := by
      have := measureReal_union_le (μ := μ) A Aᶜ
      rw [Set.union_compl_self, probReal_univ] at this
      exact this
    linarith
  · intro ω hω
    simp only [hA, Set.mem_compl_iff, Set.mem_ofPred_eq, not_le] at hω ⊢
    obtain ⟨v, D', g', hf, hv⟩ := forward_drawn ext (X := X) h hr hm hp hsg hkind hgen hsig hseed hD (gen ω) hn
    exact ⟨v, D', g', hf, by rw [hv]; exact hω⟩

end

/-! ### The hypotheses can be met: the squared norm, quadratic cost, multiplier 2, two data points -/

/-- the loss `z^2` with the squared Euclidean cost, multiplier 2 and the sampler of that cost -/
noncomputable def exU (n : ℕ) : DualLoss :=
  { exD with
    primal := exW0.value, hasLabels := false, lam := 2, nSamples := n
    cost := ⟨.normCost, .fin 2, 2, .nan⟩
    sampler := some ⟨.noLabelsCost, none, .normal (mat exX) (.fin 1), none, some ⟨.normCost, .fin 2, 2, .nan⟩, some 1, none⟩ }

theorem exU_noLabels (n : ℕ) : NoLabels (d := 1) (s := 1) exW0 (exU n) (fun x c => x c ^ 2) 1 :=
  ⟨rfl, rfl, rfl, by norm_num, sqNorm_rowWise0, rfl, Or.inl ⟨2, by norm_num, rfl⟩, rfl, by norm_num, by norm_num [exU, exD], rfl, rfl⟩

theorem exU_loss (z : Fin 1 → ℝ) : lossAt0 exW0 (fun (x : Fin 1 → ℝ) (c : Fin 1) => x c ^ 2) z = z 0 ^ 2 + 9 := by
  simp [lossAt0, avg, ridge, exW0]
  norm_num

theorem exU_cost (n : ℕ) (i : Fin 2) (z : Fin 1 → ℝ) : moveCost (exU n) exX i z = (exX i 0 - z 0) ^ 2 := by
  simp only [moveCost, exU, pnorm, Fin.sum_univ_one, Fin.isValue]
  rw [← Real.rpow_mul (abs_nonneg _)]
  norm_num

theorem exU_measurable : Measurable (lossAt0 exW0 (fun (x : Fin 1 → ℝ) (c : Fin 1) => x c ^ 2)) := by
  rw [show lossAt0 exW0 (fun (x : Fin 1 → ℝ) (c : Fin 1) => x c ^ 2) = fun z => z 0 ^ 2 + 9 from funext exU_loss]
  exact ((measurable_pi_apply 0).pow_const 2).add_const _

/-- `z^2 + 9 - 2 (x - z)^2` is at most `2 x^2 + 9` -/
theorem exU_bound (n : ℕ) (i : Fin 2) (z : Fin 1 → ℝ) :
    lossAt0 exW0 (fun (x : Fin 1 → ℝ) (c : Fin 1) => x c ^ 2) z - (exU n).lam * moveCost (exU n) exX i z ≤ 2 * exX i 0 ^ 2 + 9 := by
  rw [exU_loss, exU_cost]
  show z 0 ^ 2 + 9 - 2 * (exX i 0 - z 0) ^ 2 ≤ _
  nlinarith [sq_nonneg (z 0 - 2 * exX i 0)]

theorem exU_exp (n : ℕ) (i : Fin 2) (nu : Measure (Fin 1 → ℝ)) [IsProbabilityMeasure nu] :
    Integrable (fun z => Real.exp ((lossAt0 exW0 (fun (x : Fin 1 → ℝ) (c : Fin 1) => x c ^ 2) z - (exU n).lam * moveCost (exU n) exX i z) /
      (exU n).epsilon)) nu := by
  refine Integrable.of_mem_Icc 0 (Real.exp (2 * exX i 0 ^ 2 + 9))
    (Real.measurable_exp.comp (exponent_measurable0 (D := exU n) (X := exX) exU_measurable i)).aemeasurable
    (Filter.Eventually.of_forall fun z => ⟨(Real.exp_pos _).le, Real.exp_le_exp.2 ?_⟩)
  have := exU_bound n i z
  rw [show (exU n).epsilon = 1 from rfl, div_one]
  exact this

example (n : ℕ) {δ : ℝ} (hδ : 0 < δ) := C96_forward_unlabelled bankExt (X := exX) (exU_noLabels n) rfl (by norm_num) bank_contract
  (c := ⟨.normCost, .fin 2, 2, .nan⟩) (Or.inl ⟨rfl, Or.inr rfl⟩) (sigma := 1) one_pos rfl rfl rfl rfl rfl exU_measurable (fun i => exU_exp n i _) hδ

/-- with the sampler of the max-norm cost of power 1 -/
example (n : ℕ) {δ : ℝ} (hδ : 0 < δ) :=
  C96_forward_unlabelled bankExt (X := exX) (w := exW0) (ell := fun (x : Fin 1 → ℝ) (c : Fin 1) => x c ^ 2) (rho := 1)
  (D := { exU n with sampler := some ⟨.noLabelsCost, none, .normal (mat exX) (.fin 1), none, some ⟨.normCost, .pinf, 1, .nan⟩, some 1, none⟩ })
  ⟨(exU_noLabels n).primal, (exU_noLabels n).hasLabels, (exU_noLabels n).reduceSpatial, (exU_noLabels n).s_pos, (exU_noLabels n).rows, (exU_noLabels n).kind,
    (exU_noLabels n).order, (exU_noLabels n).rho_eq, (exU_noLabels n).rho_pos, (exU_noLabels n).eps_pos, (exU_noLabels n).erm, (exU_noLabels n).imp⟩
  rfl (by norm_num) bank_contract (c := ⟨.normCost, .pinf, 1, .nan⟩) (Or.inr ⟨rfl, rfl⟩) (sigma := 1) one_pos rfl rfl rfl rfl rfl exU_measurable
  (fun i => exU_exp n i _) hδ

/-- the whole theorem on the number of samples: some number of samples meets every hypothesis -/
example {t δ : ℝ} (ht : 0 < t) (hδ : 0 < δ) : ∃ n, 0 < n ∧ 1 - δ ≤ bankLaw.real {ω | ∃ v D' g', postForward bankExt (exU n) (mat exX) none true ω =
    .ok (.val v, D', g') ∧ |v.get [] - populationU 2 1 2 1 (lossAt0 exW0 (fun (x : Fin 1 → ℝ) (c : Fin 1) => x c ^ 2)) (moveCost (exU n) exX)
      (fun i => Measure.pi fun k => gaussianReal (exX i k) ((1 : ℝ).toNNReal ^ 2))| < t} := by
  let I : Fin 2 → ℝ := fun i => ∫ z, Real.exp ((lossAt0 exW0 (fun (x : Fin 1 → ℝ) (c : Fin 1) => x c ^ 2) z -
    (exU 0).lam * moveCost (exU 0) exX i z - (2 * exX i 0 ^ 2 + 9)) / (exU 0).epsilon) ∂(Measure.pi fun k => gaussianReal (exX i k) ((1 : ℝ).toNNReal ^ 2))
  have hI : ∀ i, 0 < I i := by
    intro i
    refine integral_exp_pos ?_
    have := (exU_exp 0 i (Measure.pi fun k => gaussianReal (exX i k) ((1 : ℝ).toNNReal ^ 2))).mul_const (Real.exp (-(2 * exX i 0 ^ 2 + 9)))
    refine this.congr (Filter.Eventually.of_forall fun z => ?_)
    simp only [← Real.exp_add]
    rw [show (exU 0).epsilon = 1 from rfl]
    congr 1
    ring
  have he : 0 < 1 - Real.exp (-(t / 1)) := by
    have : Real.exp (-(t / 1)) < 1 := Real.exp_lt_one_iff.2 (by simpa using ht)
    linarith
  obtain ⟨n, hn⟩ := exists_nat_ge (Real.log (2 * ((2 : ℕ) : ℝ) / δ) / (2 * ((1 - Real.exp (-(t / 1))) * min (I 0) (I 1)) ^ 2))
  refine ⟨n + 1, Nat.succ_pos n, ?_⟩
  have hmin : 0 < min (I 0) (I 1) := lt_min (hI 0) (hI 1)
  refine C113_forward_unlabelled bankExt (X := exX) (exU_noLabels (n + 1)) rfl (by norm_num) bank_contract
    (c := ⟨.normCost, .fin 2, 2, .nan⟩) (Or.inl ⟨rfl, Or.inr rfl⟩) (sigma := 1) one_pos rfl rfl rfl rfl rfl exU_measurable (fun i => 2 * exX i 0 ^ 2 + 9)
    (fun i => Filter.Eventually.of_forall fun z => exU_bound _ i z) ht hδ (mul_pos he hmin) (fun i => ?_) (Nat.succ_pos n)
    (hn.trans (by show (n : ℝ) ≤ ((n + 1 : ℕ) : ℝ); push_cast; linarith))
  refine mul_le_mul_of_nonneg_left ?_ he.le
  fin_cases i
  · exact min_le_left _ _
  · exact min_le_right _ _

/-- normal noise of standard deviation 1 around the first coordinate of a data point: what it integrates -/
theorem exU_quadratic (i : Fin 2) (a b c : ℝ) :
    Integrable (fun z : Fin 1 → ℝ => a * z 0 ^ 2 + b * z 0 + c) ((noiseAround 1 exX).map fun u => u i) := by
  rw [noise_marginal one_pos]
  have h0 : Integrable (fun t : ℝ => a * t ^ 2 + b * t + c) (gaussianReal (exX i 0) ((1 : ℝ).toNNReal ^ 2)) := by
    have hL := memLp_id_gaussianReal (μ := exX i 0) (v := (1 : ℝ).toNNReal ^ 2) 2
    exact ((hL.integrable_sq.const_mul a).add ((hL.integrable (by norm_num)).const_mul b)).add (integrable_const c)
  exact (measurePreserving_eval (fun k : Fin 1 => gaussianReal (exX i k) ((1 : ℝ).toNNReal ^ 2)) 0).integrable_comp_of_integrable h0

theorem exU_exponent (n : ℕ) (i : Fin 2) (z : Fin 1 → ℝ) :
    (lossAt0 exW0 (fun (x : Fin 1 → ℝ) (c : Fin 1) => x c ^ 2) z - (exU n).lam * moveCost (exU n) exX i z) / (exU n).epsilon =
      -1 * z 0 ^ 2 + 4 * exX i 0 * z 0 + (9 - 2 * exX i 0 ^ 2) := by
  rw [exU_loss, exU_cost, show (exU n).epsilon = 1 from rfl, show (exU n).lam = 2 from rfl]
  ring

theorem exU_lin (n : ℕ) (i : Fin 2) :
    Integrable (fun z => (lossAt0 exW0 (fun (x : Fin 1 → ℝ) (c : Fin 1) => x c ^ 2) z - (exU n).lam * moveCost (exU n) exX i z) / (exU n).epsilon)
      ((noiseAround 1 exX).map fun u => u i) := by
  simp only [exU_exponent]
  exact exU_quadratic i _ _ _

instance (i : Fin 2) : IsProbabilityMeasure ((noiseAround 1 exX).map fun u => u i) :=
  Measure.isProbabilityMeasure_map (measurable_pi_apply i).aemeasurable

example := C97_underestimates_unlabelled ext (X := exX) (exU_noLabels 1) rfl (by norm_num) (noiseAround 1 exX) exU_measurable (exU_lin 1)
  (fun i => exU_exp 1 i _) (n := 5) (by norm_num)
example := C97_more_samples_unlabelled ext (X := exX) (exU_noLabels 1) rfl (by norm_num) (noiseAround 1 exX) exU_measurable (exU_lin 1)
  (fun i => exU_exp 1 i _) (n := 5) (n' := 8) (by norm_num) (by norm_num)

/-- independent samples of the noise around the data -/
noncomputable def exUSeq : Measure (ℕ → Fin 2 → Fin 1 → ℝ) := Measure.infinitePi fun _ => noiseAround 1 exX

instance : IsProbabilityMeasure exUSeq := by unfold exUSeq; infer_instance

theorem exUSeq_law (j : ℕ) (i : Fin 2) : exUSeq.map (fun ω => ω j i) = (noiseAround 1 exX).map fun u => u i := by
  have : exUSeq.map (fun ω => ω j) = noiseAround 1 exX := Measure.infinitePi_map_eval _ j
  rw [← this, Measure.map_map (measurable_pi_apply i) (measurable_pi_apply j)]; rfl

theorem exUSeq_indep (i : Fin 2) : Pairwise fun j j' : ℕ => IndepFun (fun ω : ℕ → Fin 2 → Fin 1 → ℝ => ω j i) (fun ω => ω j' i) exUSeq := by
  intro j j' hj
  have hind : iIndepFun (fun (j : ℕ) (ω : ℕ → Fin 2 → Fin 1 → ℝ) => ω j) exUSeq := iIndepFun_infinitePi (X := fun _ u => u) (fun _ => measurable_id)
  exact (hind.indepFun hj).comp (measurable_pi_apply i) (measurable_pi_apply i)

example := C96_almost_sure_unlabelled ext (X := exX) (exU_noLabels 1) rfl (by norm_num) (μ := exUSeq) (fun j i ω => ω j i) _
  (fun j i => (measurable_pi_apply i).comp (measurable_pi_apply j)) exUSeq_law exUSeq_indep exU_measurable (fun i => exU_exp 1 i _)

/-- normal noise of standard deviation 1 spends exactly the squared radius 1: it is itself an adversary -/
theorem exU_adversary : Adversary0 (moveCost (exU 1) exX) (lossAt0 exW0 (fun (x : Fin 1 → ℝ) (c : Fin 1) => x c ^ 2))
    (fun i => (noiseAround 1 exX).map fun u => u i) (fun i => (noiseAround 1 exX).map fun u => u i) (1 ^ (exU 1).cost.power) := by
  refine ⟨fun i => inferInstance, fun i => by simp [klDiv_self], fun i => ?_, fun i => ?_, ?_⟩
  · rw [show lossAt0 exW0 (fun (x : Fin 1 → ℝ) (c : Fin 1) => x c ^ 2) = fun z => 1 * z 0 ^ 2 + 0 * z 0 + 9 from
      funext fun z => by rw [exU_loss]; ring]
    exact exU_quadratic i _ _ _
  · rw [show moveCost (exU 1) exX i = fun z => 1 * z 0 ^ 2 + (-2 * exX i 0) * z 0 + exX i 0 ^ 2 from funext fun z => by rw [exU_cost]; ring]
    exact exU_quadratic i _ _ _
  · have h1 : ∀ i : Fin 2, ∫ z, moveCost (exU 1) exX i z ∂((noiseAround 1 exX).map fun u => u i) = 1 := by
      intro i
      have hm1 : Measurable fun (e : Fin 1 → ℝ) r => exX i r + 1 * e r :=
        measurable_pi_lambda _ fun r => ((measurable_pi_apply r).const_mul _).const_add _
      rw [noise_marginal one_pos, ← noise_law one_pos, integral_map hm1.aemeasurable (moveCost_measurable i).aestronglyMeasurable]
      simp only [exU_cost]
      have e : (fun e : Fin 1 → ℝ => (exX i 0 - (exX i 0 + 1 * e 0)) ^ 2) = fun e => (fun t : ℝ => t ^ 2) (e 0) := by
        funext e; ring
      rw [e]
      have hmp := measurePreserving_eval (fun _ : Fin 1 => gaussianReal 0 1) 0
      have h2 := integral_map (μ := Measure.pi fun _ : Fin 1 => gaussianReal 0 1) (φ := fun e : Fin 1 → ℝ => e 0) hmp.measurable.aemeasurable
        (f := fun t : ℝ => t ^ 2) (measurable_id.pow_const 2).aestronglyMeasurable
      rw [← h2]
      have h3 : Measure.map (fun e : Fin 1 → ℝ => e 0) (Measure.pi fun _ : Fin 1 => gaussianReal 0 1) = gaussianReal 0 1 := hmp.map_eq
      rw [h3, gaussian_sq]
    simp only [h1]
    simp [avg]

example {δ : ℝ} (hδ : 0 < δ) := C98_covers_adversaries_unlabelled ext (X := exX) (exU_noLabels 1) rfl (by norm_num) (by norm_num [exU])
  (μ := exUSeq) (fun j i ω => ω j i) _ (fun j i => (measurable_pi_apply i).comp (measurable_pi_apply j)) exUSeq_law exUSeq_indep exU_measurable
  (fun i => exU_exp 1 i _) _ exU_adversary hδ

theorem exU_tilted (i : Fin 2) {f : (Fin 1 → ℝ) → ℝ} (hf : Integrable f ((noiseAround 1 exX).map fun u => u i)) :
    Integrable f (((noiseAround 1 exX).map fun u => u i).tilted fun z =>
      (lossAt0 exW0 (fun (x : Fin 1 → ℝ) (c : Fin 1) => x c ^ 2) z - (exU 1).lam * moveCost (exU 1) exX i z) / (exU 1).epsilon) := by
  rw [integrable_tilted_iff (exU_exp 1 i _)]
  simp only [smul_eq_mul]
  refine hf.bdd_mul (c := Real.exp (2 * exX i 0 ^ 2 + 9))
    (Real.measurable_exp.comp (exponent_measurable0 (D := exU 1) (X := exX) exU_measurable i)).aestronglyMeasurable
    (Filter.Eventually.of_forall fun z => ?_)
  rw [Real.norm_eq_abs, abs_of_pos (Real.exp_pos _), show (exU 1).epsilon = 1 from rfl, div_one]
  exact Real.exp_le_exp.2 (exU_bound 1 i z)

example := C98_worst_case_unlabelled (X := exX) (exU_noLabels 1) (fun i => (noiseAround 1 exX).map fun u => u i) (fun i => exU_exp 1 i _)
  (Q := fun i => ((noiseAround 1 exX).map fun u => u i).tilted fun z =>
    (lossAt0 exW0 (fun (x : Fin 1 → ℝ) (c : Fin 1) => x c ^ 2) z - (exU 1).lam * moveCost (exU 1) exX i z) / (exU 1).epsilon)
  (fun _ => rfl) (fun i => exU_tilted i (exU_adversary.loss_int i)) (fun i => exU_tilted i (exU_adversary.cost_int i))

end Skwdro
