import Verif.Props.LabelNoiseForward
import Verif.Props.LaplaceWorstCase

/-!
# C96 and C147 with the sampler of a 1-norm label cost: inputs and labels are both perturbed by Laplace noise
-/

namespace Skwdro
open Spec Tensor MeasureTheory ProbabilityTheory Filter
open scoped Topology

variable {G : Type} (ext : TorchExt G)

/-- torch's contract for two successive Laplace draws: from a random generator state, the entries of both drawn tensors are independent standard Laplace variables -/
def LaplaceContract2 {Ω : Type} [MeasurableSpace Ω] (μ : Measure Ω) (gen : Ω → G) : Prop :=
  ∀ n m d k : ℕ,
    _root_.Measurable (fun ω => ((fun (j : Fin n) (i : Fin m) (r : Fin d) => (ext.stdLaplace (gen ω) [n, m, d]).1.get [j, i, r]),
      (fun (j : Fin n) (i : Fin m) (r : Fin k) => (ext.stdLaplace (ext.stdLaplace (gen ω) [n, m, d]).2 [n, m, k]).1.get [j, i, r]))) ∧
    μ.map (fun ω => ((fun (j : Fin n) (i : Fin m) (r : Fin d) => (ext.stdLaplace (gen ω) [n, m, d]).1.get [j, i, r]),
      (fun (j : Fin n) (i : Fin m) (r : Fin k) => (ext.stdLaplace (ext.stdLaplace (gen ω) [n, m, d]).2 [n, m, k]).1.get [j, i, r]))) =
      (Measure.pi fun _ => Measure.pi fun _ => Measure.pi fun _ => laplaceLaw).prod
        (Measure.pi fun _ => Measure.pi fun _ => Measure.pi fun _ => laplaceLaw)

/-- independent standard Laplace variables for one input and its label -/
noncomputable abbrev unitLaplace (d k : ℕ) : Measure ((Fin d → ℝ) × (Fin k → ℝ)) :=
  (Measure.pi fun _ : Fin d => laplaceLaw).prod (Measure.pi fun _ : Fin k => laplaceLaw)

/-- the law of one sample of a data point `(x, y)`: Laplace noise of scale `sigma` on the input and `tau` on the label -/
noncomputable def sampleLawL2 {d k : ℕ} (sigma tau : ℝ) (x : Fin d → ℝ) (y : Fin k → ℝ) : Measure ((Fin d → ℝ) × (Fin k → ℝ)) :=
  (unitLaplace d k).map (noised sigma tau x y)

instance {d k : ℕ} (sigma tau : ℝ) (x : Fin d → ℝ) (y : Fin k → ℝ) : IsProbabilityMeasure (sampleLawL2 sigma tau x y) :=
  Measure.isProbabilityMeasure_map (noised_continuous sigma tau x y).measurable.aemeasurable

section
variable {m d k s : ℕ} {w : WLoss} {D : DualLoss} {ell : (Fin d → ℝ) → (Fin k → ℝ) → Fin s → ℝ} {rho : ℝ}
  {X : Fin m → Fin d → ℝ} {Y : Fin m → Fin k → ℝ}

/-- what the sampler of a label cost draws once re-centred on the batch: the input noise first, then the label noise -/
theorem label_sampler_draws_laplace {c : CostR} (hk : c.kind = .normLabelCost) (hp : c.p = .fin 1) (hpow : c.power = 1) {sigma tau kappa : ℝ} (hs : 0 < sigma) (hkap : 0 < kappa)
    (hkappa : c.kappa = .fin kappa) (htau : tau = sigma / kappa) {S : Sampler} (hkind : S.kind = .labeledCost)
    (hgen : S.generating_cost = some c) (hsig : S.sigma = some sigma) (hseed : S.seed = none) (X : Fin m → Fin d → ℝ) (Y : Fin m → Fin k → ℝ) (g : G) :
    ∃ S', S.resetMean ext (mat X) (some (mat Y)) g = .ok (S', g) ∧ ∀ n,
      IsTen (S'.sample ext n g).1 (fun (j : Fin n) i r => X i r + sigma * (ext.stdLaplace g [n, m, d]).1.get [j, i, r]) ∧
      ∃ t, (S'.sample ext n g).2.1 = some t ∧
        IsTen t (fun (j : Fin n) i r => Y i r + tau * (ext.stdLaplace (ext.stdLaplace g [n, m, d]).2 [n, m, k]).1.get [j, i, r]) := by
  have hd : samplerData c (mat X) (some sigma) = .ok (.laplace (mat X) (.fin sigma)) := by
    simp [samplerData, hpow, hp, defaultEps, mkLaplace, validScale, hs]
  have hl : samplerLabels c (some (mat Y)) (some sigma) = .ok (some (.laplace (mat Y) (.fin tau))) := by
    subst htau
    simp [samplerLabels, hk, samplerLabelsNLC, hkappa, hpow, hp, scaleOver, hkap.ne', defaultEps, mkLaplace, validScale, hs, div_pos hs hkap, Except.map]
  refine ⟨_, by simp [Sampler.resetMean, hkind, hgen, hsig, hseed, mkLabeledCost, hd, hl, seedGlobal]; rfl, fun n => ?_⟩
  refine ⟨⟨rfl, fun j i r => ?_⟩, _, rfl, rfl, fun j i r => ?_⟩
  · show (mat X).get [(i : ℕ), (r : ℕ)] + scaleVal (.fin sigma) * _ = _
    rw [(isMat_mat X).2 i r]; rfl
  · show (mat Y).get [(i : ℕ), (r : ℕ)] + scaleVal (.fin tau) * _ = _
    rw [(isMat_mat Y).2 i r]; rfl

/-- **C96** Through the forward pass, with labels that move: with an unseeded sampler of a 1-norm label cost of power 1 and positive weight, the value returned
with `n` samples per point tends in probability to the robust objective with exact expectations under Laplace noise on inputs and labels; the
scale of the label noise is that of the inputs divided by the weight. -/
theorem C96_forward_label_noise_laplace (h : Labelled w D ell rho) (hr : D.reduction = .mean) (hm : 0 < m) {Ω : Type} [MeasurableSpace Ω] {μ : Measure Ω}
    [IsProbabilityMeasure μ] {gen : Ω → G} (hN : LaplaceContract2 ext μ gen) {c : CostR} (hk : c.kind = .normLabelCost) (hp : c.p = .fin 1) (hpow : c.power = 1)
    {sigma tau kappa : ℝ} (hs : 0 < sigma) (hkap : 0 < kappa) (hkappa : c.kappa = .fin kappa)
    (htau : tau = sigma / kappa) {S : Sampler} (hkind : S.kind = .labeledCost)
    (hgen : S.generating_cost = some c) (hsig : S.sigma = some sigma) (hseed : S.seed = none) (hD : D.sampler = some S)
    (hell : _root_.Measurable fun u : (Fin d → ℝ) × (Fin k → ℝ) => lossAt w ell u.1 u.2)
    (hint : ∀ i, Integrable (fun u => Real.exp ((lossAt w ell u.1 u.2 - D.lam * costAt D.cost (X i) u.1 (Y i) u.2) / D.epsilon))
      (sampleLawL2 sigma tau (X i) (Y i)))
    {δ : ℝ} (hδ : 0 < δ) :
    Tendsto (fun n => μ {ω | ¬ ∃ v D' g', postForward ext { D with nSamples := n } (mat X) (some (mat Y)) true (gen ω) = .ok (.val v, D', g') ∧
      |v.get [] - population D.lam rho D.cost.power D.epsilon (lossAt w ell) (fun i z y => costAt D.cost (X i) z (Y i) y)
        (fun i => sampleLawL2 sigma tau (X i) (Y i))| < δ}) atTop (𝓝 0) := by
  let Gd : Measure (Fin m → Fin d → ℝ) := Measure.pi fun _ => Measure.pi fun _ => laplaceLaw
  let Gk : Measure (Fin m → Fin k → ℝ) := Measure.pi fun _ => Measure.pi fun _ => laplaceLaw
  let phi : (Fin m → Fin d → ℝ) × (Fin m → Fin k → ℝ) → Fin m → (Fin d → ℝ) × (Fin k → ℝ) :=
    fun e i => noised sigma tau (X i) (Y i) (e.1 i, e.2 i)
  have hmv : ∀ i, _root_.Measurable (noised sigma tau (X i) (Y i)) := fun i => (noised_continuous sigma tau (X i) (Y i)).measurable
  have hev : ∀ i, _root_.Measurable fun e : (Fin m → Fin d → ℝ) × (Fin m → Fin k → ℝ) => (e.1 i, e.2 i) := fun i =>
    ((measurable_pi_apply i).comp measurable_fst).prodMk ((measurable_pi_apply i).comp measurable_snd)
  have hphi : _root_.Measurable phi := measurable_pi_lambda _ fun i => (hmv i).comp (hev i)
  let kap := (Gd.prod Gk).map phi
  have : IsProbabilityMeasure kap := Measure.isProbabilityMeasure_map hphi.aemeasurable
  have hmarg : ∀ i, kap.map (fun u => u i) = sampleLawL2 sigma tau (X i) (Y i) := by
    intro i
    rw [Measure.map_map (measurable_pi_apply i) hphi]
    have : (fun u : Fin m → (Fin d → ℝ) × (Fin k → ℝ) => u i) ∘ phi = noised sigma tau (X i) (Y i) ∘ (fun e => (e.1 i, e.2 i)) := rfl
    rw [this, ← Measure.map_map (hmv i) (hev i)]
    have he : (Gd.prod Gk).map (fun e => (e.1 i, e.2 i)) = unitLaplace d k :=
      ((measurePreserving_eval (fun _ : Fin m => Measure.pi fun _ : Fin d => laplaceLaw) i).prod
        (measurePreserving_eval (fun _ : Fin m => Measure.pi fun _ : Fin k => laplaceLaw) i)).map_eq
    rw [he]
    rfl
  let E : ∀ n, Ω → (Fin n → Fin m → Fin d → ℝ) × (Fin n → Fin m → Fin k → ℝ) := fun n ω =>
    (fun j i r => (ext.stdLaplace (gen ω) [n, m, d]).1.get [j, i, r],
      fun j i r => (ext.stdLaplace (ext.stdLaplace (gen ω) [n, m, d]).2 [n, m, k]).1.get [j, i, r])
  let T : ∀ n, Ω → Fin n → Fin m → (Fin d → ℝ) × (Fin k → ℝ) := fun n ω j => phi ((E n ω).1 j, (E n ω).2 j)
  have hzip : ∀ n, _root_.Measurable fun (p : (Fin n → Fin m → Fin d → ℝ) × (Fin n → Fin m → Fin k → ℝ)) j => (p.1 j, p.2 j) := fun n =>
    measurable_pi_lambda _ fun j => ((measurable_pi_apply j).comp measurable_fst).prodMk ((measurable_pi_apply j).comp measurable_snd)
  have hPhi : ∀ n, _root_.Measurable fun (e : Fin n → (Fin m → Fin d → ℝ) × (Fin m → Fin k → ℝ)) j => phi (e j) :=
    fun n => measurable_pi_lambda _ fun j => hphi.comp (measurable_pi_apply j)
  have hT : ∀ n, _root_.Measurable (T n) := fun n => (hPhi n).comp ((hzip n).comp (hN n m d k).1)
  have hlaw : ∀ n, μ.map (T n) = Measure.pi fun _ => kap := by
    intro n
    have : T n = (fun (e : Fin n → (Fin m → Fin d → ℝ) × (Fin m → Fin k → ℝ)) j => phi (e j)) ∘ ((fun p j => (p.1 j, p.2 j)) ∘ E n) := rfl
    rw [this, ← Measure.map_map (hPhi n) ((hzip n).comp (hN n m d k).1), ← Measure.map_map (hzip n) (hN n m d k).1, (hN n m d k).2, zip_law]
    exact Measure.pi_map_pi (fun _ => hphi.aemeasurable)
  have key := C96_in_probability ext (X := X) (Y := Y) h hr hm (Ω := fun _ => Ω) (fun _ => μ) kap T hT hlaw hell (fun i => by
    have := hint i
    rw [← hmarg i] at this
    exact this.comp_measurable (measurable_pi_apply i)) hδ
  simp only [hmarg] at key
  refine key.congr' ?_
  filter_upwards [Filter.eventually_gt_atTop 0] with n hn
  congr 1
  ext ω
  simp only [Set.mem_ofPred_eq]
  obtain ⟨S', hS', hdraw⟩ := label_sampler_draws_laplace ext hk hp hpow hs hkap hkappa htau hkind hgen hsig hseed X Y (gen ω)
  obtain ⟨hz, t, ht, hy⟩ := hdraw n
  have hpl : Plain { D with nSamples := n } (mat X) (some (mat Y)) (S'.sample ext n (gen ω)).1 (S'.sample ext n (gen ω)).2.1 rho
      (fun j i => lossAt w ell (T n ω j i).1 (T n ω j i).2) (fun j i => costAt D.cost (X i) (T n ω j i).1 (Y i) (T n ω j i).2) := by
    rw [ht]
    exact plain_of_labelled (D := { D with nSamples := n }) (w := w) (ell := ell)
      ⟨h.primal, h.hasLabels, h.reduceSpatial, h.s_pos, h.rows, h.cost, h.rho_eq, h.rho_pos, h.eps_pos, h.erm, h.imp⟩ hn hm (isMat_mat X) hz
      (isMat_mat Y) hy
  obtain ⟨v, D', hf, -, hv⟩ := C29_formula_postsampled ext (D := { D with nSamples := n }) hD hS' hpl hr
  have hval : v.get [] = num (computeDual ext D (mat X) (some (mat Y)) (ten fun j i => (T n ω j i).1) (some (ten fun j i => (T n ω j i).2))) := by
    rw [hv.2, num_samples ext h hr hm hn (T n ω)]
    rfl
  rw [hf, ← hval]
  constructor
  · rintro hle ⟨v', D'', g', he, hlt⟩
    simp only [Except.ok.injEq, Prod.mk.injEq, DualVal.val.injEq] at he
    rw [← he.1] at hlt
    linarith
  · intro hno
    by_contra hlt
    exact hno ⟨v, D', _, rfl, not_le.1 hlt⟩

/-! ## The worst case over inputs and labels, Laplace noise -/

theorem sampleLawL2_open {sigma tau : ℝ} (hs : 0 < sigma) (ht : 0 < tau) (x : Fin d → ℝ) (y : Fin k → ℝ) : (sampleLawL2 sigma tau x y).IsOpenPosMeasure :=
  (noised_continuous sigma tau x y).isOpenPosMeasure_map (noised_surjective hs ht x y)

/-- **C147** With the Laplace sampler of a 1-norm label cost, a loss that is continuous in the input and the label and grows no faster than a label cost of positive weight: the expected losses under the
distributions of labelled points within transport distance `rho` of the data have a least upper bound `V`.  One multiplier makes the robust loss at most
`V`, up to any margin, at every temperature, and close to `V` at small temperatures; and below some temperature, no multiplier at all that keeps the
objective finite makes it smaller than `V` by a given margin: with a probability that tends to one as the number of samples grows. -/
theorem C147_worst_case_laplace (h : Labelled w D ell rho) (hr : D.reduction = .mean) (hm : 0 < m) {Ω : Type} [MeasurableSpace Ω] {μ : Measure Ω}
    [IsProbabilityMeasure μ] {gen : Ω → G} (hN : LaplaceContract2 ext μ gen) {c : CostR} (hk : c.kind = .normLabelCost) (hp : c.p = .fin 1) (hpow : c.power = 1)
    {sigma tau kappa kap : ℝ} (hs : 0 < sigma) (hkap : 0 < kappa) (hkappa : c.kappa = .fin kappa)
    (htau : tau = sigma / kappa) {S : Sampler} (hkind : S.kind = .labeledCost)
    (hgen : S.generating_cost = some c) (hsig : S.sigma = some sigma) (hseed : S.seed = none) (hD : D.sampler = some S)
    (hDk : D.cost.kind = .normLabelCost) (hDkap : 0 < kap) (hDkappa : D.cost.kappa = .fin kap) (hw : 0 < D.cost.power)
    (hcont : Continuous fun u : (Fin d → ℝ) × (Fin k → ℝ) => lossAt w ell u.1 u.2)
    (hgrow : ∃ lam0, 0 ≤ lam0 ∧ ∀ i, BddAbove (Set.range fun u : (Fin d → ℝ) × (Fin k → ℝ) =>
      lossAt w ell u.1 u.2 - lam0 * costAt D.cost (X i) u.1 (Y i) u.2)) :
    ∃ V, IsLUB {v | ∃ Q : Measure ((Fin d → ℝ) × (Fin k → ℝ)), InBall (fun i => (X i, Y i)) (fun a b => costAt D.cost a.1 b.1 a.2 b.2)
        (rho ^ D.cost.power) Q ∧ Integrable (fun u => lossAt w ell u.1 u.2) Q ∧ v = ∫ u, lossAt w ell u.1 u.2 ∂Q} V ∧
      (∃ lam, 0 ≤ lam ∧
        (∀ eps > 0, ∀ δ > 0, Tendsto (fun n => μ {ω | ¬ ∃ v D' g',
          postForward ext { D with lam := lam, epsilon := eps, nSamples := n } (mat X) (some (mat Y)) true (gen ω) = .ok (.val v, D', g') ∧
          v.get [] < V + δ}) atTop (𝓝 0)) ∧
        ∀ δ > 0, ∃ e0 > 0, ∀ eps, 0 < eps → eps ≤ e0 → Tendsto (fun n => μ {ω | ¬ ∃ v D' g',
          postForward ext { D with lam := lam, epsilon := eps, nSamples := n } (mat X) (some (mat Y)) true (gen ω) = .ok (.val v, D', g') ∧
          |v.get [] - V| < δ}) atTop (𝓝 0)) ∧
      ∀ δ > 0, ∃ e0 > 0, ∀ eps lam : ℝ, 0 < eps → eps ≤ e0 → 0 ≤ lam →
        (∀ i, Integrable (fun u => Real.exp ((lossAt w ell u.1 u.2 - lam * costAt D.cost (X i) u.1 (Y i) u.2) / eps)) (sampleLawL2 sigma tau (X i) (Y i))) →
        Tendsto (fun n => μ {ω | ¬ ∃ v D' g', postForward ext { D with lam := lam, epsilon := eps, nSamples := n } (mat X) (some (mat Y)) true (gen ω) =
          .ok (.val v, D', g') ∧ V - δ < v.get []}) atTop (𝓝 0) := by
  have ht : 0 < tau := htau ▸ div_pos hs hkap
  set cst : Fin m → (Fin d → ℝ) × (Fin k → ℝ) → ℝ := fun i u => costAt D.cost (X i) u.1 (Y i) u.2 with hcst
  set los : Fin m → (Fin d → ℝ) × (Fin k → ℝ) → ℝ := fun _ u => lossAt w ell u.1 u.2 with hlos
  have hcc : ∀ i, Continuous (cst i) := fun i => costAt_continuous hDk h.cost.order hDkap.le hDkappa hw (X i) (Y i)
  have hc0 : ∀ i, cst i (X i, Y i) = 0 := fun i => (C05_zero_iff D.cost hDk h.cost.order hDkap hDkappa hw _ _ _ _).2 ⟨rfl, rfl⟩
  have hcn : ∀ i u, 0 ≤ cst i u := fun i u => C05_nonneg D.cost hDk h.cost.order (Or.inr ⟨kap, hDkap.le, hDkappa⟩) _ _ _ _
  have hcg : ∀ (lam : ℝ) i, Continuous fun u => los i u - lam * cst i u := fun lam i => hcont.sub (continuous_const.mul (hcc i))
  have hrho : 0 < rho ^ D.cost.power := Real.rpow_pos_of_pos h.rho_pos _
  have hopen := fun i => sampleLawL2_open hs ht (X i) (Y i)
  have hball : {v | ∃ Q : Measure ((Fin d → ℝ) × (Fin k → ℝ)), InBall (fun i => (X i, Y i)) (fun a b => costAt D.cost a.1 b.1 a.2 b.2)
        (rho ^ D.cost.power) Q ∧ Integrable (fun u => lossAt w ell u.1 u.2) Q ∧ v = ∫ u, lossAt w ell u.1 u.2 ∂Q} =
      PlanLosses cst los (rho ^ D.cost.power) := by
    have hell := hcont.measurable
    ext v
    constructor
    · rintro ⟨Q, ⟨π, h1, h2, rfl, h3, h4⟩, h5, rfl⟩
      exact ⟨π, h1, h2, h3, (integrable_map_measure hell.aestronglyMeasurable measurable_snd.aemeasurable).1 h5, h4,
        integral_map measurable_snd.aemeasurable hell.aestronglyMeasurable⟩
    · rintro ⟨π, h1, h2, h3, h4, h5, rfl⟩
      exact ⟨π.map Prod.snd, ⟨π, h1, h2, rfl, h3, h5⟩, (integrable_map_measure hell.aestronglyMeasurable measurable_snd.aemeasurable).2 h4,
        (integral_map measurable_snd.aemeasurable hell.aestronglyMeasurable).symm⟩
  obtain ⟨lam, hlam, hbd, hlub⟩ := transport_duality (c := cst) (l := los) hm hrho (fun i => (X i, Y i)) hc0 hcn hgrow
  rw [hball]
  have hfwd : ∀ (lam eps δ : ℝ), 0 < eps → 0 < δ → (∀ i, Integrable (fun u => Real.exp ((los i u - lam * cst i u) / eps)) (sampleLawL2 sigma tau (X i) (Y i))) →
      Tendsto (fun n => μ {ω | ¬ ∃ v D' g', postForward ext { D with lam := lam, epsilon := eps, nSamples := n } (mat X) (some (mat Y)) true (gen ω) =
        .ok (.val v, D', g') ∧ |v.get [] - (lam * rho ^ D.cost.power + avg fun i => eps * Real.log (∫ u, Real.exp ((los i u - lam * cst i u) / eps)
          ∂(sampleLawL2 sigma tau (X i) (Y i))))| < δ}) atTop (𝓝 0) := fun lam eps δ he hδ hi =>
    C96_forward_label_noise_laplace ext (tempered_labelled (priced_labelled h lam) he) hr hm hN hk hp hpow hs hkap hkappa htau hkind hgen hsig hseed hD
      hcont.measurable hi hδ
  have hup : ∀ eps > 0, lam * rho ^ D.cost.power + (avg fun i => eps * Real.log (∫ u, Real.exp ((los i u - lam * cst i u) / eps)
      ∂(sampleLawL2 sigma tau (X i) (Y i)))) ≤ lam * rho ^ D.cost.power + avg fun i => sSup (Set.range fun u => los i u - lam * cst i u) := fun eps he =>
    add_le_add_right (avg_mono fun i => temperature_upper (hcg lam i) (fun z => le_csSup (hbd i) ⟨z, rfl⟩) he) _
  have hintg : ∀ eps > 0, ∀ i, Integrable (fun u => Real.exp ((los i u - lam * cst i u) / eps)) (sampleLawL2 sigma tau (X i) (Y i)) := fun eps he i =>
    temperature_integrable (hcg lam i) (fun z => le_csSup (hbd i) ⟨z, rfl⟩) he
  have hlow := fun (δ : ℝ) (hδ : 0 < δ) => uniform_temperature (nu := fun i => sampleLawL2 sigma tau (X i) (Y i)) hm (fun _ => hcont) hcc
    (fun i => (X i, Y i)) hc0 hrho hlub (half_pos hδ)
  refine ⟨_, hlub, ⟨lam, hlam, fun eps he δ hδ => ?_, fun δ hδ => ?_⟩, fun δ hδ => ?_⟩
  · refine tendsto_of_tendsto_of_tendsto_of_le_of_le tendsto_const_nhds (hfwd lam eps δ he hδ (hintg eps he)) (fun n => zero_le) fun n => measure_mono ?_
    intro ω hω hgood
    obtain ⟨v, D', g', hf, hv⟩ := hgood
    refine hω ⟨v, D', g', hf, ?_⟩
    have h1 := hup eps he
    have h2 := (abs_lt.1 hv).2
    linarith
  · obtain ⟨e0, he0, hl⟩ := hlow δ hδ
    refine ⟨e0, he0, fun eps he hle => ?_⟩
    refine tendsto_of_tendsto_of_tendsto_of_le_of_le tendsto_const_nhds (hfwd lam eps (δ / 2) he (half_pos hδ) (hintg eps he)) (fun n => zero_le)
      fun n => measure_mono ?_
    intro ω hω hgood
    obtain ⟨v, D', g', hf, hv⟩ := hgood
    refine hω ⟨v, D', g', hf, ?_⟩
    have h1 := hup eps he
    have h2 := abs_lt.1 hv
    have h3 := hl eps lam he hle hlam (hintg eps he)
    rw [abs_lt]
    constructor <;> linarith [h2.1, h2.2]
  · obtain ⟨e0, he0, hl⟩ := hlow δ hδ
    refine ⟨e0, he0, fun eps lam' he hle hlam' hi => ?_⟩
    refine tendsto_of_tendsto_of_tendsto_of_le_of_le tendsto_const_nhds (hfwd lam' eps (δ / 2) he (half_pos hδ) hi) (fun n => zero_le)
      fun n => measure_mono ?_
    intro ω hω hgood
    obtain ⟨v, D', g', hf, hv⟩ := hgood
    refine hω ⟨v, D', g', hf, ?_⟩
    have h1 := hl eps lam' he hle hlam' hi
    have h2 := (abs_lt.1 hv).1
    linarith

end

/-! ### The hypotheses can be met: absolute error, the 1-norm label cost of weight 2, multiplier 3 -/

/-- a generator with two banks of Laplace variables, used in turn -/
noncomputable def twoLapExt : TorchExt (NormalBank × NormalBank) where
  seed := fun _ => (fun _ _ _ _ => 0, fun _ _ _ _ => 0)
  stdLaplace := fun g sh => (ten (g.1 (sh.headD 0, sh.tail.headD 0, sh.tail.tail.headD 0)), (g.2, g.1))
  stdNormal := fun g sh => (⟨sh, fun _ => 0⟩, g)
  bernoulli := fun g _ sh => (⟨sh, fun _ => true⟩, g)
  cholesky := id
  precisionToTril := id
  mvnLogDensity := fun _ _ => 0

theorem twoLap_contract : LaplaceContract2 twoLapExt (lapBankLaw.prod lapBankLaw) id := by
  intro n m d k
  have e : (fun ω : NormalBank × NormalBank =>
      ((fun (j : Fin n) (i : Fin m) (r : Fin d) => (twoLapExt.stdLaplace (id ω) [n, m, d]).1.get [(j : ℕ), (i : ℕ), (r : ℕ)]),
        (fun (j : Fin n) (i : Fin m) (r : Fin k) =>
          (twoLapExt.stdLaplace (twoLapExt.stdLaplace (id ω) [n, m, d]).2 [n, m, k]).1.get [(j : ℕ), (i : ℕ), (r : ℕ)]))) =
      Prod.map (fun g : NormalBank => g (n, m, d)) (fun g : NormalBank => g (n, m, k)) := by
    funext ω
    refine Prod.ext ?_ ?_
    · funext j i r
      exact (isTen_ten (ω.1 (n, m, d))).2 j i r
    · funext j i r
      exact (isTen_ten (ω.2 (n, m, k))).2 j i r
  have hp : ∀ q, MeasurePreserving (fun g : NormalBank => g q) lapBankLaw (Measure.pi fun _ => Measure.pi fun _ => Measure.pi fun _ => laplaceLaw) :=
    fun q => ⟨measurable_pi_apply q, Measure.infinitePi_map_eval _ q⟩
  rw [e]
  exact ⟨((hp (n, m, d)).prod (hp (n, m, k))).measurable, ((hp (n, m, d)).prod (hp (n, m, k))).map_eq⟩

/-- absolute error with the 1-norm label cost of weight 2 and the sampler of that cost -/
noncomputable def exLL : DualLoss :=
  { exD with
    primal := exWB.value, lam := 3
    cost := ⟨.normLabelCost, .fin 1, 1, .fin 2⟩
    sampler := some ⟨.labeledCost, none, .laplace (mat exX) (.fin 1), some (.laplace (mat exX) (.fin (1 / 2))),
      some ⟨.normLabelCost, .fin 1, 1, .fin 2⟩, some 1, none⟩ }

theorem exLL_order : NormOrder exLL.cost.p := Or.inl ⟨1, by norm_num, rfl⟩

theorem exLL_labelled : Labelled (d := 1) (k := 1) (s := 1) exWB exLL (fun x y c => |x c - y c|) 1 :=
  ⟨rfl, rfl, rfl, by norm_num, absErr_rowWise, ⟨exLL_order, fun _ => Or.inl ⟨2, zero_le_two, rfl⟩⟩, rfl, by norm_num,
    by norm_num [exLL, exD], rfl, rfl⟩

theorem exLL_cost (x z y y' : Fin 1 → ℝ) : costAt exLL.cost x z y y' = (|x 0 - z 0| + 2 * |y 0 - y' 0|) / 3 := by
  rw [(C05_point_formula exLL.cost rfl exLL_order x z y y').1 2 zero_le_two rfl]
  norm_num [exLL, pnorm]

theorem exLL_continuous : Continuous fun u : (Fin 1 → ℝ) × (Fin 1 → ℝ) => lossAt exWB (fun (x y : Fin 1 → ℝ) (c : Fin 1) => |x c - y c|) u.1 u.2 := by
  simp only [exB_loss]
  fun_prop

/-- `|z - y| - 3 (|x - z| + 2 |x - y|) / 3` is at most 0 -/
theorem exLL_bound (i : Fin 2) (u : (Fin 1 → ℝ) × (Fin 1 → ℝ)) :
    lossAt exWB (fun (x y : Fin 1 → ℝ) (c : Fin 1) => |x c - y c|) u.1 u.2 - 3 * costAt exLL.cost (exX i) u.1 (exX i) u.2 ≤ 0 := by
  rw [exB_loss, exLL_cost]
  have h1 : |u.1 0 - u.2 0| ≤ |exX i 0 - u.1 0| + |exX i 0 - u.2 0| := by
    have := abs_sub_le (u.1 0) (exX i 0) (u.2 0)
    rwa [abs_sub_comm (u.1 0) (exX i 0)] at this
  linarith [abs_nonneg (exX i 0 - u.2 0)]

example {δ : ℝ} (hδ : 0 < δ) := C96_forward_label_noise_laplace twoLapExt (X := exX) (Y := exX) exLL_labelled rfl (by norm_num) twoLap_contract
  (c := ⟨.normLabelCost, .fin 1, 1, .fin 2⟩) rfl rfl rfl (sigma := 1) (tau := 1 / 2) (kappa := 2) one_pos two_pos rfl rfl rfl rfl rfl rfl rfl
  exLL_continuous.measurable (fun i => temperature_integrable (exLL_continuous.sub (continuous_const.mul
    (costAt_continuous (kappa := 2) rfl exLL_order zero_le_two rfl (by norm_num [exLL, exD]) _ _))) (exLL_bound i) (by norm_num [exLL, exD])) hδ

example := C147_worst_case_laplace twoLapExt (X := exX) (Y := exX) exLL_labelled rfl (by norm_num) twoLap_contract
  (c := ⟨.normLabelCost, .fin 1, 1, .fin 2⟩) rfl rfl rfl (sigma := 1) (tau := 1 / 2) (kappa := 2) (kap := 2) one_pos two_pos rfl rfl rfl rfl rfl rfl rfl
  rfl two_pos rfl (by norm_num [exLL, exD]) exLL_continuous
  ⟨3, by norm_num, fun i => ⟨0, by rintro _ ⟨u, rfl⟩; exact exLL_bound i u⟩⟩

end Skwdro
