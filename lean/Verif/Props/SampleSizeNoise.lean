import Verif.Props.SampleSize
import Verif.Props.RegularisedLaplace

/-!
# C113 for the other noises: Laplace noise on the inputs, normal or Laplace noise on inputs and labels
-/

namespace Skwdro
open Spec Tensor MeasureTheory ProbabilityTheory Filter
open scoped Topology

section
variable {m d k s : ℕ} {w : WLoss} {D : DualLoss} {ell : (Fin d → ℝ) → (Fin k → ℝ) → Fin s → ℝ} {rho : ℝ}
  {X : Fin m → Fin d → ℝ} {Y : Fin m → Fin k → ℝ} {G : Type} (ext : TorchExt G)

/-- **C113** The same for one forward pass of the post-sampled loss: from a random generator, with the Laplace sampler of a 1-norm cost of scale
`sigma` and `n_samples ≥ log(2 m / δ) / (2 s^2)`, the value returned is within `t` of the exact objective with probability at least `1 - δ`. -/
theorem C113_forward_laplace (h : Labelled w D ell rho) (hr : D.reduction = .mean) (hm : 0 < m) {Ω : Type} [MeasurableSpace Ω] {μ : Measure Ω}
    [IsProbabilityMeasure μ] {gen : Ω → G} (hN : LaplaceContract ext μ gen) {c : CostR} (hk : c.kind = .normCost) (hp : c.p = .fin 1) (hpow : c.power = 1) {sigma : ℝ} (hsg : 0 < sigma) {S : Sampler} (hkind : S.kind = .labeledCost)
    (hgen : S.generating_cost = some c) (hsig : S.sigma = some sigma) (hseed : S.seed = none) (hD : D.sampler = some S)
    (hell : _root_.Measurable fun u : (Fin d → ℝ) × (Fin k → ℝ) => lossAt w ell u.1 u.2) (B : Fin m → ℝ)
    (hB : ∀ i, ∀ᵐ u ∂(sampleLawL sigma (X i) (Y i)), lossAt w ell u.1 u.2 - D.lam * costAt D.cost (X i) u.1 (Y i) u.2 ≤ B i) {t δ σ : ℝ}
    (ht : 0 < t) (hδ : 0 < δ) (hσ : 0 < σ) (hs : ∀ i, σ ≤ (1 - Real.exp (-(t / D.epsilon))) *
      ∫ u, Real.exp ((lossAt w ell u.1 u.2 - D.lam * costAt D.cost (X i) u.1 (Y i) u.2 - B i) / D.epsilon) ∂(sampleLawL sigma (X i) (Y i)))
    (hn : 0 < D.nSamples) (hbig : Real.log (2 * m / δ) / (2 * σ ^ 2) ≤ D.nSamples) :
    1 - δ ≤ μ.real {ω | ∃ v D' g', postForward ext D (mat X) (some (mat Y)) true (gen ω) = .ok (.val v, D', g') ∧
      |v.get [] - population D.lam rho D.cost.power D.epsilon (lossAt w ell) (fun i z y => costAt D.cost (X i) z (Y i) y)
        (fun i => sampleLawL sigma (X i) (Y i))| < t} := by
  let phi : (Fin m → Fin d → ℝ) → Fin m → (Fin d → ℝ) × (Fin k → ℝ) := fun e i => (fun r => X i r + sigma * e i r, Y i)
  have hphi1 : ∀ i, _root_.Measurable fun e : Fin d → ℝ => ((fun r => X i r + sigma * e r, Y i) : (Fin d → ℝ) × (Fin k → ℝ)) := by
    intro i
    exact (measurable_pi_lambda _ fun r => ((measurable_pi_apply r).const_mul _).const_add _).prodMk measurable_const
  have hphi : _root_.Measurable phi := measurable_pi_lambda _ fun i => (hphi1 i).comp (measurable_pi_apply i)
  let Gm : Measure (Fin m → Fin d → ℝ) := Measure.pi fun _ => Measure.pi fun _ => laplaceLaw
  let kap := Gm.map phi
  have : IsProbabilityMeasure kap := Measure.isProbabilityMeasure_map hphi.aemeasurable
  have hmarg : ∀ i, kap.map (fun u => u i) = sampleLawL sigma (X i) (Y i) := by
    intro i
    rw [Measure.map_map (measurable_pi_apply i) hphi]
    have : (fun u : Fin m → (Fin d → ℝ) × (Fin k → ℝ) => u i) ∘ phi =
        (fun e : Fin d → ℝ => ((fun r => X i r + sigma * e r, Y i) : (Fin d → ℝ) × (Fin k → ℝ))) ∘ (fun e => e i) := rfl
    rw [this, ← Measure.map_map (hphi1 i) (measurable_pi_apply i)]
    have he : Gm.map (fun e => e i) = Measure.pi fun _ : Fin d => laplaceLaw :=
      (measurePreserving_eval (fun _ : Fin m => Measure.pi fun _ : Fin d => laplaceLaw) i).map_eq
    rw [he]
    rfl
  let n := D.nSamples
  let E : Ω → Fin n → Fin m → Fin d → ℝ := fun ω j i r => (ext.stdLaplace (gen ω) [n, m, d]).1.get [j, i, r]
  let T : Ω → Fin n → Fin m → (Fin d → ℝ) × (Fin k → ℝ) := fun ω j => phi (E ω j)
  have hPhi : _root_.Measurable fun (e : Fin n → Fin m → Fin d → ℝ) j => phi (e j) :=
    measurable_pi_lambda _ fun j => hphi.comp (measurable_pi_apply j)
  have hT : _root_.Measurable T := hPhi.comp (hN n m d).1
  have hlaw : μ.map T = Measure.pi fun _ => kap := by
    have : T = (fun (e : Fin n → Fin m → Fin d → ℝ) j => phi (e j)) ∘ E := rfl
    rw [this, ← Measure.map_map hPhi (hN n m d).1, (hN n m d).2]
    exact Measure.pi_map_pi (fun _ => hphi.aemeasurable)
  have key := C113_enough ext (X := X) (Y := Y) (n := n) h hr hm hn μ kap T hT hlaw hell B (fun i => by rw [hmarg]; exact hB i) ht hδ hσ
    (fun i => by rw [hmarg]; exact hs i) hbig
  simp only [hmarg] at key
  set A := {ω | t ≤ |num (computeDual ext D (mat X) (some (mat Y)) (ten fun j i => (T ω j i).1) (some (ten fun j i => (T ω j i).2))) -
      population D.lam rho D.cost.power D.epsilon (lossAt w ell) (fun i z y => costAt D.cost (X i) z (Y i) y)
        (fun i => sampleLawL sigma (X i) (Y i))|} with hA
  have hsub : Aᶜ ⊆ {ω | ∃ v D' g', postForward ext D (mat X) (some (mat Y)) true (gen ω) = .ok (.val v, D', g') ∧
      |v.get [] - population D.lam rho D.cost.power D.epsilon (lossAt w ell) (fun i z y => costAt D.cost (X i) z (Y i) y)
        (fun i => sampleLawL sigma (X i) (Y i))| < t} := by
    intro ω hω
    simp only [hA, Set.mem_compl_iff, Set.mem_ofPred_eq, not_le] at hω ⊢
    obtain ⟨S', hS', hdraw⟩ := cost_sampler_draws_laplace ext hk hp hpow hsg hkind hgen hsig hseed X Y (gen ω)
    obtain ⟨hz, y, hy, hY⟩ := hdraw n
    have hpl : Plain D (mat X) (some (mat Y)) (S'.sample ext D.nSamples (gen ω)).1 (S'.sample ext D.nSamples (gen ω)).2.1 rho
        (fun j i => lossAt w ell (T ω j i).1 (T ω j i).2) (fun j i => costAt D.cost (X i) (T ω j i).1 (Y i) (T ω j i).2) := by
      show Plain D (mat X) (some (mat Y)) (S'.sample ext n (gen ω)).1 (S'.sample ext n (gen ω)).2.1 rho _ _
      rw [hy]
      exact plain_of_labelled h hn hm (isMat_mat X) hz (isMat_mat Y) hY
    obtain ⟨v, D', hf, -, hv⟩ := C29_formula_postsampled ext hD hS' hpl hr
    have hval : v.get [] = num (computeDual ext D (mat X) (some (mat Y)) (ten fun j i => (T ω j i).1) (some (ten fun j i => (T ω j i).2))) := by
      rw [hv.2, num_samples ext h hr hm hn (T ω)]
      rfl
    exact ⟨v, D', _, hf, by rw [hval]; exact hω⟩
  refine le_trans ?_ (measureReal_mono hsub (measure_ne_top _ _))
  have h1 : (1 : ℝ) ≤ μ.real A + μ.real Aᶜ := by
    have := measureReal_union_le (μ := μ) A Aᶜ
    rw [Set.union_compl_self, probReal_univ] at this
    exact this
  linarith

/-- **C113** The same when labels move too: from a random generator, with the sampler of a Euclidean or max-norm label cost of standard
deviation `sigma` and `n_samples ≥ log(2 m / δ) / (2 s^2)`, the value returned is within `t` of the exact objective with probability at least `1 - δ`. -/
theorem C113_forward_label_noise (h : Labelled w D ell rho) (hr : D.reduction = .mean) (hm : 0 < m) {Ω : Type} [MeasurableSpace Ω] {μ : Measure Ω}
    [IsProbabilityMeasure μ] {gen : Ω → G} (hN : NormalContract2 ext μ gen) {c : CostR} (hk : c.kind = .normLabelCost) (hp : c.p = .fin 2 ∨ (c.p = .pinf ∧ c.power = 1))
    {sigma tau kappa : ℝ} (hsg : 0 < sigma) (hkap : 0 < kappa) (hkappa : c.kappa = .fin kappa)
    (htau : (c.power = 1 ∧ tau = sigma / kappa) ∨ (c.power = 2 ∧ tau = sigma)) {S : Sampler} (hkind : S.kind = .labeledCost)
    (hgen : S.generating_cost = some c) (hsig : S.sigma = some sigma) (hseed : S.seed = none) (hD : D.sampler = some S)
    (hell : _root_.Measurable fun u : (Fin d → ℝ) × (Fin k → ℝ) => lossAt w ell u.1 u.2) (B : Fin m → ℝ)
    (hB : ∀ i, ∀ᵐ u ∂(sampleLaw2 sigma tau (X i) (Y i)), lossAt w ell u.1 u.2 - D.lam * costAt D.cost (X i) u.1 (Y i) u.2 ≤ B i) {t δ σ : ℝ}
    (ht : 0 < t) (hδ : 0 < δ) (hσ : 0 < σ) (hs : ∀ i, σ ≤ (1 - Real.exp (-(t / D.epsilon))) *
      ∫ u, Real.exp ((lossAt w ell u.1 u.2 - D.lam * costAt D.cost (X i) u.1 (Y i) u.2 - B i) / D.epsilon) ∂(sampleLaw2 sigma tau (X i) (Y i)))
    (hn : 0 < D.nSamples) (hbig : Real.log (2 * m / δ) / (2 * σ ^ 2) ≤ D.nSamples) :
    1 - δ ≤ μ.real {ω | ∃ v D' g', postForward ext D (mat X) (some (mat Y)) true (gen ω) = .ok (.val v, D', g') ∧
      |v.get [] - population D.lam rho D.cost.power D.epsilon (lossAt w ell) (fun i z y => costAt D.cost (X i) z (Y i) y)
        (fun i => sampleLaw2 sigma tau (X i) (Y i))| < t} := by
  let Gd : Measure (Fin m → Fin d → ℝ) := Measure.pi fun _ => Measure.pi fun _ => gaussianReal 0 1
  let Gk : Measure (Fin m → Fin k → ℝ) := Measure.pi fun _ => Measure.pi fun _ => gaussianReal 0 1
  let phi : (Fin m → Fin d → ℝ) × (Fin m → Fin k → ℝ) → Fin m → (Fin d → ℝ) × (Fin k → ℝ) :=
    fun e i => noised sigma tau (X i) (Y i) (e.1 i, e.2 i)
  have hmv : ∀ i, _root_.Measurable (noised sigma tau (X i) (Y i)) := fun i => (noised_continuous sigma tau (X i) (Y i)).measurable
  have hev : ∀ i, _root_.Measurable fun e : (Fin m → Fin d → ℝ) × (Fin m → Fin k → ℝ) => (e.1 i, e.2 i) := fun i =>
    ((measurable_pi_apply i).comp measurable_fst).prodMk ((measurable_pi_apply i).comp measurable_snd)
  have hphi : _root_.Measurable phi := measurable_pi_lambda _ fun i => (hmv i).comp (hev i)
  let kap := (Gd.prod Gk).map phi
  have : IsProbabilityMeasure kap := Measure.isProbabilityMeasure_map hphi.aemeasurable
  have hmarg : ∀ i, kap.map (fun u => u i) = sampleLaw2 sigma tau (X i) (Y i) := by
    intro i
    rw [Measure.map_map (measurable_pi_apply i) hphi]
    have : (fun u : Fin m → (Fin d → ℝ) × (Fin k → ℝ) => u i) ∘ phi = noised sigma tau (X i) (Y i) ∘ (fun e => (e.1 i, e.2 i)) := rfl
    rw [this, ← Measure.map_map (hmv i) (hev i)]
    have he : (Gd.prod Gk).map (fun e => (e.1 i, e.2 i)) = unitNoise d k :=
      ((measurePreserving_eval (fun _ : Fin m => Measure.pi fun _ : Fin d => gaussianReal 0 1) i).prod
        (measurePreserving_eval (fun _ : Fin m => Measure.pi fun _ : Fin k => gaussianReal 0 1) i)).map_eq
    rw [he]
    rfl
  let n := D.nSamples
  let E : Ω → (Fin n → Fin m → Fin d → ℝ) × (Fin n → Fin m → Fin k → ℝ) := fun ω =>
    (fun j i r => (ext.stdNormal (gen ω) [n, m, d]).1.get [j, i, r],
      fun j i r => (ext.stdNormal (ext.stdNormal (gen ω) [n, m, d]).2 [n, m, k]).1.get [j, i, r])
  let T : Ω → Fin n → Fin m → (Fin d → ℝ) × (Fin k → ℝ) := fun ω j => phi ((E ω).1 j, (E ω).2 j)
  have hzip : _root_.Measurable fun (p : (Fin n → Fin m → Fin d → ℝ) × (Fin n → Fin m → Fin k → ℝ)) j => (p.1 j, p.2 j) :=
    measurable_pi_lambda _ fun j => ((measurable_pi_apply j).comp measurable_fst).prodMk ((measurable_pi_apply j).comp measurable_snd)
  have hPhi : _root_.Measurable fun (e : Fin n → (Fin m → Fin d → ℝ) × (Fin m → Fin k → ℝ)) j => phi (e j) :=
    measurable_pi_lambda _ fun j => hphi.comp (measurable_pi_apply j)
  have hT : _root_.Measurable T := hPhi.comp (hzip.comp (hN n m d k).1)
  have hlaw : μ.map T = Measure.pi fun _ => kap := by
    have : T = (fun (e : Fin n → (Fin m → Fin d → ℝ) × (Fin m → Fin k → ℝ)) j => phi (e j)) ∘ ((fun p j => (p.1 j, p.2 j)) ∘ E) := rfl
    rw [this, ← Measure.map_map hPhi (hzip.comp (hN n m d k).1), ← Measure.map_map hzip (hN n m d k).1, (hN n m d k).2, zip_law]
    exact Measure.pi_map_pi (fun _ => hphi.aemeasurable)
  have key := C113_enough ext (X := X) (Y := Y) (n := n) h hr hm hn μ kap T hT hlaw hell B (fun i => by rw [hmarg]; exact hB i) ht hδ hσ
    (fun i => by rw [hmarg]; exact hs i) hbig
  simp only [hmarg] at key
  set A := {ω | t ≤ |num (computeDual ext D (mat X) (some (mat Y)) (ten fun j i => (T ω j i).1) (some (ten fun j i => (T ω j i).2))) -
      population D.lam rho D.cost.power D.epsilon (lossAt w ell) (fun i z y => costAt D.cost (X i) z (Y i) y)
        (fun i => sampleLaw2 sigma tau (X i) (Y i))|} with hA
  have hsub : Aᶜ ⊆ {ω | ∃ v D' g', postForward ext D (mat X) (some (mat Y)) true (gen ω) = .ok (.val v, D', g') ∧
      |v.get [] - population D.lam rho D.cost.power D.epsilon (lossAt w ell) (fun i z y => costAt D.cost (X i) z (Y i) y)
        (fun i => sampleLaw2 sigma tau (X i) (Y i))| < t} := by
    intro ω hω
    simp only [hA, Set.mem_compl_iff, Set.mem_ofPred_eq, not_le] at hω ⊢
    obtain ⟨S', hS', hdraw⟩ := label_sampler_draws ext hk hp hsg hkap hkappa htau hkind hgen hsig hseed X Y (gen ω)
    obtain ⟨hz, y, hy, hY⟩ := hdraw n
    have hpl : Plain D (mat X) (some (mat Y)) (S'.sample ext D.nSamples (gen ω)).1 (S'.sample ext D.nSamples (gen ω)).2.1 rho
        (fun j i => lossAt w ell (T ω j i).1 (T ω j i).2) (fun j i => costAt D.cost (X i) (T ω j i).1 (Y i) (T ω j i).2) := by
      show Plain D (mat X) (some (mat Y)) (S'.sample ext n (gen ω)).1 (S'.sample ext n (gen ω)).2.1 rho _ _
      rw [hy]
      exact plain_of_labelled h hn hm (isMat_mat X) hz (isMat_mat Y) hY
    obtain ⟨v, D', hf, -, hv⟩ := C29_formula_postsampled ext hD hS' hpl hr
    have hval : v.get [] = num (computeDual ext D (mat X) (some (mat Y)) (ten fun j i => (T ω j i).1) (some (ten fun j i => (T ω j i).2))) := by
      rw [hv.2, num_samples ext h hr hm hn (T ω)]
      rfl
    exact ⟨v, D', _, hf, by rw [hval]; exact hω⟩
  refine le_trans ?_ (measureReal_mono hsub (measure_ne_top _ _))
  have h1 : (1 : ℝ) ≤ μ.real A + μ.real Aᶜ := by
    have := measureReal_union_le (μ := μ) A Aᶜ
    rw [Set.union_compl_self, probReal_univ] at this
    exact this
  linarith

/-- **C113** The same when labels move too: from a random generator, with the Laplace sampler of a 1-norm label cost of scale
`sigma` and `n_samples ≥ log(2 m / δ) / (2 s^2)`, the value returned is within `t` of the exact objective with probability at least `1 - δ`. -/
theorem C113_forward_label_noise_laplace (h : Labelled w D ell rho) (hr : D.reduction = .mean) (hm : 0 < m) {Ω : Type} [MeasurableSpace Ω] {μ : Measure Ω}
    [IsProbabilityMeasure μ] {gen : Ω → G} (hN : LaplaceContract2 ext μ gen) {c : CostR} (hk : c.kind = .normLabelCost) (hp : c.p = .fin 1) (hpow : c.power = 1)
    {sigma tau kappa : ℝ} (hsg : 0 < sigma) (hkap : 0 < kappa) (hkappa : c.kappa = .fin kappa)
    (htau : tau = sigma / kappa) {S : Sampler} (hkind : S.kind = .labeledCost)
    (hgen : S.generating_cost = some c) (hsig : S.sigma = some sigma) (hseed : S.seed = none) (hD : D.sampler = some S)
    (hell : _root_.Measurable fun u : (Fin d → ℝ) × (Fin k → ℝ) => lossAt w ell u.1 u.2) (B : Fin m → ℝ)
    (hB : ∀ i, ∀ᵐ u ∂(sampleLawL2 sigma tau (X i) (Y i)), lossAt w ell u.1 u.2 - D.lam * costAt D.cost (X i) u.1 (Y i) u.2 ≤ B i) {t δ σ : ℝ}
    (ht : 0 < t) (hδ : 0 < δ) (hσ : 0 < σ) (hs : ∀ i, σ ≤ (1 - Real.exp (-(t / D.epsilon))) *
      ∫ u, Real.exp ((lossAt w ell u.1 u.2 - D.lam * costAt D.cost (X i) u.1 (Y i) u.2 - B i) / D.epsilon) ∂(sampleLawL2 sigma tau (X i) (Y i)))
    (hn : 0 < D.nSamples) (hbig : Real.log (2 * m / δ) / (2 * σ ^ 2) ≤ D.nSamples) :
    1 - δ ≤ μ.real {ω | ∃ v D' g', postForward ext D (mat X) (some (mat Y)) true (gen ω) = .ok (.val v, D', g') ∧
      |v.get [] - population D.lam rho D.cost.power D.epsilon (lossAt w ell) (fun i z y => costAt D.cost (X i) z (Y i) y)
        (fun i => sampleLawL2 sigma tau (X i) (Y i))| < t} := by
  let Gd : Measure (Fin m → Fin d → ℝ) := Measure.pi fun _ => Measure.pi fun _ => laplaceLaw
  let Gk : Measure (Fin m → Fin k → ℝ) := Measure.pi fun _ => Measure.pi fun _ => laplaceLaw
  let phi : (Fin m → Fin d → ℝ) × (Fin m → Fin k → ℝ) → Fin m → (Fin d → ℝ) × (Fin k → ℝ) :=
    fun e i => noised sigma tau (X i) (Y i) (e.1 i, e.2 i)
  have hmv : ∀ i, _root_.Measurable (noised sigma tau (X i) (Y i)) := fun i => (noised_continuous sigma tau (X i) (Y i)).measurable
  have hev : ∀ i, _root_.Measurable fun e : (Fin m → Fin d → ℝ) × (Fin m → Fin k → ℝ) => (e.1 i, e.2 i) := fun i =>
    ((measurable_pi_apply i).comp measurable_fst).prodMk ((measurable_pi_apply i).comp measurable_snd)
  have hphi : _root_.Measurable phi := measurable_pi_lambda _ fun i => (hmv i).comp (hev i)
  let kap := (Gd.prod Gk).map phi
  have : IsProbabilityMeasure kap := Measure.isProbabilityMeasure_map hphi.aemeasurable
  have hmarg : ∀ i, kap.map (fun u => u i) = sampleLawL2 sigma tau (X i) (Y i) := by
    intro i
    rw [Measure.map_map (measurable_pi_apply i) hphi]
    have : (fun u : Fin m → (Fin d → ℝ) × (Fin k → ℝ) => u i) ∘ phi = noised sigma tau (X i) (Y i) ∘ (fun e => (e.1 i, e.2 i)) := rfl
    rw [this, ← Measure.map_map (hmv i) (hev i)]
    have he : (Gd.prod Gk).map (fun e => (e.1 i, e.2 i)) = unitLaplace d k :=
      ((measurePreserving_eval (fun _ : Fin m => Measure.pi fun _ : Fin d => laplaceLaw) i).prod
        (measurePreserving_eval (fun _ : Fin m => Measure.pi fun _ : Fin k => laplaceLaw) i)).map_eq
    rw [he]
    rfl
  let n := D.nSamples
  let E : Ω → (Fin n → Fin m → Fin d → ℝ) × (Fin n → Fin m → Fin k → ℝ) := fun ω =>
    (fun j i r => (ext.stdLaplace (gen ω) [n, m, d]).1.get [j, i, r],
      fun j i r => (ext.stdLaplace (ext.stdLaplace (gen ω) [n, m, d]).2 [n, m, k]).1.get [j, i, r])
  let T : Ω → Fin n → Fin m → (Fin d → ℝ) × (Fin k → ℝ) := fun ω j => phi ((E ω).1 j, (E ω).2 j)
  have hzip : _root_.Measurable fun (p : (Fin n → Fin m → Fin d → ℝ) × (Fin n → Fin m → Fin k → ℝ)) j => (p.1 j, p.2 j) :=
    measurable_pi_lambda _ fun j => ((measurable_pi_apply j).comp measurable_fst).prodMk ((measurable_pi_apply j).comp measurable_snd)
  have hPhi : _root_.Measurable fun (e : Fin n → (Fin m → Fin d → ℝ) × (Fin m → Fin k → ℝ)) j => phi (e j) :=
    measurable_pi_lambda _ fun j => hphi.comp (measurable_pi_apply j)
  have hT : _root_.Measurable T := hPhi.comp (hzip.comp (hN n m d k).1)
  have hlaw : μ.map T = Measure.pi fun _ => kap := by
    have : T = (fun (e : Fin n → (Fin m → Fin d → ℝ) × (Fin m → Fin k → ℝ)) j => phi (e j)) ∘ ((fun p j => (p.1 j, p.2 j)) ∘ E) := rfl
    rw [this, ← Measure.map_map hPhi (hzip.comp (hN n m d k).1), ← Measure.map_map hzip (hN n m d k).1, (hN n m d k).2, zip_law]
    exact Measure.pi_map_pi (fun _ => hphi.aemeasurable)
  have key := C113_enough ext (X := X) (Y := Y) (n := n) h hr hm hn μ kap T hT hlaw hell B (fun i => by rw [hmarg]; exact hB i) ht hδ hσ
    (fun i => by rw [hmarg]; exact hs i) hbig
  simp only [hmarg] at key
  set A := {ω | t ≤ |num (computeDual ext D (mat X) (some (mat Y)) (ten fun j i => (T ω j i).1) (some (ten fun j i => (T ω j i).2))) -
      population D.lam rho D.cost.power D.epsilon (lossAt w ell) (fun i z y => costAt D.cost (X i) z (Y i) y)
        (fun i => sampleLawL2 sigma tau (X i) (Y i))|} with hA
  have hsub : Aᶜ ⊆ {ω | ∃ v D' g', postForward ext D (mat X) (some (mat Y)) true (gen ω) = .ok (.val v, D', g') ∧
      |v.get [] - population D.lam rho D.cost.power D.epsilon (lossAt w ell) (fun i z y => costAt D.cost (X i) z (Y i) y)
        (fun i => sampleLawL2 sigma tau (X i) (Y i))| < t} := by
    intro ω hω
    simp only [hA, Set.mem_compl_iff, Set.mem_ofPred_eq, not_le] at hω ⊢
    obtain ⟨S', hS', hdraw⟩ := label_sampler_draws_laplace ext hk hp hpow hsg hkap hkappa htau hkind hgen hsig hseed X Y (gen ω)
    obtain ⟨hz, y, hy, hY⟩ := hdraw n
    have hpl : Plain D (mat X) (some (mat Y)) (S'.sample ext D.nSamples (gen ω)).1 (S'.sample ext D.nSamples (gen ω)).2.1 rho
        (fun j i => lossAt w ell (T ω j i).1 (T ω j i).2) (fun j i => costAt D.cost (X i) (T ω j i).1 (Y i) (T ω j i).2) := by
      show Plain D (mat X) (some (mat Y)) (S'.sample ext n (gen ω)).1 (S'.sample ext n (gen ω)).2.1 rho _ _
      rw [hy]
      exact plain_of_labelled h hn hm (isMat_mat X) hz (isMat_mat Y) hY
    obtain ⟨v, D', hf, -, hv⟩ := C29_formula_postsampled ext hD hS' hpl hr
    have hval : v.get [] = num (computeDual ext D (mat X) (some (mat Y)) (ten fun j i => (T ω j i).1) (some (ten fun j i => (T ω j i).2))) := by
      rw [hv.2, num_samples ext h hr hm hn (T ω)]
      rfl
    exact ⟨v, D', _, hf, by rw [hval]; exact hω⟩
  refine le_trans ?_ (measureReal_mono hsub (measure_ne_top _ _))
  have h1 : (1 : ℝ) ≤ μ.real A + μ.real Aᶜ := by
    have := measureReal_union_le (μ := μ) A Aᶜ
    rw [Set.union_compl_self, probReal_univ] at this
    exact this
  linarith

end

/-! ### The hypotheses can be met -/

/-- some number of samples is large enough -/
theorem size_exists {E : Type} [MeasurableSpace E] {m : ℕ} {nu : Fin m → Measure E} [∀ i, IsProbabilityMeasure (nu i)] {f : Fin m → E → ℝ}
    (hf : ∀ i, _root_.Measurable (f i)) (h0 : ∀ i, ∀ᵐ u ∂(nu i), f i u ≤ 0) {t eps : ℝ} (ht : 0 < t) (he : 0 < eps) (δ : ℝ) :
    ∃ σ, 0 < σ ∧ (∀ i, σ ≤ (1 - Real.exp (-(t / eps))) * ∫ u, Real.exp (f i u / eps) ∂(nu i)) ∧
      ∃ n : ℕ, 0 < n ∧ Real.log (2 * m / δ) / (2 * σ ^ 2) ≤ n := by
  have h1 : 0 < 1 - Real.exp (-(t / eps)) := by
    have : Real.exp (-(t / eps)) < 1 := Real.exp_lt_one_iff.2 (by have := div_pos ht he; linarith)
    linarith
  have hpos : ∀ i, 0 < ∫ u, Real.exp (f i u / eps) ∂(nu i) := fun i => by
    refine integral_exp_pos (Integrable.of_mem_Icc 0 1 (Real.measurable_exp.comp ((hf i).div_const _)).aemeasurable
      ((h0 i).mono fun u hu => ⟨(Real.exp_pos _).le, Real.exp_le_one_iff.2 (div_nonpos_of_nonpos_of_nonneg hu he.le)⟩))
  obtain ⟨σ, hσ, hle⟩ : ∃ σ, 0 < σ ∧ ∀ i, σ ≤ (1 - Real.exp (-(t / eps))) * ∫ u, Real.exp (f i u / eps) ∂(nu i) := by
    rcases isEmpty_or_nonempty (Fin m) with h | h
    · exact ⟨1, one_pos, fun i => h.elim i⟩
    · obtain ⟨i, hi⟩ := Finite.exists_min fun i => (1 - Real.exp (-(t / eps))) * ∫ u, Real.exp (f i u / eps) ∂(nu i)
      exact ⟨_, mul_pos h1 (hpos i), hi⟩
  obtain ⟨n, hn⟩ := exists_nat_ge (Real.log (2 * m / δ) / (2 * σ ^ 2))
  exact ⟨σ, hσ, hle, n + 1, Nat.succ_pos n, hn.trans (by push_cast; linarith)⟩

theorem exB_bound (i : Fin 2) (u : (Fin 1 → ℝ) × (Fin 1 → ℝ)) : lossAt exWB (fun (x y : Fin 1 → ℝ) (c : Fin 1) => |x c - y c|) u.1 u.2 -
    2 * costAt exB.cost (exX i) u.1 (exX i) u.2 ≤ |u.2 0 - exX i 0| := by
  rw [exB_loss, exB_cost]
  have := abs_sub_le (u.1 0) (exX i 0) (u.2 0)
  rw [abs_sub_comm (exX i 0) (u.2 0)] at this
  rw [abs_sub_comm (exX i 0)]
  linarith [abs_nonneg (u.1 0 - exX i 0)]

example {t δ : ℝ} (ht : 0 < t) (hδ : 0 < δ) : ∃ n, 0 < n ∧ 1 - δ ≤ (bankLaw.prod bankLaw).real {ω | ∃ v D' g',
    postForward twoBankExt { exLN with nSamples := n } (mat exX) (some (mat exX)) true ω = .ok (.val v, D', g') ∧
    |v.get [] - population 8 1 2 1 (lossAt exW fun (x y : Fin 1 → ℝ) (c : Fin 1) => (x c - y c) ^ 2)
      (fun i z y => costAt exLN.cost (exX i) z (exX i) y) (fun i => sampleLaw2 1 1 (exX i) (exX i))| < t} := by
  obtain ⟨σ, hσ, hle, n, hn, hbig⟩ := size_exists (nu := fun i => sampleLaw2 1 1 (exX i) (exX i))
    (f := fun i u => lossAt exW (fun (x y : Fin 1 → ℝ) (c : Fin 1) => (x c - y c) ^ 2) u.1 u.2 - 8 * costAt exLN.cost (exX i) u.1 (exX i) u.2 - 0)
    (fun i => (exLN_continuous.measurable.sub ((costAt_measurable exLN_labelled.cost _ _).const_mul _)).sub_const _)
    (fun i => Eventually.of_forall fun u => by have := exLN_bound i u; linarith) ht one_pos δ
  refine ⟨n, hn, ?_⟩
  exact C113_forward_label_noise twoBankExt (D := { exLN with nSamples := n }) (w := exW) (ell := fun x y c => (x c - y c) ^ 2) (rho := 1)
    ⟨rfl, rfl, rfl, by norm_num, sqErr_rowWise, exLN_labelled.cost, rfl, by norm_num, by norm_num [exLN, exD], rfl, rfl⟩ rfl (by norm_num)
    twoBank_contract (c := ⟨.normLabelCost, .fin 2, 2, .fin 1⟩) rfl (Or.inl rfl) (sigma := 1) (tau := 1) one_pos one_pos rfl (Or.inr ⟨rfl, rfl⟩)
    rfl rfl rfl rfl rfl exLN_continuous.measurable (fun _ => 0) (fun i => Eventually.of_forall fun u => exLN_bound i u) ht hδ hσ hle hn hbig

example {t δ : ℝ} (ht : 0 < t) (hδ : 0 < δ) : ∃ n, 0 < n ∧ 1 - δ ≤ (lapBankLaw.prod lapBankLaw).real {ω | ∃ v D' g',
    postForward twoLapExt { exLL with nSamples := n } (mat exX) (some (mat exX)) true ω = .ok (.val v, D', g') ∧
    |v.get [] - population 3 1 1 1 (lossAt exWB fun (x y : Fin 1 → ℝ) (c : Fin 1) => |x c - y c|)
      (fun i z y => costAt exLL.cost (exX i) z (exX i) y) (fun i => sampleLawL2 1 (1 / 2) (exX i) (exX i))| < t} := by
  obtain ⟨σ, hσ, hle, n, hn, hbig⟩ := size_exists (nu := fun i => sampleLawL2 1 (1 / 2) (exX i) (exX i))
    (f := fun i u => lossAt exWB (fun (x y : Fin 1 → ℝ) (c : Fin 1) => |x c - y c|) u.1 u.2 - 3 * costAt exLL.cost (exX i) u.1 (exX i) u.2 - 0)
    (fun i => (exLL_continuous.measurable.sub ((costAt_measurable exLL_labelled.cost _ _).const_mul _)).sub_const _)
    (fun i => Eventually.of_forall fun u => by have := exLL_bound i u; linarith) ht one_pos δ
  refine ⟨n, hn, ?_⟩
  exact C113_forward_label_noise_laplace twoLapExt (D := { exLL with nSamples := n }) (w := exWB) (ell := fun x y c => |x c - y c|) (rho := 1)
    ⟨rfl, rfl, rfl, by norm_num, absErr_rowWise, exLL_labelled.cost, rfl, by norm_num, by norm_num [exLL, exD], rfl, rfl⟩ rfl (by norm_num)
    twoLap_contract (c := ⟨.normLabelCost, .fin 1, 1, .fin 2⟩) rfl rfl rfl (sigma := 1) (tau := 1 / 2) (kappa := 2) one_pos two_pos rfl rfl
    rfl rfl rfl rfl rfl exLL_continuous.measurable (fun _ => 0) (fun i => Eventually.of_forall fun u => exLL_bound i u) ht hδ hσ hle hn hbig

/-- labels equal to the inputs: the samples keep them, so the exponent is at most 0 almost surely -/
theorem exB_ae (i : Fin 2) : ∀ᵐ u ∂(sampleLawL 1 (exX i) (exX i)), lossAt exWB (fun (x y : Fin 1 → ℝ) (c : Fin 1) => |x c - y c|) u.1 u.2 -
    2 * costAt exB.cost (exX i) u.1 (exX i) u.2 ≤ 0 := by
  have hT : _root_.Measurable fun e : Fin 1 → ℝ => ((fun r => exX i r + 1 * e r, exX i) : (Fin 1 → ℝ) × (Fin 1 → ℝ)) :=
    (measurable_pi_lambda _ fun r => ((measurable_pi_apply r).const_mul _).const_add _).prodMk measurable_const
  refine (ae_map_iff hT.aemeasurable (measurableSet_le (exB_measurable.sub ((costAt_measurable exB_labelled.cost _ _).const_mul _))
    measurable_const)).2 (Eventually.of_forall fun e => ?_)
  have := exB_bound i (fun r => exX i r + 1 * e r, exX i)
  simpa using this

example {t δ : ℝ} (ht : 0 < t) (hδ : 0 < δ) : ∃ n, 0 < n ∧ 1 - δ ≤ lapBankLaw.real {ω | ∃ v D' g',
    postForward lapBankExt { exB with nSamples := n } (mat exX) (some (mat exX)) true ω = .ok (.val v, D', g') ∧
    |v.get [] - population 2 1 1 1 (lossAt exWB fun (x y : Fin 1 → ℝ) (c : Fin 1) => |x c - y c|)
      (fun i z y => costAt exB.cost (exX i) z (exX i) y) (fun i => sampleLawL 1 (exX i) (exX i))| < t} := by
  have := fun i => sampleLawL_prob 1 (exX i) (exX i)
  obtain ⟨σ, hσ, hle, n, hn, hbig⟩ := size_exists (nu := fun i => sampleLawL 1 (exX i) (exX i))
    (f := fun i u => lossAt exWB (fun (x y : Fin 1 → ℝ) (c : Fin 1) => |x c - y c|) u.1 u.2 - 2 * costAt exB.cost (exX i) u.1 (exX i) u.2 - 0)
    (fun i => (exB_measurable.sub ((costAt_measurable exB_labelled.cost _ _).const_mul _)).sub_const _)
    (fun i => (exB_ae i).mono fun u hu => by linarith) ht one_pos δ
  refine ⟨n, hn, ?_⟩
  exact C113_forward_laplace lapBankExt (D := { exB with nSamples := n }) (w := exWB) (ell := fun x y c => |x c - y c|) (rho := 1)
    ⟨rfl, rfl, rfl, by norm_num, absErr_rowWise, exB_labelled.cost, rfl, by norm_num, by norm_num [exB, exD], rfl, rfl⟩ rfl (by norm_num)
    lapBank_contract (c := ⟨.normCost, .fin 1, 1, .fin 0⟩) rfl rfl rfl (sigma := 1) one_pos rfl rfl rfl rfl rfl exB_measurable (fun _ => 0) exB_ae
    ht hδ hσ hle hn hbig

end Skwdro
