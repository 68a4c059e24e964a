import Verif.Props.ImpConsistency
import Verif.Props.EstObjective

/-! # C99 with labels: importance sampling changes the value that is estimated -/

namespace Skwdro
open Spec Tensor MeasureTheory ProbabilityTheory
open scoped Topology

variable {G : Type} (ext : TorchExt G)

/-! ## With labels: the limit is the objective around displaced data -/

section
variable {m d k : ℕ} {a : DualizeArgs} {g g' : G} {D : DualLoss} {rho : ℝ} {X : Fin m → Fin d → ℝ} {Y : Fin m → Fin k → ℝ}

/-- a labelled sample moved by the displacements of its point and of its label, when importance sampling is on -/
noncomputable def movePair (imp : Bool) (v : Fin d → ℝ) (w : Fin k → ℝ) (u : (Fin d → ℝ) × (Fin k → ℝ)) : (Fin d → ℝ) × (Fin k → ℝ) :=
  (fun q => u.1 q + if imp then v q else 0, fun q => u.2 q + if imp then w q else 0)

theorem movePair_measurable (imp : Bool) (v : Fin d → ℝ) (w : Fin k → ℝ) : Measurable (movePair imp v w) :=
  (measurable_pi_lambda _ fun q => ((measurable_pi_apply q).comp measurable_fst).add_const _).prodMk
    (measurable_pi_lambda _ fun q => ((measurable_pi_apply q).comp measurable_snd).add_const _)

/-- **C99** With labels, the robust loss on `n` independent samples per point tends almost surely to the robust objective with expectations
under the laws of the samples when importance sampling is off, but under the displaced laws when it is on.  Partial: with importance sampling
this is not the advertised objective (next theorem). -/
theorem C99_labelled_limit_partial (h : dualize ext a g = .ok (D, g')) (hr : a.rho = .num rho) (hpos : 0 < rho)
    (he : ∀ x, a.epsilon = some x → 0 < x) (hred : a.reduction = none) {y : Tensor ℝ} (hy : a.xi_labels = some y) (hx : IsMat a.xi X)
    (hY : IsMat y Y) (hm : 0 < m) (hd : 0 < d) (hk : 0 < k) {ell : (Fin d → ℝ) → (Fin k → ℝ) → ℝ} (hell : PointLoss D.primal ell) (lam : ℝ)
    {gx : Fin m → Fin d → ℝ} {gy : Fin m → Fin k → ℝ}
    (hg : ∃ tg tgl, a.grads a.xi.unsqueeze0 (some y.unsqueeze0) = (tg, some tgl) ∧ IsTen tg (fun (_ : Fin 1) => gx) ∧
      IsTen tgl (fun (_ : Fin 1) => gy))
    (hkap : D.impSamp = true → labelWeight D.cost ≠ some 0) {Ω : Type} [MeasurableSpace Ω] {μ : Measure Ω} [IsProbabilityMeasure μ]
    (U : ℕ → Fin m → Ω → (Fin d → ℝ) × (Fin k → ℝ)) (nu : Fin m → Measure ((Fin d → ℝ) × (Fin k → ℝ)))
    (hdir : D.impSamp = true → labelWeight D.cost = none → ∀ j i ω, (U j i ω).2 = Y i)
    (hU : ∀ j i, Measurable (U j i)) (hlaw : ∀ j i, μ.map (U j i) = nu i)
    (hind : ∀ i, Pairwise fun j j' => IndepFun (U j i) (U j' i) μ)
    (hellm : Measurable fun u : (Fin d → ℝ) × (Fin k → ℝ) => ell u.1 u.2)
    (hint : ∀ i, Integrable (fun u => Real.exp ((ell u.1 u.2 - lam * costAt D.cost (X i) u.1 (Y i) u.2) / D.epsilon))
      ((nu i).map (movePair D.impSamp (moved (Regular lam gx ∧ Regular lam gy) lam gx i)
        (movedLabel D.cost (Regular lam gx ∧ Regular lam gy) lam gy i)))) :
    ∀ᵐ ω ∂μ, Filter.Tendsto (fun n => num (computeDual ext { D with lam := lam } a.xi (some y) (ten fun (j : Fin n) i => (U j i ω).1)
        (some (ten fun (j : Fin n) i => (U j i ω).2)))) Filter.atTop
      (𝓝 (population lam rho D.cost.power D.epsilon ell (fun i z y => costAt D.cost (X i) z (Y i) y)
        (fun i => (nu i).map (movePair D.impSamp (moved (Regular lam gx ∧ Regular lam gy) lam gx i)
          (movedLabel D.cost (Regular lam gx ∧ Regular lam gy) lam gy i))))) := by
  let sh : Fin m → (Fin d → ℝ) × (Fin k → ℝ) → (Fin d → ℝ) × (Fin k → ℝ) := fun i =>
    movePair D.impSamp (moved (Regular lam gx ∧ Regular lam gy) lam gx i) (movedLabel D.cost (Regular lam gx ∧ Regular lam gy) lam gy i)
  have hsh : ∀ i, Measurable (sh i) := fun i => movePair_measurable _ _ _
  let F : Fin m → (Fin d → ℝ) × (Fin k → ℝ) → ℝ :=
    fun i u => Real.exp ((ell u.1 u.2 - lam * costAt D.cost (X i) u.1 (Y i) u.2) / D.epsilon)
  have hF : ∀ i, Measurable (F i) := fun i => Real.measurable_exp.comp
    ((hellm.sub ((costAt_measurable (dualize_goodCost h) (X i) (Y i)).const_mul _)).div_const _)
  have hprob : ∀ i, IsProbabilityMeasure ((nu i).map (sh i)) := by
    intro i
    rw [← hlaw 0 i]
    have := Measure.isProbabilityMeasure_map (μ := μ) (hU 0 i).aemeasurable
    exact Measure.isProbabilityMeasure_map (hsh i).aemeasurable
  have key := log_avg_limit F hF (fun i => (nu i).map (sh i)) (fun j i ω => sh i (U j i ω)) (fun j i => (hsh i).comp (hU j i))
    (fun j i => by rw [← hlaw j i, Measure.map_map (hsh i) (hU j i)]; rfl)
    (fun i j j' hj => (hind i hj).comp (hsh i) (hsh i)) hint (fun i => by have := hprob i; exact integral_exp_pos (hint i))
    (lam * rho ^ D.cost.power) D.epsilon
  filter_upwards [key] with ω hω
  refine hω.congr' ?_
  filter_upwards [Filter.eventually_gt_atTop 0] with n hn
  obtain ⟨t, ht, hv⟩ := objective_labelled h hr hpos he hred hy hx hY (isTen_ten fun (j : Fin n) i => (U j i ω).1)
    (isTen_ten fun (j : Fin n) i => (U j i ω).2) hn hm hd hk hell lam hg hkap (fun h1 h2 j i => hdir h1 h2 j i ω)
  rw [ht]
  exact hv.2.symm

end

/-- squared Euclidean cost on the inputs, loss `x^2 + x + y` with its gradients, one data point at zero, unit radius, noise and
regularisation -/
noncomputable def exDrift (imp : Bool) : DualizeArgs where
  flat z w := match w with
    | none => .error .typeError
    | some w => Tensor.zipWith (fun x y => x ^ 2 + x + y) z w
  theta := []
  grads x y := (x.map (fun v => 2 * v + 1), y.map (fun t => t.map fun _ => 1))
  rho := .num 1
  xi := mat (fun (_ _ : Fin 1) => (0 : ℝ))
  xi_labels := some (mat (fun (_ _ : Fin 1) => (0 : ℝ)))
  cost_spec := some "t-NC-2-2".toList
  seed := none
  epsilon := some 1
  sigma := some 1
  imp_samp := imp

theorem exDrift_rows (imp : Bool) : PointLoss (exDrift imp).wloss.value (fun (x y : Fin 1 → ℝ) => x 0 ^ 2 + x 0 + y 0) := by
  have hf : RowWise (d := 1) (k := 1) (exDrift imp).wloss.flat (fun x y (_ : Fin 1) => x 0 ^ 2 + x 0 + y 0) := by
    intro N x y X Y hx hy
    obtain ⟨t, ht, hI⟩ := Is.zipWith_same (f := fun a b : ℝ => a ^ 2 + a + b) hx.is hy.is
    refine ⟨t, ht, ?_⟩
    have := isMat_iff.1 hI
    simp only [ix2_apply] at this
    refine (congrArg (IsMat t) ?_).mp this
    funext r c
    rw [Subsingleton.elim c 0]
  have := pointLoss_mean (w := (exDrift imp).wloss) rfl rfl hf
  simpa [ridge, DualizeArgs.wloss, exDrift] using this

/-- the gradients given to `robustify` are those of the loss -/
theorem exDrift_grads (x y : ℝ) : HasDerivAt (fun t : ℝ => t ^ 2 + t + y) (2 * x + 1) x ∧ HasDerivAt (fun t : ℝ => x ^ 2 + x + t) 1 y := by
  constructor
  · simpa using (((hasDerivAt_id x).pow 2).add (hasDerivAt_id x)).add_const y
  · simpa using (hasDerivAt_id y).const_add (x ^ 2 + x)

theorem norm2_ones : Spec.norm2 (fun _ : Fin 1 => (1 : ℝ)) = 1 := by simp [Spec.norm2, pnorm]

theorem costAt_line {c : CostR} (hk : c.kind = .normCost) (hp : c.p = .fin 2) (hw : c.power = 2) (x z y y' : Fin 1 → ℝ) :
    costAt c x z y y' = (x 0 - z 0) ^ 2 := by
  rw [C04_point_formula c hk (Or.inl ⟨2, by norm_num, hp⟩), hp, hw]
  simp only [pnorm, Fin.sum_univ_one, Fin.isValue]
  rw [← Real.rpow_mul (abs_nonneg _)]
  norm_num

/-- independent standard normal draws, and the samples around the data point zero that they give (the cost keeps labels fixed) -/
noncomputable def driftLaw : Measure (ℕ → ℝ) := Measure.infinitePi fun _ => gaussianReal 0 1

def driftSample (ω : ℕ → ℝ) (n : ℕ) : Tensor ℝ := ten fun (j : Fin n) (_ : Fin 1) (_ : Fin 1) => ω j

def driftLabels (n : ℕ) : Tensor ℝ := ten fun (_ : Fin n) (_ : Fin 1) (_ : Fin 1) => (0 : ℝ)

instance : IsProbabilityMeasure driftLaw := by unfold driftLaw; infer_instance

/-- what `robustify` makes of these arguments -/
theorem exDrift_built (imp : Bool) (g : G) : ∃ D g', dualize ext (exDrift imp) g = .ok (D, g') ∧ D.cost.kind = .normCost ∧
    D.cost.p = .fin 2 ∧ D.cost.power = 2 ∧ D.impSamp = imp ∧ D.epsilon = 1 ∧ D.primal = (exDrift imp).wloss.value := by
  have hp : parse_code_torch (exDrift imp).cost_spec (exDrift imp).xi_labels.isSome = .ok ⟨"t".toList, "NC".toList, .fin 2, .fin 2, .fin 100000000⟩ :=
    code_parse "NC".toList 2 2 (by decide) true
  have ho : cost_from_parse_torch ⟨"t".toList, "NC".toList, .fin 2, .fin 2, .fin 100000000⟩ = .ok (mkNormCost (.fin 2) (.fin 2) none) := rfl
  obtain ⟨D, g', s, h, _⟩ := (C08_supported_costs ext (exDrift imp) g hp ho (by simp [exDrift])).1 (Or.inr ⟨rfl, rfl⟩)
  refine ⟨D, g', h, ?_⟩
  obtain ⟨parsed, obj, c, s', hp', ho', hc', _, rfl⟩ := dualize_ok h
  rw [hp] at hp'
  simp only [Except.ok.injEq] at hp'
  subst hp'
  rw [ho] at ho'
  simp only [Except.ok.injEq] at ho'
  subst ho'
  simp only [CostObj.toReal, mkNormCost, Option.some.injEq] at hc'
  subst hc'
  refine ⟨rfl, ?_, ?_, ?_, rfl, rfl⟩
  · simp [dualOf, XNum.map]
  · simp [dualOf]
  · simp [dualOf, decideOnImpsamp, exDrift, ParsedCost.can_imp_samp, XNum.eqLit]

theorem exDrift_limit (imp : Bool) (g : G) : ∃ D g', dualize ext (exDrift imp) g = .ok (D, g') ∧ D.impSamp = imp ∧
    ∀ᵐ ω ∂driftLaw, Filter.Tendsto (fun n => num (computeDual ext { D with lam := 1 } (exDrift imp).xi (exDrift imp).xi_labels
      (driftSample ω n) (some (driftLabels n)))) Filter.atTop (𝓝 (3 / 2 + if imp then 1 / 2 else 0)) := by
  obtain ⟨D, g', h, hk, hq, hw, hi, he, hP⟩ := exDrift_built ext imp g
  refine ⟨D, g', h, hi, ?_⟩
  have hlw : labelWeight D.cost = none := by simp [labelWeight, hk]
  have hell : PointLoss D.primal (fun (x y : Fin 1 → ℝ) => x 0 ^ 2 + x 0 + y 0) := hP ▸ exDrift_rows imp
  have hreg : Regular 1 (fun (_ _ : Fin 1) => (1 : ℝ)) ∧ Regular 1 (fun (_ _ : Fin 1) => (1 : ℝ)) := by
    have : Regular 1 (fun (_ _ : Fin 1) => (1 : ℝ)) := ⟨one_ne_zero, fun i => by rw [norm2_ones]; exact one_ne_zero⟩
    exact ⟨this, this⟩
  have hmove : moved (Regular 1 (fun (_ _ : Fin 1) => (1 : ℝ)) ∧ Regular 1 (fun (_ _ : Fin 1) => (1 : ℝ))) 1 (fun (_ _ : Fin 1) => (1 : ℝ)) =
      fun _ _ => 1 / 2 := by
    funext i q
    simp only [moved, if_pos hreg, shift, norm2_ones]
    norm_num
  have hmoveL : movedLabel D.cost (Regular 1 (fun (_ _ : Fin 1) => (1 : ℝ)) ∧ Regular 1 (fun (_ _ : Fin 1) => (1 : ℝ))) 1
      (fun (_ _ : Fin 1) => (1 : ℝ)) = fun _ _ => 0 := by
    funext i q; simp [movedLabel, hlw]
  let f : ℝ → (Fin 1 → ℝ) × (Fin 1 → ℝ) := fun t => (fun _ => t, fun _ => 0)
  have hf : Measurable f := (measurable_pi_lambda _ fun _ => measurable_id).prodMk measurable_const
  let dd : ℝ := if imp then 1 / 2 else 0
  let sh := movePair (d := 1) (k := 1) imp (fun _ => (1 / 2 : ℝ)) (fun _ => 0)
  have hsh : Measurable sh := movePair_measurable _ _ _
  have hmeas : Measurable fun u : (Fin 1 → ℝ) × (Fin 1 → ℝ) => u.1 0 ^ 2 + u.1 0 + u.2 0 :=
    ((((measurable_pi_apply 0).comp measurable_fst).pow_const 2).add ((measurable_pi_apply 0).comp measurable_fst)).add
      ((measurable_pi_apply 0).comp measurable_snd)
  let E : (Fin 1 → ℝ) × (Fin 1 → ℝ) → ℝ := fun u => Real.exp ((u.1 0 ^ 2 + u.1 0 + u.2 0 -
    1 * costAt D.cost (fun _ : Fin 1 => 0) u.1 (fun _ : Fin 1 => 0) u.2) / D.epsilon)
  have hE : Measurable E := Real.measurable_exp.comp
    ((hmeas.sub ((costAt_measurable (dualize_goodCost h) _ _).const_mul _)).div_const _)
  have hEf : ∀ t, E (sh (f t)) = Real.exp dd * Real.exp (1 * t) := by
    intro t
    simp only [E, costAt_line hk hq hw, he, ← Real.exp_add]
    congr 1
    cases imp <;> simp [sh, f, dd, movePair] <;> ring
  have hI : Integrable (fun t => E (sh (f t))) (gaussianReal 0 1) := by
    simp only [hEf]
    exact (integrable_exp_mul_gaussianReal 1).const_mul _
  have hv : ∫ t, E (sh (f t)) ∂(gaussianReal 0 1) = Real.exp (dd + 1 / 2) := by
    simp only [hEf]
    rw [integral_const_mul]
    have := mgf_gaussianReal (p := gaussianReal 0 1) (X := id) (μ := 0) (v := 1) (by simp) 1
    simp only [mgf, id] at this
    rw [this, ← Real.exp_add]
    norm_num
  have hmap : ((gaussianReal 0 1).map f).map sh = (gaussianReal 0 1).map (fun t => sh (f t)) := Measure.map_map hsh hf
  have key := C99_labelled_limit_partial ext (m := 1) (d := 1) (k := 1) (μ := driftLaw) h rfl one_pos (by simp [exDrift]) rfl rfl (isMat_mat _) (isMat_mat _)
    one_pos one_pos one_pos hell 1 (gx := fun _ _ => 1) (gy := fun _ _ => 1)
    (by
      refine ⟨_, _, rfl, ⟨rfl, fun _ _ _ => ?_⟩, ⟨rfl, fun _ _ _ => ?_⟩⟩
      · simp [Tensor.map, mat, unsqueeze0, exDrift]
      · simp [Tensor.map])
    (by simp [hlw]) (fun j _ ω => f (ω j)) (fun _ => (gaussianReal 0 1).map f) (fun _ _ _ _ _ => rfl)
    (fun j _ => hf.comp (measurable_pi_apply j))
    (fun j _ => by
      have : driftLaw.map (fun ω => ω j) = gaussianReal 0 1 := Measure.infinitePi_map_eval _ j
      rw [← this, Measure.map_map hf (measurable_pi_apply j)]; rfl)
    (fun _ j j' hj => (((iIndepFun_infinitePi (P := fun _ : ℕ => gaussianReal 0 1) (X := fun _ u => u) fun _ => measurable_id).indepFun hj).comp hf hf))
    hmeas
    (fun i => by
      rw [hmove, hmoveL, hi]
      show Integrable E (((gaussianReal 0 1).map f).map sh)
      rw [hmap]
      exact (integrable_map_measure hE.aestronglyMeasurable (hsh.comp hf).aemeasurable).2 hI)
  filter_upwards [key] with ω hω
  have hval : population 1 1 D.cost.power D.epsilon (fun (x y : Fin 1 → ℝ) => x 0 ^ 2 + x 0 + y 0)
      (fun (_ : Fin 1) z y => costAt D.cost (fun _ : Fin 1 => (0 : ℝ)) z (fun _ : Fin 1 => (0 : ℝ)) y) (fun _ => ((gaussianReal 0 1).map f).map sh) =
      3 / 2 + if imp then 1 / 2 else 0 := by
    have : ∫ u, E u ∂(((gaussianReal 0 1).map f).map sh) = Real.exp (dd + 1 / 2) := by
      rw [hmap, integral_map (show Measurable fun t => sh (f t) from hsh.comp hf).aemeasurable hE.aestronglyMeasurable]; exact hv
    simp only [population, avg]
    rw [show (∫ u, Real.exp ((u.1 0 ^ 2 + u.1 0 + u.2 0 - 1 * costAt D.cost (fun _ : Fin 1 => (0 : ℝ)) u.1 (fun _ : Fin 1 => (0 : ℝ)) u.2) / D.epsilon)
      ∂(((gaussianReal 0 1).map f).map sh)) = _ from this, Real.log_exp, he]
    simp [dd]; ring
  refine (congrArg (fun r => Filter.Tendsto _ Filter.atTop (𝓝 r)) ?_).mp hω
  rw [hmove, hmoveL, hi]
  exact hval

/-- **C99** (violated with labels) With labels and importance sampling the robust loss estimates another value: `robustify` with the squared
Euclidean cost on the inputs, loss `x^2 + x + y`, one data point, unit radius, noise and regularisation, at multiplier one.  The same normal
samples give `3/2`, the advertised objective, without importance sampling and `2` with it, whatever the random generators. -/
theorem C99_labelled_false (g : G) : ∃ D D' g1 g2, dualize ext (exDrift false) g = .ok (D, g1) ∧ dualize ext (exDrift true) g = .ok (D', g2) ∧
    (∀ᵐ ω ∂driftLaw, Filter.Tendsto (fun n => num (computeDual ext { D with lam := 1 } (exDrift false).xi (exDrift false).xi_labels
      (driftSample ω n) (some (driftLabels n)))) Filter.atTop (𝓝 (3 / 2))) ∧
    (∀ᵐ ω ∂driftLaw, Filter.Tendsto (fun n => num (computeDual ext { D' with lam := 1 } (exDrift true).xi (exDrift true).xi_labels
      (driftSample ω n) (some (driftLabels n)))) Filter.atTop (𝓝 2)) := by
  obtain ⟨D, g1, h, -, hl⟩ := exDrift_limit ext false g
  obtain ⟨D', g2, h', -, hl'⟩ := exDrift_limit ext true g
  refine ⟨D, D', g1, g2, h, h', by simpa using hl, ?_⟩
  have : (3 / 2 + if true = true then 1 / 2 else 0 : ℝ) = 2 := by norm_num
  rwa [this] at hl'

end Skwdro
