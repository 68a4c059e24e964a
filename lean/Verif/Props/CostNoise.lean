import Verif.Props.ImpSamp

/-!
# Costs: default noise scale (C08) and refusal to displace (C21)
-/

namespace Skwdro
open Spec Tensor

variable {G : Type} (ext : TorchExt G)
variable {m d : ℕ} {D : DualLoss} {xi zeta : Tensor ℝ} {g : Fin m → Fin d → ℝ}

/-! ## C08 -/

theorem samplerData_default (c : CostR) (xi : Tensor ℝ) : samplerData c xi none = samplerData c xi (some (1 / 1000)) := by
  simp only [samplerData, defaultEps, Option.getD_none, Option.getD_some]

/-- **C08** A sampler built from a supported cost without a noise scale draws its inputs around the data with the scale
`1e-3`: Laplace noise for the pair `(1,1)`, normal noise otherwise.  Unsupported costs are refused as not implemented. -/
theorem C08_default_scale {obj : CostObj} {c : CostR} (hc : obj.toReal = some c) (xi : Tensor ℝ) (seed : Option ℤ) (g : G) :
    (Supported obj.power obj.p → ∃ s g', mkNoLabelsCost ext c xi none seed g = .ok (s, g') ∧ s.labels_s = none ∧
      s.data_s = if obj.power = .fin 1 ∧ obj.p = .fin 1 then .laplace xi (.fin (1 / 1000)) else .normal xi (.fin (1 / 1000))) ∧
    (¬ Supported obj.power obj.p → mkNoLabelsCost ext c xi none seed g = .error .notImplemented) := by
  obtain ⟨h1, h2⟩ := samplerData_ok hc xi (e := 1 / 1000) (by norm_num)
  refine ⟨fun h => ?_, fun h => ?_⟩
  · simp only [mkNoLabelsCost, samplerData_default, h1 h, ok_bind]
    exact ⟨_, _, rfl, rfl, rfl⟩
  · simp only [mkNoLabelsCost, samplerData_default, h2 h, error_bind]

/-- **C08** The same for the labelled sampler with a label cost: labels too are drawn with the scale `1e-3`, divided by the
label weight for the costs of power one, and are not moved at all for an infinite weight. -/
theorem C08_default_label_scale (k : ℝ) (xi y : Tensor ℝ) (seed : Option ℤ) (g : G) (hk : 0 < k) :
    (∃ s g', mkLabeledCost ext ⟨.normLabelCost, .fin 2, 2, .fin k⟩ xi y none seed g = .ok (s, g') ∧
      s.data_s = .normal xi (.fin (1 / 1000)) ∧ s.labels_s = some (.normal y (.fin (1 / 1000)))) ∧
    (∃ s g', mkLabeledCost ext ⟨.normLabelCost, .fin 2, 1, .fin k⟩ xi y none seed g = .ok (s, g') ∧
      s.data_s = .normal xi (.fin (1 / 1000)) ∧ s.labels_s = some (.normal y (.fin (1 / 1000 / k)))) ∧
    (∃ s g', mkLabeledCost ext ⟨.normLabelCost, .pinf, 1, .fin k⟩ xi y none seed g = .ok (s, g') ∧
      s.data_s = .normal xi (.fin (1 / 1000)) ∧ s.labels_s = some (.normal y (.fin (1 / 1000 / k)))) ∧
    (∃ s g', mkLabeledCost ext ⟨.normLabelCost, .fin 1, 1, .fin k⟩ xi y none seed g = .ok (s, g') ∧
      s.data_s = .laplace xi (.fin (1 / 1000)) ∧ s.labels_s = some (.laplace y (.fin (1 / 1000 / k)))) ∧
    (∃ s g', mkLabeledCost ext ⟨.normLabelCost, .fin 2, 2, .pinf⟩ xi y none seed g = .ok (s, g') ∧
      s.data_s = .normal xi (.fin (1 / 1000)) ∧ s.labels_s = some (.dirac y 0)) := by
  have hk' := hk.ne'
  have h4 : (0 : ℝ) < 1000⁻¹ / k := by positivity
  have e : ((2 : ℝ) = 1) = False := by norm_num
  refine ⟨?_, ?_, ?_, ?_, ?_⟩ <;>
    simp [mkLabeledCost, samplerData, samplerLabels, samplerLabelsNLC, defaultEps, mkNormal, mkLaplace, validScale, scaleOver,
      hk', h4, e, Except.map]

/-- the code `NC-1-1` gives Laplace noise of scale `1e-3` -/
example (xi : Tensor ℝ) (g : G) : ∃ s g', mkNoLabelsCost ext ⟨.normCost, .fin 1, 1, .fin 0⟩ xi none none g = .ok (s, g') ∧
    s.labels_s = none ∧ s.data_s = .laplace xi (.fin (1 / 1000)) := by
  have h := (C08_default_scale ext (obj := mkNormCost (.fin 1) (.fin 1) none) (c := ⟨.normCost, .fin 1, 1, .fin 0⟩)
    (by simp [mkNormCost, CostObj.toReal, XNum.map]) xi none g).1 (Or.inl ⟨rfl, Or.inl rfl⟩)
  simpa [mkNormCost] using h

/-! ## C21 -/

theorem not_squared {c : CostR} (h : c.p ≠ .fin 2 ∨ c.power ≠ 2) : isSquaredEuclid c = false := by
  rcases hp : c.p with _ | _ | q | _ <;> simp [isSquaredEuclid, XNum.eqLit, hp] at h ⊢
  intro hq
  exact h.resolve_left (not_not.2 (by simpa using hq))

/-- **C21** Costs other than the squared Euclidean one refuse to displace: with importance sampling switched on by hand, a
positive multiplier and non-zero gradients, a robust loss with such a cost raises `NotImplementedError` when it is evaluated
at a positive radius, whatever the data and samples. -/
theorem C21_refused (hcost : D.cost.p ≠ .fin 2 ∨ D.cost.power ≠ 2) (hm : 0 < m) (hd : 0 < d) {tg : Tensor ℝ}
    (hg : D.grads xi.unsqueeze0 none = (tg, none)) (ht : IsTen tg (fun (_ : Fin 1) => g)) (hl : 0 < D.lam)
    (hne : ∀ i, ∃ k, g i k ≠ 0) :
    displaceSamples D xi none zeta none = .error .notImplemented ∧
    ∀ r, 0 < r → D.rho = .num r → D.ermMode = false → D.impSamp = true →
      computeDual ext D xi none zeta none = .error .notImplemented := by
  have hr : Regular D.lam g := by
    by_contra hc
    rcases regular_iff.1 hc with h0 | ⟨i, hi⟩
    · exact hl.ne' h0
    · obtain ⟨k, hk⟩ := hne i; exact hk (hi k)
  have hv : checkTensorInvalid (normalizeVects (10 ^ 10) D.lam tg) = false := by
    simpa using mt (invalid_iff hm hd D.lam ht).1 (not_not.2 hr)
  have h1 : displaceSamples D xi none zeta none = .error .notImplemented := by
    simp [displaceSamples, optimalDisplacement, maybeUnsqueeze, hg, hv, labelsInvalid, solveMaxSeriesExp, not_squared hcost]
  refine ⟨h1, fun r hr hrho he hi => ?_⟩
  simp only [computeDual, hrho, he, hr.ne', hr, hi, impSampBranch, h1]
  simp

/-- the Euclidean cost of power one, on the loss `|x|^2 / 2` at the point `(1, 1)` -/
example (zeta : Tensor ℝ) :
    computeDual ext { exImp .normCost .pinf 1 none with cost := ⟨.normCost, .fin 2, 1, .pinf⟩ } (mat fun (_ : Fin 1) (_ : Fin 2) => 1)
      none zeta none = .error .notImplemented :=
  (C21_refused ext (m := 1) (d := 2) (g := fun _ _ => 1) (Or.inr (by norm_num)) (by norm_num) (by norm_num) rfl
    (isTen_unsqueeze (isMat_mat _)) (by norm_num [exImp]) (fun _ => ⟨0, by norm_num⟩)).2 1 one_pos rfl rfl rfl

end Skwdro
