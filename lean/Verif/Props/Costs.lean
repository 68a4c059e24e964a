import Verif.Lemmas.Costs
import Mathlib.Topology.Algebra.Order.Field
import Mathlib.Analysis.SpecialFunctions.Pow.Continuity

/-! # C04–C07: ground costs (`/repo/skwdro/base/costs_torch/`) -/

namespace Skwdro
open Spec Tensor Topology

section C04
variable {d k : ℕ}

/-- **C04** (values) On centres of shape `(1,m,d)` and samples of shape `(n,m,d)` the norm cost returns, without
failing, the `(n,m,1)` tensor of `‖xi_i - zeta_ji‖_p ^ power`; labels do not matter. -/
theorem C04_formula {n m : ℕ} (c : CostR) (hc : c.kind = .normCost) (hp : NormOrder c.p) {xi zeta : Tensor ℝ}
    {X : Fin 1 → Fin m → Fin d → ℝ} {Z : Fin n → Fin m → Fin d → ℝ} (hx : IsTen xi X) (hz : IsTen zeta Z)
    (yl zl : Option (Tensor ℝ)) :
    Returns (c.value xi zeta yl zl)
      (fun t => IsTen t (fun j i (_ : Fin 1) => pnorm c.p (fun k => X 0 i k - Z j i k) ^ c.power)) := by
  obtain ⟨t, ht, hI⟩ := penalty_batch hp hx hz
  refine ⟨t.map (· ^ c.power), ?_, ?_⟩
  · simp [CostR.value, hc, normCostValue, ht]
  · have := isTen_iff.1 (hI.map (f := (· ^ c.power)))
    simpa only [ix3_apply] using this

/-- **C04** (values on single points) -/
theorem C04_point_formula (c : CostR) (hc : c.kind = .normCost) (hp : NormOrder c.p) (x z : Fin d → ℝ)
    (y y' : Fin k → ℝ) : costAt c x z y y' = pnorm c.p (fun i => x i - z i) ^ c.power := by
  obtain ⟨t, ht, hI⟩ := penalty_vec hp (isVec_vec x) (isVec_vec z)
  have := (hI.map (f := (· ^ c.power))).2 [0] (by simp [InShape])
  simp [costAt, CostR.value, hc, normCostValue, ht, this]

variable (c : CostR) (hc : c.kind = .normCost) (hp : NormOrder c.p) (hw : 0 < c.power)
include hc hp

/-- **C04** The norm cost is non-negative. -/
theorem C04_nonneg (x z : Fin d → ℝ) (y y' : Fin k → ℝ) : 0 ≤ costAt c x z y y' := by
  rw [C04_point_formula c hc hp]; exact Real.rpow_nonneg (pnorm_nonneg _ _) _

/-- **C04** The norm cost is symmetric. -/
theorem C04_symm (x z : Fin d → ℝ) (y y' : Fin k → ℝ) : costAt c x z y y' = costAt c z x y' y := by
  rw [C04_point_formula c hc hp, C04_point_formula c hc hp, pnorm_sub_comm]

/-- **C04** The norm cost is translation invariant. -/
theorem C04_translation (x z t : Fin d → ℝ) (y y' : Fin k → ℝ) :
    costAt c (fun i => x i + t i) (fun i => z i + t i) y y' = costAt c x z y y' := by
  rw [C04_point_formula c hc hp, C04_point_formula c hc hp]; simp

include hw in
/-- **C04** The norm cost vanishes exactly when the points coincide. -/
theorem C04_zero_iff (x z : Fin d → ℝ) (y y' : Fin k → ℝ) : costAt c x z y y' = 0 ↔ x = z := by
  rw [C04_point_formula c hc hp, Real.rpow_eq_zero (pnorm_nonneg _ _) hw.ne', pnorm_eq_zero hp]
  simp [sub_eq_zero, funext_iff]

/-- **C04** With power 1 the norm cost satisfies the triangle inequality. -/
theorem C04_triangle (h1 : c.power = 1) (x y z : Fin d → ℝ) (a b e : Fin k → ℝ) :
    costAt c x z a e ≤ costAt c x y a b + costAt c y z b e := by
  simp only [C04_point_formula c hc hp, h1, Real.rpow_one]
  exact pnorm_sub_triangle hp x y z

end C04

theorem order_two : NormOrder (.fin 2) := Or.inl ⟨2, by norm_num, rfl⟩

/-! The hypotheses of the theorems of C04 hold for the Euclidean cost. -/

section
variable (x y z t : Fin 2 → ℝ) (a b e : Fin 1 → ℝ)

abbrev exEuclid : CostR := ⟨.normCost, .fin 2, 1, .nan⟩

example (Z : Fin 3 → Fin 4 → Fin 2 → ℝ) (X : Fin 1 → Fin 4 → Fin 2 → ℝ) := C04_formula exEuclid rfl order_two (isTen_ten X) (isTen_ten Z) none none
example := C04_point_formula exEuclid rfl order_two x z a b
example := C04_nonneg exEuclid rfl order_two x z a b
example := C04_symm exEuclid rfl order_two x z a b
example := C04_translation exEuclid rfl order_two x z t a b
example := C04_zero_iff exEuclid rfl order_two one_pos x z a b
example := C04_triangle exEuclid rfl order_two rfl x y z a b e

end

/-- non-vacuity of C04: the Euclidean cost of power 1 on `(0,0)` and `(3,4)` is 5 -/
example : costAt (⟨.normCost, .fin 2, 1, .nan⟩ : CostR) (d := 2) (k := 0) ![0, 0] ![3, 4] ![] ![] = 5 := by
  rw [C04_point_formula _ rfl (Or.inl ⟨2, by norm_num, rfl⟩)]
  simp [pnorm, Fin.sum_univ_two]
  norm_num

section C05
variable {d k : ℕ}

/-- **C05** (values) With `0 < kappa < inf` the label cost returns, on centres and samples of shapes `(1,m,·)` and
`(n,m,·)`, the `(n,m,1)` tensor of `((‖dx‖ + kappa ‖dy‖)/(1+kappa)) ^ power`. -/
theorem C05_formula {n m : ℕ} (c : CostR) (hc : c.kind = .normLabelCost) (hp : NormOrder c.p) {κ : ℝ} (hκ : 0 < κ)
    (hk : c.kappa = .fin κ) {xi zeta yl zl : Tensor ℝ}
    {X : Fin 1 → Fin m → Fin d → ℝ} {Z : Fin n → Fin m → Fin d → ℝ} (hx : IsTen xi X) (hz : IsTen zeta Z)
    {Y : Fin 1 → Fin m → Fin k → ℝ} {W : Fin n → Fin m → Fin k → ℝ} (hy : IsTen yl Y) (hw : IsTen zl W) :
    Returns (c.value xi zeta (some yl) (some zl))
      (fun t => IsTen t (fun j i (_ : Fin 1) =>
        ((pnorm c.p (fun l => X 0 i l - Z j i l) + κ * pnorm c.p (fun l => Y 0 i l - W j i l)) / (1 + κ)) ^ c.power)) := by
  obtain ⟨t, ht, hI⟩ := penalty_batch hp hx hz
  obtain ⟨u, hu, hJ⟩ := penalty_batch hp hy hw
  obtain ⟨v, hv, hK⟩ := Is.zipWith_same (f := fun a b => a + κ * b) hI hJ
  refine ⟨(v.map (· / (1 + κ))).map (· ^ c.power), ?_, ?_⟩
  · simp [CostR.value, hc, normLabelCostValue, ht, hu, hv, hk, hκ.ne']
  · have := isTen_iff.1 ((hK.map (f := (· / (1 + κ)))).map (f := (· ^ c.power)))
    simpa only [ix3_apply] using this

/-- **C05** (values on single points, all three conventions for `kappa`) -/
theorem C05_point_formula (c : CostR) (hc : c.kind = .normLabelCost) (hp : NormOrder c.p)
    (x z : Fin d → ℝ) (y y' : Fin k → ℝ) :
    (∀ κ, 0 ≤ κ → c.kappa = .fin κ → costAt c x z y y' =
      ((pnorm c.p (fun i => x i - z i) + κ * pnorm c.p (fun i => y i - y' i)) / (1 + κ)) ^ c.power) ∧
    (c.kappa = .pinf → costAt c x z y y' = pnorm c.p (fun i => y i - y' i) ^ c.power) := by
  obtain ⟨t, ht, hI⟩ := penalty_vec hp (isVec_vec x) (isVec_vec z)
  obtain ⟨u, hu, hJ⟩ := penalty_vec hp (isVec_vec y) (isVec_vec y')
  refine ⟨fun κ hκ hk => ?_, fun hk => ?_⟩
  · by_cases h0 : κ = 0
    · subst h0
      have := (hI.map (f := (· ^ c.power))).2 [0] (by simp [InShape])
      simp [costAt, CostR.value, hc, normLabelCostValue, ht, hk, this]
    · obtain ⟨v, hv, hK⟩ := Is.zipWith_same (f := fun a b => a + κ * b) hI hJ
      have := ((hK.map (f := (· / (1 + κ)))).map (f := (· ^ c.power))).2 [0] (by simp [InShape])
      simp [costAt, CostR.value, hc, normLabelCostValue, ht, hu, hv, hk, h0, this]
  · have := (hJ.map (f := (· ^ c.power))).2 [0] (by simp [InShape])
    simp [costAt, CostR.value, hc, normLabelCostValue, hu, hk, this]

variable (c : CostR) (hc : c.kind = .normLabelCost) (hp : NormOrder c.p)
include hc hp

/-- **C05** The label cost is non-negative, for every label weight the constructor accepts. -/
theorem C05_nonneg (hk : c.kappa = .pinf ∨ ∃ κ, 0 ≤ κ ∧ c.kappa = .fin κ) (x z : Fin d → ℝ) (y y' : Fin k → ℝ) :
    0 ≤ costAt c x z y y' := by
  rcases hk with hk | ⟨κ, h0, hk⟩
  · rw [(C05_point_formula c hc hp x z y y').2 hk]; exact Real.rpow_nonneg (pnorm_nonneg _ _) _
  · rw [(C05_point_formula c hc hp x z y y').1 κ h0 hk]
    have := pnorm_nonneg c.p (fun i => x i - z i)
    have := pnorm_nonneg c.p (fun i => y i - y' i)
    exact Real.rpow_nonneg (by positivity) _

/-- **C05** The label cost is symmetric. -/
theorem C05_symm (hk : c.kappa = .pinf ∨ ∃ κ, 0 ≤ κ ∧ c.kappa = .fin κ) (x z : Fin d → ℝ) (y y' : Fin k → ℝ) :
    costAt c x z y y' = costAt c z x y' y := by
  rcases hk with hk | ⟨κ, h0, hk⟩
  · rw [(C05_point_formula c hc hp x z y y').2 hk, (C05_point_formula c hc hp z x y' y).2 hk, pnorm_sub_comm]
  · rw [(C05_point_formula c hc hp x z y y').1 κ h0 hk, (C05_point_formula c hc hp z x y' y).1 κ h0 hk,
      pnorm_sub_comm, pnorm_sub_comm _ y]

/-- **C05** With `0 < kappa < inf` the label cost vanishes exactly when inputs and labels coincide. -/
theorem C05_zero_iff {κ : ℝ} (hκ : 0 < κ) (hk : c.kappa = .fin κ) (hw : 0 < c.power)
    (x z : Fin d → ℝ) (y y' : Fin k → ℝ) : costAt c x z y y' = 0 ↔ x = z ∧ y = y' := by
  rw [(C05_point_formula c hc hp x z y y').1 κ hκ.le hk]
  have h1 := pnorm_nonneg c.p (fun i => x i - z i)
  have h2 := pnorm_nonneg c.p (fun i => y i - y' i)
  rw [Real.rpow_eq_zero (by positivity) hw.ne', div_eq_zero_iff, or_iff_left (by positivity),
    add_eq_zero_iff_of_nonneg h1 (by positivity), mul_eq_zero, or_iff_right hκ.ne', pnorm_eq_zero hp,
    pnorm_eq_zero hp]
  simp [sub_eq_zero, funext_iff]

/-- **C05** With power 1 the label cost satisfies the triangle inequality. -/
theorem C05_triangle (hk : c.kappa = .pinf ∨ ∃ κ, 0 ≤ κ ∧ c.kappa = .fin κ) (h1 : c.power = 1)
    (x y z : Fin d → ℝ) (a b e : Fin k → ℝ) :
    costAt c x z a e ≤ costAt c x y a b + costAt c y z b e := by
  have t1 := pnorm_sub_triangle hp x y z
  have t2 := pnorm_sub_triangle hp a b e
  rcases hk with hk | ⟨κ, h0, hk⟩
  · simp only [(C05_point_formula c hc hp _ _ _ _).2 hk, h1, Real.rpow_one]; exact t2
  · simp only [(C05_point_formula c hc hp _ _ _ _).1 κ h0 hk, h1, Real.rpow_one]
    rw [← add_div]
    apply div_le_div_of_nonneg_right _ (by positivity)
    nlinarith [mul_le_mul_of_nonneg_left t2 h0]

/-- **C05** The label cost lies between the powers of the smaller and of the larger of the two penalties. -/
theorem C05_between (hk : c.kappa = .pinf ∨ ∃ κ, 0 ≤ κ ∧ c.kappa = .fin κ) (hw : 0 ≤ c.power)
    (x z : Fin d → ℝ) (y y' : Fin k → ℝ) :
    min (pnorm c.p (fun i => x i - z i)) (pnorm c.p (fun i => y i - y' i)) ^ c.power ≤ costAt c x z y y' ∧
    costAt c x z y y' ≤ max (pnorm c.p (fun i => x i - z i)) (pnorm c.p (fun i => y i - y' i)) ^ c.power := by
  have h1 := pnorm_nonneg c.p (fun i => x i - z i)
  have h2 := pnorm_nonneg c.p (fun i => y i - y' i)
  rcases hk with hk | ⟨κ, h0, hk⟩
  · rw [(C05_point_formula c hc hp x z y y').2 hk]
    exact ⟨Real.rpow_le_rpow (le_min h1 h2) (min_le_right _ _) hw, Real.rpow_le_rpow h2 (le_max_right _ _) hw⟩
  · rw [(C05_point_formula c hc hp x z y y').1 κ h0 hk]
    constructor
    · apply Real.rpow_le_rpow (le_min h1 h2) _ hw
      rw [le_div_iff₀ (by positivity)]
      have := min_le_left (pnorm c.p (fun i => x i - z i)) (pnorm c.p (fun i => y i - y' i))
      have := mul_le_mul_of_nonneg_left (min_le_right (pnorm c.p (fun i => x i - z i)) (pnorm c.p (fun i => y i - y' i))) h0
      linarith
    · apply Real.rpow_le_rpow (by positivity) _ hw
      rw [div_le_iff₀ (by positivity)]
      have := le_max_left (pnorm c.p (fun i => x i - z i)) (pnorm c.p (fun i => y i - y' i))
      have := mul_le_mul_of_nonneg_left (le_max_right (pnorm c.p (fun i => x i - z i)) (pnorm c.p (fun i => y i - y' i))) h0
      linarith

end C05

/-! The hypotheses of the theorems of C05 hold for a cost mixing inputs and labels with weight 3. -/

section
variable (x y z t : Fin 2 → ℝ) (a b e : Fin 1 → ℝ)

noncomputable abbrev exMixed : CostR := ⟨.normLabelCost, .fin 2, 1, .fin 3⟩

example (Z : Fin 3 → Fin 4 → Fin 2 → ℝ) (X : Fin 1 → Fin 4 → Fin 2 → ℝ) (W : Fin 3 → Fin 4 → Fin 1 → ℝ) (Y : Fin 1 → Fin 4 → Fin 1 → ℝ) :=
  C05_formula exMixed rfl order_two three_pos rfl (isTen_ten X) (isTen_ten Z) (isTen_ten Y) (isTen_ten W)
example := (C05_point_formula exMixed rfl order_two x z a b).1 3 (by norm_num) rfl
example := C05_nonneg exMixed rfl order_two (Or.inr ⟨3, by norm_num, rfl⟩) x z a b
example := C05_symm exMixed rfl order_two (Or.inr ⟨3, by norm_num, rfl⟩) x z a b
example := C05_zero_iff exMixed rfl order_two three_pos rfl one_pos x z a b
example := C05_triangle exMixed rfl order_two (Or.inr ⟨3, by norm_num, rfl⟩) rfl x y z a b e
example := C05_between exMixed rfl order_two (Or.inr ⟨3, by norm_num, rfl⟩) zero_le_one x z a b

end

/-- non-vacuity of C05: kappa = 1, one-dimensional input moved by 2, label moved by 4: cost (2+4)/2 = 3 -/
example : costAt (⟨.normLabelCost, .pinf, 1, .fin 1⟩ : CostR) (d := 1) (k := 1) ![0] ![2] ![0] ![4] = 3 := by
  rw [(C05_point_formula _ rfl (Or.inr rfl) _ _ _ _).1 1 (by norm_num) rfl]
  simp [pnorm]; norm_num

/-- **C06** The conventions `kappa = 0` and `kappa = inf` are the limits of the ordinary label cost. -/
theorem C06_kappa_limits {d k : ℕ} (p : XNum ℝ) (hp : NormOrder p) (w : ℝ) (hw : 0 < w)
    (x z : Fin d → ℝ) (y y' : Fin k → ℝ) :
    Filter.Tendsto (fun κ => costAt ⟨.normLabelCost, p, w, .fin κ⟩ x z y y') (𝓝[>] 0)
      (𝓝 (costAt ⟨.normLabelCost, p, w, .fin 0⟩ x z y y')) ∧
    Filter.Tendsto (fun κ => costAt ⟨.normLabelCost, p, w, .fin κ⟩ x z y y') Filter.atTop
      (𝓝 (costAt ⟨.normLabelCost, p, w, .pinf⟩ x z y y')) := by
  set a := pnorm p (fun i => x i - z i) with ha
  set b := pnorm p (fun i => y i - y' i) with hb
  have F : ∀ κ, 0 ≤ κ → costAt ⟨.normLabelCost, p, w, .fin κ⟩ x z y y' = ((a + κ * b) / (1 + κ)) ^ w := fun κ h =>
    (C05_point_formula ⟨.normLabelCost, p, w, .fin κ⟩ rfl hp x z y y').1 κ h rfl
  have G := (C05_point_formula ⟨.normLabelCost, p, w, .pinf⟩ rfl hp x z y y').2 rfl
  constructor
  · rw [F 0 le_rfl]
    have hc : ContinuousAt (fun κ : ℝ => ((a + κ * b) / (1 + κ)) ^ w) 0 := by
      apply ContinuousAt.rpow_const _ (Or.inr hw.le)
      apply ContinuousAt.div <;> [fun_prop; fun_prop; norm_num]
    refine (hc.tendsto.mono_left nhdsWithin_le_nhds).congr' ?_
    filter_upwards [self_mem_nhdsWithin] with κ hκ
    rw [F κ (le_of_lt hκ)]
  · rw [G]
    have h1 : Filter.Tendsto (fun κ : ℝ => b + (a - b) / (1 + κ)) Filter.atTop (𝓝 (b + 0)) :=
      tendsto_const_nhds.add (tendsto_const_nhds.div_atTop (Filter.tendsto_atTop_add_const_left _ _ Filter.tendsto_id))
    rw [add_zero] at h1
    have h2 := h1.rpow_const (p := w) (Or.inr hw.le)
    refine h2.congr' ?_
    filter_upwards [Filter.eventually_ge_atTop 0] with κ hκ
    rw [F κ hκ]
    congr 1
    have : (1 + κ) ≠ 0 := by positivity
    field_simp
    ring

/-- **C06** Moreover on the accepted weights the cost only depends on `kappa` through the ratio, monotonically: it
moves from the data penalty to the label penalty. -/
theorem C06_kappa_monotone {d k : ℕ} (p : XNum ℝ) (hp : NormOrder p) (w : ℝ) (hw : 0 ≤ w)
    (x z : Fin d → ℝ) (y y' : Fin k → ℝ) (h : pnorm p (fun i => x i - z i) ≤ pnorm p (fun i => y i - y' i))
    {κ κ' : ℝ} (h0 : 0 ≤ κ) (hκ : κ ≤ κ') :
    costAt ⟨.normLabelCost, p, w, .fin κ⟩ x z y y' ≤ costAt ⟨.normLabelCost, p, w, .fin κ'⟩ x z y y' ∧
    costAt ⟨.normLabelCost, p, w, .fin κ'⟩ x z y y' ≤ costAt ⟨.normLabelCost, p, w, .pinf⟩ x z y y' := by
  have h1 := pnorm_nonneg p (fun i => x i - z i)
  have h2 := pnorm_nonneg p (fun i => y i - y' i)
  rw [(C05_point_formula ⟨.normLabelCost, p, w, .fin κ⟩ rfl hp x z y y').1 κ h0 rfl,
    (C05_point_formula ⟨.normLabelCost, p, w, .fin κ'⟩ rfl hp x z y y').1 κ' (h0.trans hκ) rfl,
    (C05_point_formula ⟨.normLabelCost, p, w, .pinf⟩ rfl hp x z y y').2 rfl]
  have h3 : 0 ≤ κ' := h0.trans hκ
  constructor
  · apply Real.rpow_le_rpow (by positivity) _ hw
    rw [div_le_div_iff₀ (by positivity) (by positivity)]
    dsimp only
    nlinarith [mul_le_mul_of_nonneg_left h (sub_nonneg.2 hκ)]
  · apply Real.rpow_le_rpow (by positivity) _ hw
    rw [div_le_iff₀ (by positivity)]
    dsimp only
    nlinarith

/-- inputs at distance 5, labels at distance 6 -/
example := C06_kappa_monotone (d := 2) (k := 1) (.fin 2) order_two 1 zero_le_one ![0, 0] ![3, 4] ![0] ![6] (by
  simp only [pnorm, Fin.sum_univ_two, Fin.sum_univ_one]; norm_num [← Real.sqrt_eq_rpow]) (zero_le_one' ℝ) (one_le_two (α := ℝ))
example := C06_kappa_limits (d := 2) (k := 1) (.fin 2) order_two 1 one_pos ![0, 0] ![3, 4] ![0] ![6]

example : NormOrder (.fin 2) ∧ (0 : ℝ) < 2 := ⟨Or.inl ⟨2, by norm_num, rfl⟩, by norm_num⟩

/-- **C07** A label cost evaluated without both labels fails with an assertion error, for all inputs and weights. -/
theorem C07_missing_labels (c : CostR) (hc : c.kind = .normLabelCost) (xi zeta : Tensor ℝ)
    (yl zl : Option (Tensor ℝ)) (h : yl = none ∨ zl = none) : c.value xi zeta yl zl = .error .assertionError := by
  rcases h with rfl | rfl
  · simp [CostR.value, hc, normLabelCostValue]
  · cases yl <;> simp [CostR.value, hc, normLabelCostValue]

/-- **C07** The plain norm cost returns the same whatever labels are passed. -/
theorem C07_labels_ignored (c : CostR) (hc : c.kind = .normCost) (xi zeta : Tensor ℝ)
    (yl zl yl' zl' : Option (Tensor ℝ)) : c.value xi zeta yl zl = c.value xi zeta yl' zl' := by
  simp [CostR.value, hc, normCostValue]

/-- **C07** With an infinite label weight inputs are ignored, with a zero weight labels are ignored. -/
theorem C07_extreme_weights (c : CostR) (hc : c.kind = .normLabelCost) (xi zeta xi' zeta' yl zl yl' zl' : Tensor ℝ) :
    (c.kappa = .pinf → c.value xi zeta (some yl) (some zl) = c.value xi' zeta' (some yl) (some zl)) ∧
    (c.kappa = .fin 0 → c.value xi zeta (some yl) (some zl) = c.value xi zeta (some yl') (some zl')) := by
  constructor <;> intro h <;> simp [CostR.value, hc, normLabelCostValue, h]

/-- a cost with label weight 3, without labels; an Euclidean cost with labels; costs of extreme weights -/
example (xi zeta t : Tensor ℝ) := C07_missing_labels exMixed rfl xi zeta (some t) none (Or.inr rfl)
example (xi zeta t : Tensor ℝ) := C07_labels_ignored exEuclid rfl xi zeta (some t) none none (some t)
example (xi zeta xi' zeta' yl zl yl' zl' : Tensor ℝ) :=
  (C07_extreme_weights ⟨.normLabelCost, .fin 2, 1, .pinf⟩ rfl xi zeta xi' zeta' yl zl yl' zl').1 rfl
example (xi zeta xi' zeta' yl zl yl' zl' : Tensor ℝ) :=
  (C07_extreme_weights ⟨.normLabelCost, .fin 2, 1, .fin 0⟩ rfl xi zeta xi' zeta' yl zl yl' zl').2 rfl

end Skwdro
