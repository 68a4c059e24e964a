import Verif.Model.WrapProblem
import Verif.Props.CostDecoder
import Verif.Lemmas.Tensor
import Verif.Spec.Dual
import Mathlib.Tactic.Positivity
import Mathlib.Analysis.SpecialFunctions.Pow.Real

/-! # Properties of the construction of robust losses: C08, C21 (decision part), C42 -/

namespace Skwdro
open Spec

variable {G : Type} (ext : TorchExt G)

/-- the (power, norm order) pairs the default samplers support -/
def Supported (power p : XNum ℚ) : Prop :=
  (power = .fin 1 ∧ (p = .fin 1 ∨ p = .fin 2 ∨ p = .pinf)) ∨ (power = .fin 2 ∧ p = .fin 2)

theorem expertSigma_pos {rho : Radius} {sigma : Option ℝ} (h : ∀ s, sigma = some s → 0 < s) :
    0 < expertSigma rho sigma SIGMA_FACTOR := by
  unfold expertSigma
  cases sigma with
  | some s => exact h s rfl
  | none =>
    cases rho with
    | nan => norm_num [SIGMA_FACTOR]
    | num r =>
      simp only
      split
      · next h => exact mul_pos h (by norm_num [SIGMA_FACTOR])
      · norm_num [SIGMA_FACTOR]

theorem XNum.map_fin {α β : Type} (f : α → β) (a : α) : (XNum.fin a).map f = .fin (f a) := rfl
theorem XNum.map_pinf {α β : Type} (f : α → β) : (XNum.pinf : XNum α).map f = .pinf := rfl

/-- decision of the data sampler, for a positive scale -/
theorem samplerData_ok {obj : CostObj} {c : CostR} (hc : obj.toReal = some c) (xi : Tensor ℝ) {e : ℝ} (he : 0 < e) :
    (Supported obj.power obj.p → samplerData c xi (some e) =
      .ok (if obj.power = .fin 1 ∧ obj.p = .fin 1 then .laplace xi (.fin e) else .normal xi (.fin e))) ∧
    (¬ Supported obj.power obj.p → samplerData c xi (some e) = .error .notImplemented) := by
  obtain ⟨kind, p, power, kappa, name⟩ := obj
  unfold CostObj.toReal at hc
  cases power with
  | nan => simp at hc
  | ninf => simp at hc
  | pinf => simp at hc
  | fin w =>
    simp only [Option.some.injEq] at hc
    subst hc
    have hw1 : ((w : ℝ) = 1) ↔ w = 1 := by norm_cast
    have hw2 : ((w : ℝ) = 2) ↔ w = 2 := by norm_cast
    cases p with
    | fin q =>
      have hq1 : ((q : ℝ) = 1) ↔ q = 1 := by norm_cast
      have hq2 : ((q : ℝ) = 2) ↔ q = 2 := by norm_cast
      by_cases h1 : w = 1
      · subst h1
        by_cases h3 : q = 1
        · subst h3; simp [Supported, samplerData, XNum.map, defaultEps, mkLaplace, validScale, he]
        · by_cases h4 : q = 2
          · subst h4; simp [Supported, samplerData, XNum.map, defaultEps, mkNormal, validScale, he]
          · simp [Supported, samplerData, XNum.map, hq1, hq2, h3, h4]
      · by_cases h2 : w = 2
        · subst h2
          by_cases h4 : q = 2
          · subst h4; simp [Supported, samplerData, XNum.map, defaultEps, mkNormal, validScale, he]
          · simp [Supported, samplerData, XNum.map, hq2, h4]
        · simp [Supported, samplerData, hw1, hw2, h1, h2]
    | pinf =>
      by_cases h1 : w = 1
      · subst h1; simp [Supported, samplerData, XNum.map, defaultEps, mkNormal, validScale, he]
      · by_cases h2 : w = 2
        · subst h2; simp [Supported, samplerData, XNum.map]
        · simp [Supported, samplerData, hw1, hw2, h1, h2]
    | nan =>
      by_cases h1 : w = 1
      · subst h1; simp [Supported, samplerData, XNum.map]
      · by_cases h2 : w = 2
        · subst h2; simp [Supported, samplerData, XNum.map]
        · simp [Supported, samplerData, hw1, hw2, h1, h2]
    | ninf =>
      by_cases h1 : w = 1
      · subst h1; simp [Supported, samplerData, XNum.map]
      · by_cases h2 : w = 2
        · subst h2; simp [Supported, samplerData, XNum.map]
        · simp [Supported, samplerData, hw1, hw2, h1, h2]

/-- label weights of an accepted code, as reals -/
theorem kappa_ok {parsed : ParsedCost} {obj : CostObj} {c : CostR} (ho : cost_from_parse_torch parsed = .ok obj)
    (hc : obj.toReal = some c) (hk : c.kind = .normLabelCost) :
    (∃ k, 0 ≤ k ∧ c.kappa = .fin k) ∨ c.kappa = .pinf := by
  have hkind : obj.kind = .normLabelCost := by
    unfold CostObj.toReal at hc
    split at hc
    · simp only [Option.some.injEq] at hc; subst hc; exact hk
    · simp at hc
  have h2 : ∃ k, obj.kappa = some k ∧ k.ge0 = true := by
    unfold cost_from_parse_torch at ho
    split at ho
    · simp only [Except.ok.injEq] at ho; subst ho; simp [mkNormCost] at hkind
    · split at ho
      · unfold mkNormLabelCost at ho
        split at ho
        · next h => simp only [Except.ok.injEq] at ho; subst ho; exact ⟨_, rfl, h⟩
        · simp at ho
      · simp at ho
  obtain ⟨k, hk1, hk2⟩ := h2
  have hck : c.kappa = k.map (fun q : ℚ => (q : ℝ)) := by
    unfold CostObj.toReal at hc
    split at hc
    · simp only [Option.some.injEq] at hc; subst hc; simp [hk1]
    · simp at hc
  rw [hck]
  cases k with
  | nan => simp [XNum.ge0] at hk2
  | ninf => simp [XNum.ge0] at hk2
  | pinf => exact Or.inr rfl
  | fin q => simp only [XNum.ge0, decide_eq_true_eq] at hk2; exact Or.inl ⟨q, by exact_mod_cast hk2, rfl⟩

theorem scaleOver_ok {e k : ℝ} (he : 0 < e) (hk : 0 ≤ k) (d : Dist) : validScale (scaleOver e k) d = .ok d := by
  unfold scaleOver
  by_cases h : k = 0
  · simp [h, he, validScale]
  · have := div_pos he (lt_of_le_of_ne hk (Ne.symm h))
    simp [h, validScale, this]

/-- the label sampler never fails when the data sampler does not -/
theorem samplerLabels_ok {obj : CostObj} {c : CostR} (hc : obj.toReal = some c)
    (hK : c.kind = .normLabelCost → (∃ k, 0 ≤ k ∧ c.kappa = .fin k) ∨ c.kappa = .pinf) (y : Tensor ℝ) {e : ℝ} (he : 0 < e)
    (hs : Supported obj.power obj.p) : ∃ d, samplerLabels c (some y) (some e) = .ok (some d) := by
  cases hkind : c.kind with
  | normCost => exact ⟨_, by simp [samplerLabels, hkind, samplerLabelsNC]; rfl⟩
  | normLabelCost =>
    have hk := hK hkind
    clear hK
    rcases hk with ⟨k, hk0, hk⟩ | hk
    · obtain ⟨kind, p, power, kappa, name⟩ := obj
      unfold CostObj.toReal at hc
      rcases hs with ⟨h1, h2⟩ | ⟨h1, h2⟩
      · simp only at h1 h2
        subst h1
        simp only [Option.some.injEq] at hc
        subst hc
        simp only at hkind hk
        rcases h2 with h2 | h2 | h2 <;> subst h2 <;>
          simp [samplerLabels, hkind, samplerLabelsNLC, XNum.map_fin, XNum.map_pinf, hk, mkLaplace, mkNormal, defaultEps,
            scaleOver_ok he hk0, Except.map]
      · simp only at h1 h2
        subst h1 h2
        simp only [Option.some.injEq] at hc
        subst hc
        simp only at hkind hk
        simp [samplerLabels, hkind, samplerLabelsNLC, XNum.map_fin, hk, mkNormal, defaultEps, validScale, he, Except.map]
    · exact ⟨.dirac y 0, by simp [samplerLabels, hkind, samplerLabelsNLC, hk, Except.map]⟩

/-- **C08** `robustify` succeeds exactly for the supported (power, norm order) pairs `(1,1)`, `(1,2)`, `(1,inf)`, `(2,2)`, with
or without labels and whatever the label weight; every other decoded cost is refused as not implemented.  When it succeeds
the noise is centred at the data and is Laplace exactly for `(1,1)`, normal otherwise. -/
theorem C08_supported_costs (a : DualizeArgs) (g : G) {parsed : ParsedCost} {obj : CostObj}
    (hp : parse_code_torch a.cost_spec a.xi_labels.isSome = .ok parsed) (ho : cost_from_parse_torch parsed = .ok obj)
    (hsig : ∀ s, a.sigma = some s → 0 < s) :
    (Supported obj.power obj.p → ∃ D g' s, dualize ext a g = .ok (D, g') ∧ D.sampler = some s ∧
      s.data_s = (if obj.power = .fin 1 ∧ obj.p = .fin 1
        then .laplace a.xi (.fin (expertSigma a.rho a.sigma SIGMA_FACTOR))
        else .normal a.xi (.fin (expertSigma a.rho a.sigma SIGMA_FACTOR)))) ∧
    (¬ Supported obj.power obj.p → dualize ext a g = .error .notImplemented) := by
  have he := expertSigma_pos (rho := a.rho) hsig
  cases hc : obj.toReal with
  | none =>
    refine ⟨fun h => ?_, fun _ => by simp [dualize, hp, ho, hc]⟩
    unfold CostObj.toReal at hc
    rcases h with ⟨h, _⟩ | ⟨h, _⟩ <;> simp [h] at hc
  | some c =>
    obtain ⟨h1, h2⟩ := samplerData_ok hc a.xi he
    refine ⟨fun h => ?_, fun h => ?_⟩
    · cases hl : a.xi_labels with
      | none =>
        rw [hl] at hp
        simp only [dualize, hp, ho, hc, dualizeSampler, mkNoLabelsCost, h1 h, ok_bind, hl]
        exact ⟨_, _, _, rfl, rfl, rfl⟩
      | some y =>
        obtain ⟨d, hd⟩ := samplerLabels_ok hc (kappa_ok ho hc) y he h
        rw [hl] at hp
        simp only [dualize, hp, ho, hc, dualizeSampler, mkLabeledCost, h1 h, ok_bind, hl, hd]
        exact ⟨_, _, _, rfl, rfl, rfl⟩
    · cases hl : a.xi_labels with
      | none => rw [hl] at hp; simp only [dualize, hl, hp, ho, hc, dualizeSampler, mkNoLabelsCost, h2 h, ok_bind, error_bind]
      | some y => rw [hl] at hp; simp only [dualize, hl, hp, ho, hc, dualizeSampler, mkLabeledCost, h2 h, ok_bind, error_bind]

/-- **C08** A given noise scale that is not positive is refused for every supported cost. -/
theorem C08_scale_refused (a : DualizeArgs) (g : G) {parsed : ParsedCost} {obj : CostObj}
    (hp : parse_code_torch a.cost_spec a.xi_labels.isSome = .ok parsed) (ho : cost_from_parse_torch parsed = .ok obj)
    (hsup : Supported obj.power obj.p) {s : ℝ} (hs : a.sigma = some s) (h0 : s ≤ 0) : dualize ext a g = .error .valueError := by
  have he : expertSigma a.rho a.sigma SIGMA_FACTOR = s := by simp [expertSigma, hs]
  have hc : ∃ c, obj.toReal = some c ∧ samplerData c a.xi (some s) = .error .valueError := by
    obtain ⟨kind, p, power, kappa, name⟩ := obj
    rcases hsup with ⟨h1, h2⟩ | ⟨h1, h2⟩
    · simp only at h1 h2
      subst h1
      refine ⟨_, rfl, ?_⟩
      rcases h2 with h2 | h2 | h2 <;> subst h2 <;>
        simp [samplerData, XNum.map, mkLaplace, mkNormal, defaultEps, validScale, not_lt.2 h0]
    · simp only at h1 h2
      subst h1 h2
      refine ⟨_, rfl, ?_⟩
      simp [samplerData, XNum.map, mkNormal, defaultEps, validScale, not_lt.2 h0]
  obtain ⟨c, hc, hd⟩ := hc
  cases hl : a.xi_labels with
  | none => rw [hl] at hp; simp only [dualize, hl, hp, ho, hc, dualizeSampler, mkNoLabelsCost, he, hd, ok_bind, error_bind]
  | some y => rw [hl] at hp; simp only [dualize, hl, hp, ho, hc, dualizeSampler, mkLabeledCost, he, hd, ok_bind, error_bind]

/-- the default cost with a negative noise scale -/
example (a : DualizeArgs) (g : G) : dualize ext { a with cost_spec := none, sigma := some (-1), xi_labels := none } g = .error .valueError :=
  C08_scale_refused ext _ g (parsed := _) (obj := _) rfl rfl (Or.inr ⟨rfl, rfl⟩) rfl (by norm_num)

/-- the default configuration meets the hypotheses -/
example (lab : Bool) : ∃ parsed obj, parse_code_torch none lab = .ok parsed ∧ cost_from_parse_torch parsed = .ok obj ∧
    Supported obj.power obj.p := by
  cases lab
  · exact ⟨_, _, rfl, rfl, Or.inr ⟨rfl, rfl⟩⟩
  · exact ⟨_, _, rfl, rfl, Or.inr ⟨rfl, rfl⟩⟩

/-! ## C42 -/

/-- **C42** Default hyper-parameters: strictly positive noise scale and regularisation, for every radius `>= 0` and power
`>= 1`; given values are used unchanged. -/
theorem C42_default_hyperparameters (r p : ℝ) :
    0 < expertSigma (.num r) none SIGMA_FACTOR ∧
    (∃ e, expertEpsilon (.num r) p none EPSILON_SIGMA_FACTOR SIGMA_FACTOR = some e ∧ 0 < e) ∧
    (0 < r → expertSigma (.num r) none SIGMA_FACTOR = r / 2) ∧
    (r = 0 → expertSigma (.num r) none SIGMA_FACTOR = 1 / 2) ∧
    (∀ s e, expertSigma (.num r) (some s) SIGMA_FACTOR = s ∧
      expertEpsilon (.num r) p (some e) EPSILON_SIGMA_FACTOR SIGMA_FACTOR = some e) := by
  refine ⟨expertSigma_pos (by simp), ⟨_, rfl, lt_of_lt_of_le (by norm_num) (le_max_right _ _)⟩, ?_, ?_, fun s e => ⟨rfl, rfl⟩⟩
  · intro h; simp [expertSigma, h, SIGMA_FACTOR]; ring
  · intro h; simp [expertSigma, h, SIGMA_FACTOR]

/-- **C42** The default regularisation strength is `sigma^p / (100 rho)` with `sigma = rho / 2`, and at least `10^-7`: in
particular it does not depend on the radius for power 1 and is proportional to it for power 2. -/
theorem C42_epsilon_formula {r : ℝ} (p : ℝ) (hr : 0 < r) :
    expertEpsilon (.num r) p none EPSILON_SIGMA_FACTOR SIGMA_FACTOR
      = some (max ((r / 2) ^ p / (100 * r)) (1 / 10 ^ 7)) ∧
    expertEpsilon (.num r) 1 none EPSILON_SIGMA_FACTOR SIGMA_FACTOR = some (1 / 200) ∧
    expertEpsilon (.num r) 2 none EPSILON_SIGMA_FACTOR SIGMA_FACTOR = some (max (r / 400) (1 / 10 ^ 7)) := by
  have key : ∀ q : ℝ, expertEpsilon (.num r) q none EPSILON_SIGMA_FACTOR SIGMA_FACTOR
      = some (max ((r / 2) ^ q / (100 * r)) (1 / 10 ^ 7)) := by
    intro q
    simp only [expertEpsilon, EPSILON_SIGMA_FACTOR, SIGMA_FACTOR]
    congr 2
    rw [Real.rpow_sub_one hr.ne', div_eq_mul_one_div r 2, Real.mul_rpow hr.le (by norm_num)]
    field_simp
  refine ⟨key p, ?_, ?_⟩
  · rw [key 1, Real.rpow_one]
    have : r / 2 / (100 * r) = 1 / 200 := by field_simp; norm_num
    rw [this, max_eq_left (by norm_num)]
  · rw [key 2]
    have : (r / 2) ^ (2 : ℝ) / (100 * r) = r / 400 := by rw [Real.rpow_two]; field_simp; norm_num
    rw [this]

/-- non-vacuity: radius `1/10` -/
example : expertEpsilon (.num (1 / 10)) 2 none EPSILON_SIGMA_FACTOR SIGMA_FACTOR = some (1 / 4000) := by
  rw [(C42_epsilon_formula 2 (by norm_num)).2.2, max_eq_left] <;> norm_num

/-! ## C52, default schedules -/

/-- **C52** Without a schedule, post-sampled losses get 200 pre-training and 2800 training iterations, pre-sampled ones 100 and 10;
a given schedule is kept. -/
theorem C52_default_schedule (s : ℤ ⊕ (ℤ × ℤ)) (post : Bool) :
    defaultSteps true none = .inr (200, 2800) ∧ defaultSteps false none = .inr (100, 10) ∧ defaultSteps post (some s) = s :=
  ⟨rfl, rfl, rfl⟩

end Skwdro
