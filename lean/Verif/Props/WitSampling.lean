import Verif.Props.ImpConsistencyLabels
import Verif.Props.SampleBias
import Verif.Props.StrongDuality
import Verif.Props.Samplers

/-! Concrete cases meeting the hypotheses of the theorems on sampling, importance sampling and duality, where the theorem's own file
has none.  Each example applies the theorem to a concrete object; the hypotheses are discharged in it. -/

namespace Skwdro
open Spec

variable {G : Type} (ext : TorchExt G)

/-- the squared Euclidean cost on the inputs -/
noncomputable def witCost : CostR := ⟨.normCost, .fin 2, 2, .fin 0⟩

/-- the sampler built for that cost on the two labelled points of `exX`, with a seed or without -/
noncomputable def witSampler (seed : Option ℤ) : Sampler :=
  ⟨.labeledCost, seed, .normal (mat exX) (.fin 1), some (.dirac (mat exX) 1), some witCost, some 1, none⟩

/-- the squared error with that cost and that sampler -/
noncomputable def witLoss (seed : Option ℤ) : DualLoss := { exCons with sampler := some (witSampler seed) }

theorem witLoss_labelled (seed : Option ℤ) : Labelled (d := 1) (k := 1) (s := 1) exW (witLoss seed) (fun x y c => (x c - y c) ^ 2) 1 :=
  ⟨rfl, rfl, rfl, by norm_num, sqErr_rowWise, ⟨Or.inl ⟨2, by norm_num, rfl⟩, fun h => by simp [witLoss, exCons] at h⟩, rfl, by norm_num,
    by norm_num [witLoss, exCons, exD], rfl, rfl⟩

theorem wit_build (seed : Option ℤ) (g : G) :
    mkLabeledCost ext witCost (mat exX) (mat exX) (some 1) seed g = .ok (witSampler seed, seedGlobal ext seed g) := by
  have hd : samplerData witCost (mat exX) (some 1) = .ok (.normal (mat exX) (.fin 1)) := by
    simp [samplerData, witCost, defaultEps, mkNormal, validScale]
  have hl : samplerLabels witCost (some (mat exX)) (some 1) = .ok (some (.dirac (mat exX) 1)) := by
    simp [samplerLabels, witCost, samplerLabelsNC]
  simp [mkLabeledCost, hd, hl, witSampler]

theorem wit_built (seed : Option ℤ) (g : G) : Built ext (witSampler seed) :=
  ⟨g, _, mat exX, mat exX, seed, witCost, 0, some 1, none, none, none, none, none, none, none, Or.inr (Or.inl (wit_build ext seed g))⟩

theorem wit_reset (seed : Option ℤ) (g : G) :
    (witSampler seed).resetMean ext (mat exX) (some (mat exX)) g = .ok (witSampler seed, seedGlobal ext seed g) :=
  wit_build ext seed g

/-- the samples drawn: normal noise on the inputs, labels kept -/
theorem wit_draw (seed : Option ℤ) (n : ℕ) (g : G) :
    IsTen ((witSampler seed).sample ext n g).1 (fun (j : Fin n) (i : Fin 2) (r : Fin 1) =>
      exX i r + 1 * (ext.stdNormal g [n, 2, 1]).1.get [j, i, r]) ∧
    ∃ t, ((witSampler seed).sample ext n g).2.1 = some t ∧ IsTen t (fun (_ : Fin n) i r => exX i r) := by
  refine ⟨⟨rfl, fun j i r => ?_⟩, _, rfl, rfl, fun j i r => ?_⟩
  · show (mat exX).get [(i : ℕ), (r : ℕ)] + scaleVal (.fin 1) * _ = _
    rw [(isMat_mat exX).2 i r]; rfl
  · show (mat exX).get [(i : ℕ), (r : ℕ)] = _
    exact (isMat_mat exX).2 i r

theorem wit_plain (seed : Option ℤ) (g : G) : ∃ L C : Fin 2 → Fin 2 → ℝ, Plain (witLoss seed) (mat exX) (some (mat exX))
    ((witSampler seed).sample ext 2 g).1 ((witSampler seed).sample ext 2 g).2.1 1 L C := by
  obtain ⟨h1, t, h2, h3⟩ := wit_draw ext seed 2 g
  rw [h2]
  exact ⟨_, _, plain_of_labelled (witLoss_labelled seed) (by norm_num) (by norm_num) (isMat_mat exX) h1 (isMat_mat exX) h3⟩

/-- C29, post-sampled: the loss evaluated on the samples of its own sampler -/
theorem wit_forward (seed : Option ℤ) (g : G) : ∃ v, postForward ext (witLoss seed) (mat exX) (some (mat exX)) true g =
    .ok (.val v, witLoss seed, ((witSampler seed).sample ext 2 (seedGlobal ext seed g)).2.2) := by
  obtain ⟨L, C, h⟩ := wit_plain ext seed (seedGlobal ext seed g)
  obtain ⟨v, D', h1, h2, _⟩ := C29_formula_postsampled ext (D := witLoss seed) rfl (wit_reset ext seed g) h rfl
  exact ⟨v, by rw [h1, h2]; rfl⟩

theorem wit_evaluations (seed : Option ℤ) (g : G) : Evaluations ext (witLoss seed) (witLoss seed) :=
  let ⟨_, h⟩ := wit_forward ext seed g
  .eval (.eval .start h) h

/-- C30, post-sampled -/
example (g : G) := C30_zero_radius_postsampled ext (D := { witLoss (some 42) with rho := .num 0 }) (s := witSampler (some 42)) rfl rfl rfl
  (wit_reset ext _ g) exD_zero

/-! ## C09 to C15 -/

/-- C09: `robustify` with the cost code `t-NC-2-2` on a labelled point -/
example (g : G) : ∃ D g', dualize ext (exDrift true) g = .ok (D, g') ∧ D.cost.kind = .normCost ∧ ∃ s, D.sampler = some s ∧
    ∀ n g₁, ∃ t, (s.sample ext n g₁).2.1 = some t ∧ t.shape = [n, 1, 1] := by
  obtain ⟨D, g', h, hk, _⟩ := exDrift_built ext true g
  obtain ⟨s, hs, h1, _⟩ := C09_labels_never_sampled ext (exDrift true) rfl h hk
  exact ⟨D, g', h, hk, s, hs, fun n g₁ => let ⟨t, ht, hsh, _⟩ := h1 n g₁; ⟨t, ht, hsh⟩⟩

/-- C09 and C17: one labelled point, two labelled samples, cost on the inputs -/
example : ∃ x' y' z' zl', displaceSamples (exImp .normCost (.fin 0) 1 none) (mat ![![1, 2]]) (some (mat ![![1]]))
    (ten ![![![3, 4]], ![![0, 1]]]) (some (ten ![![![7]], ![![8]]])) = .ok (x', some y', z', some zl') ∧
    ∀ j i, y'.get (j :: i) = .fin ((mat ![![1]]).get i) := by
  obtain ⟨x', y', z', zl', h, _⟩ := C17_displacement_labelled_partial
    (exImp_labelled (m := 1) (d := 2) (e := 1) (n := 2) (by norm_num) (by norm_num) (by norm_num) .normCost le_rfl 1 none
      ![![1, 2]] ![![1]] ![![![3, 4]], ![![0, 1]]] ![![![7]], ![![8]]]) (by simp [labelWeight, exImp])
  obtain ⟨⟨t, ht, _, hv⟩, _⟩ := C09_labels_never_displaced _ rfl _ _ _ _ h
  simp only [Option.some.injEq] at ht
  subst ht
  exact ⟨x', _, z', zl', h, hv⟩

/-- C10: five copies of a two-dimensional point -/
example : ∃ t, (Dirac.mk' (vec ![1, 2]) 1).rsample [5] = .ok t ∧ (Dirac.mk' (vec ![1, 2]) 1).logProb t = .ok (.fin 0) := by
  obtain ⟨t, h, _⟩ := C10_samples_are_copies (vec ![1, 2]) 1 [5]
  exact ⟨t, h, C10_sample_log_prob _ 1 [5] h⟩

/-- C11: one earlier reset, then a reset -/
example (g : G) := C11_reset_moves_centre_only ext (wit_built ext (some 42) g) (.reset .start (wit_reset ext (some 42) g))
  (wit_reset ext (some 42) g)

/-- C11: a factorisation that ignores its argument, and the default sampler after one reset -/
example (g : ℕ) := C11_reset_accepts { counterExt with cholesky := fun _ => eyeTimes 1 1, precisionToTril := fun _ => eyeTimes 1 1 }
  (fun _ _ _ => ⟨accepts_eye counterExt 1 (.inr one_pos), accepts_eye counterExt 1 (.inr one_pos)⟩)
  (wit_built _ (some 42) g) (.reset .start (wit_reset _ (some 42) g)) (xi := mat exX) (by simp [Tensor.dim, mat])
  (y := some (mat exX)) (fun _ => ⟨_, rfl, by simp [Tensor.dim, mat]⟩) g
example (n : ℕ) (g g₁ : G) := C11_produces_labels ext (wit_built ext (some 42) g) (.reset .start (wit_reset ext (some 42) g)) n g₁
example (n : ℕ) (g g₁ : G) (i : List ℕ) := C11_reset_keeps_noise ext (wit_built ext (some 42) g) (.reset .start (wit_reset ext (some 42) g))
  (wit_reset ext (some 42) g) rfl n g₁ i

example (n : ℕ) (g g₁ : G) := C11_reset_keeps_label_noise ext (wit_built ext (some 42) g) (.reset .start (wit_reset ext (some 42) g))
  (wit_reset ext (some 42) g) (l₀ := .dirac (mat exX) 1) rfl rfl rfl n g₁

/-- C12: a deviation with a factor that is ignored, and a negative deviation -/
example (g : ℕ) (p : ℝ) := (C12_first_given_covariance counterExt (mat exX) (mat exX) (by simp [mat]) (some 3) none (some (mat exX)) none none none none none p none g).2
  (eyeTimes 1 3) rfl (.inr three_pos)
example (g : ℕ) (p : ℝ) := (C12_first_given_covariance counterExt (mat exX) (mat exX) (by simp [mat]) (some (-3)) none (some (mat exX)) none none none none none p none g).1
  (.inr (by simp [Spec.FirstValid, lastSize, mat]))

/-- C12: a generator filling the draws with its count -/
example (g : ℕ) := C12_sigma_is_standard_deviation counterExt (fun _ _ => rfl) (mat exX) (m := 2) (d := 1) rfl three_pos none none none (some 42) g

/-- C13: two labels, flip parameter one fourth -/
example (n : ℕ) (g g₁ : G) : ∃ s g', mkNormalBernoulli ext (1 / 4) (mat exX) (mat ![![1], ![-1]]) (some 2) none none none (some 3) g =
    .ok (s, g') ∧ ∃ t, (s.sample ext n g₁).2.1 = some t ∧ t.shape = [n, 2, 1] := by
  have h : (0 : ℝ) ≤ 1 / 4 ∧ (1 / 4 : ℝ) ≤ 1 := by norm_num
  have e : mkNormalBernoulli ext (1 / 4) (mat exX) (mat ![![1], ![-1]]) (some 2) none none none (some 3) g =
      .ok (⟨.normalBernoulli, some 3, .mvn (mat exX) (.scaleTril (eyeTimes (lastSize (mat exX)) 2)), some (.flip (1 / 4) (mat ![![1], ![-1]])),
        none, none, some (1 / 4)⟩, ext.seed 3) := by
    have hm := mkMvn_accepts (ext := ext) (loc := mat exX) (by simp [mat]) (accepts_eye ext (lastSize (mat exX)) (σ := 2) (.inr two_pos))
    unfold mkNormalBernoulli; rw [if_pos h]; simp only [initCovar, ok_bind, hm]; rfl
  obtain ⟨t, h1, h2, _⟩ := C13_outputs_label_or_opposite ext _ _ _ _ _ _ _ _ e n g₁
  exact ⟨_, _, e, t, h1, h2⟩

/-- C14: the default seed 42 -/
example (g g' : G) := C14_seeded_evaluation_forgets_generator ext (witLoss (some 42)) rfl rfl (mat exX) (some (mat exX)) g g'

/-- C14: after two evaluations -/
example (g g' : G) := C14_seeded_evaluation_forgets_history ext (witLoss (some 42)) _ rfl (wit_built ext _ g) rfl (wit_evaluations ext _ g)
  (mat exX) (some (mat exX)) g g'

/-- C15: without a seed, then with the default seed -/
example (g : G) : ∃ s', (witSampler none).resetMean ext (mat exX) (some (mat exX)) g = .ok (s', g) ∧ s'.seed = none := by
  obtain ⟨v, h⟩ := wit_forward ext none g
  obtain ⟨s', h1, h2, _⟩ := C15_fresh_noise_partial ext (witLoss none) rfl (wit_built ext _ g) rfl rfl one_pos _ _ h
  exact ⟨s', h1, h2⟩

example (g g₂ : G) : ∃ v D' g₁, postForward ext (witLoss (some 42)) (mat exX) (some (mat exX)) true g = .ok (v, D', g₁) ∧
    postForward ext (witLoss (some 42)) (mat exX) (some (mat exX)) true g₂ = .ok (v, D', g₁) := by
  obtain ⟨v, h⟩ := wit_forward ext (some 42) g
  exact ⟨_, _, _, h, C15_seeded_noise_repeats_partial ext _ _ rfl (wit_built ext _ g) rfl (wit_evaluations ext _ g) _ _ h g₂⟩

/-! ## C16 to C21 -/

/-- two data points in the plane, two samples each -/
noncomputable def witX : Fin 2 → Fin 2 → ℝ := ![![1, 2], ![0, 5]]
noncomputable def witZ : Fin 2 → Fin 2 → Fin 2 → ℝ := ![![![3, 4], ![0, 0]], ![![1, 1], ![2, 2]]]
noncomputable def witY : Fin 2 → Fin 1 → ℝ := ![![1], ![-1]]
noncomputable def witW : Fin 2 → Fin 2 → Fin 1 → ℝ := ![![![1], ![2]], ![![3], ![4]]]

theorem wit_unlabelled (s : Option Sampler) : Unlabelled (exImp .normCost (.fin 0) 2 s) (mat witX) (ten witZ) witX witZ witX :=
  exImp_unlabelled (by norm_num) (by norm_num) _ _ _ _ _

theorem wit_labels (s : Option Sampler) :
    WithLabels (exImp .normLabelCost (.fin 3) 2 s) (mat witX) (mat witY) (ten witZ) (ten witW) witX witY witZ witW witX witY :=
  exImp_labelled (by norm_num) (by norm_num) (by norm_num) _ (by norm_num) _ _ _ _ _ _

theorem wit_weight (s : Option Sampler) : labelWeight (exImp .normLabelCost (.fin 3) 2 s).cost ≠ some 0 := by
  simp [labelWeight, exImp]

example := C16_noise_kept (wit_unlabelled none)
example := C16_noise_kept_inputs (wit_labels none)
example := C16_noise_kept_labels_partial (wit_labels none) (wit_weight none)
example := C17_displacement (wit_unlabelled none)
example := C17_displacement_labelled_partial (wit_labels none) (wit_weight none)

theorem witX_small (i : Fin 2) : Spec.norm2 (witX i) ≤ 10 ^ 10 := by
  have h2 : ∀ i, ∑ k, |witX i k| ^ (2 : ℝ) ≤ (10 ^ 10) ^ (2 : ℝ) := by
    intro i
    fin_cases i <;> norm_num [witX, Fin.sum_univ_two]
  simp only [Spec.norm2, pnorm]
  refine (Real.rpow_le_rpow (Finset.sum_nonneg fun _ _ => by positivity) (h2 i) (by norm_num)).trans ?_
  rw [← Real.rpow_mul (by norm_num)]
  norm_num

theorem witX_ne (i : Fin 2) : ∃ k, witX i k ≠ 0 := ⟨1, by fin_cases i <;> norm_num [witX]⟩

example := C18_best_first_order_attack_partial (wit_unlabelled none) (by norm_num [exImp]) (Or.inl witX_ne) witX_small

/-- a normal sampler centred on the data -/
noncomputable def witNormal : Sampler := ⟨.noLabelsCost, none, .normal (mat witX) (.fin 2), none, none, none, none⟩

example := C19_exact_weights ext (s := witNormal) rfl ⟨2, by norm_num, rfl⟩ (X' := fun i k => witX i k + 1) (isMat_mat witX)
  (x' := ten fun (_ : Fin 1) i k => witX i k + 1) (isTen_ten _) (isTen_ten witZ)

example (f : (Fin 2 → ℝ) → ℝ) := C19_same_expectation ext (l := .normal (mat witX) (.fin 2)) ⟨2, by norm_num, rfl⟩ (witX 0) (witX 1) f

/-- one-dimensional data, as the loss of `exImp` returns one value per point only then -/
example (X : Fin 2 → Fin 1 → ℝ) (Z : Fin 3 → Fin 2 → Fin 1 → ℝ) := C19_value ext
  (exImp_unlabelled (by norm_num) (by norm_num) (.fin 0) 1 (some ⟨.noLabelsCost, none, .normal (mat X) (.fin 2), none, none, none, none⟩) X Z)
  rfl rfl one_pos rfl rfl (by norm_num) rfl rfl rfl ⟨2, by norm_num, rfl⟩ (isMat_mat X) (ell := fun x => x 0 ^ 2 / 2)
  (fun z Z hz => ⟨_, rfl, hz.1, fun j i k => by
    have hk : k = 0 := Subsingleton.elim _ _
    subst hk
    simp only [Tensor.map, hz.2 j i 0]⟩)

/-- a sampler with normal noise on inputs and labels -/
noncomputable def witNormals : Sampler :=
  ⟨.normalNormal, none, .normal (mat witX) (.fin 2), some (.normal (mat witY) (.fin 1)), none, none, none⟩

example := C20_labelled_correction_partial ext (s := witNormals) rfl ⟨2, by norm_num, rfl⟩ ⟨1, one_pos, rfl⟩ (isMat_mat witX) (isMat_mat witY)
  (isTen_ten witZ) (isTen_ten witW) (mat witX) (mat witY)

/-- C21: importance sampling asked for, with a squared Euclidean cost -/
example (g : G) : ∃ D g', dualize ext (exDrift true) g = .ok (D, g') ∧ D.impSamp = true ∧
    ∀ xi zeta xl zl, displaceSamples D xi xl zeta zl ≠ .error .notImplemented := by
  obtain ⟨D, g', h, hk, hp, hw, _⟩ := exDrift_built ext true g
  have hi := (C21_enabled_iff ext h).2 ⟨rfl, hp, hw⟩
  exact ⟨D, g', h, hi, C21_never_unsupported ext h hi D rfl⟩

/-! ## C95 -/

example := C95_strong_duality ext exD_plain rfl (fun _ => 0) (by
  have : ∀ i : Fin 2, costAt exD.cost (exX i) (exZ 0 i) (exX i) (exZ 0 i) = 0 := fun i => by rw [exCost_eq]; simp [exX, exZ]
  simp only [this]
  norm_num [avg])

theorem wit_least (i : Fin 2) : IsLeast (Set.range fun j => costAt exD.cost (exX i) (exZ j i) (exX i) (exZ j i)) 0 := by
  refine ⟨⟨0, by simp only [exCost_eq]; simp [exX, exZ]⟩, ?_⟩
  rintro _ ⟨j, rfl⟩
  simp only [exCost_eq]
  positivity

example := C95_bounded_iff ext exD_plain rfl (M := fun _ => 0) wit_least
example (r : ℝ) := C95_feasible_iff (M := fun _ => 0) wit_least r

end Skwdro
