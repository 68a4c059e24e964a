import Verif.Lemmas.Samplers
import Verif.Model.Dirac
import Verif.Lemmas.WrapProblem
import Verif.Lemmas.Dual
import Verif.Props.WrapProblem
import Mathlib.MeasureTheory.Constructions.UnitInterval

/-! # Properties of samplers: C09 – C15 -/

namespace Skwdro
open Spec Tensor

variable {G : Type} (ext : TorchExt G)

/-! ## C09 -/

/-- **C09** With an input-only cost the robust loss built by `robustify` on labels `y` draws adversarial labels that are
copies of `y`, for every number of samples and generator state, also after re-centring it on any other batch `(xi', y')`
(copies of `y'` then). -/
theorem C09_labels_never_sampled (a : DualizeArgs) {y : Tensor ℝ} (hy : a.xi_labels = some y) {g g' : G} {D : DualLoss}
    (h : dualize ext a g = .ok (D, g')) (hc : D.cost.kind = .normCost) :
    ∃ s, D.sampler = some s ∧
      (∀ n g₁, ∃ t, (s.sample ext n g₁).2.1 = some t ∧ t.shape = n :: y.shape ∧ ∀ j i, t.get (j :: i) = y.get i) ∧
      (∀ xi' y' g₁ s' g₂, s.resetMean ext xi' (some y') g₁ = .ok (s', g₂) → ∀ n g₃,
        ∃ t, (s'.sample ext n g₃).2.1 = some t ∧ t.shape = n :: y'.shape ∧ ∀ j i, t.get (j :: i) = y'.get i) := by
  obtain ⟨parsed, obj, c, s, hp, ho, hr, hs, rfl⟩ := dualize_ok h
  simp only [hy, dualizeSampler, mkLabeledCost] at hs
  cases hd : samplerData c a.xi (some (expertSigma a.rho a.sigma SIGMA_FACTOR)) with
  | error e => simp [hd] at hs
  | ok d =>
  cases hl : samplerLabels c (some y) (some (expertSigma a.rho a.sigma SIGMA_FACTOR)) with
  | error e => simp [hd, hl] at hs
  | ok l =>
  cases l with
  | none => simp [hd, hl] at hs
  | some l =>
  simp only [hd, hl, ok_bind, Except.ok.injEq, Prod.mk.injEq] at hs
  obtain ⟨rfl, _⟩ := hs
  have hk : c.kind = .normCost := hc
  simp only [samplerLabels, hk, samplerLabelsNC, Option.map_some, Except.ok.injEq, Option.some.injEq] at hl
  subst hl
  refine ⟨_, rfl, fun n g₁ => ⟨_, rfl, rfl, fun j i => rfl⟩, ?_⟩
  intro xi' y' g₁ s' g₂ h n g₃
  simp only [Sampler.resetMean, mkLabeledCost] at h
  cases hd' : samplerData c xi' (some (expertSigma a.rho a.sigma SIGMA_FACTOR)) with
  | error e => simp [hd'] at h
  | ok d' =>
    simp only [hd', ok_bind, samplerLabels, hk, samplerLabelsNC, Option.map_some, Except.ok.injEq, Prod.mk.injEq] at h
    obtain ⟨rfl, _⟩ := h
    exact ⟨_, rfl, rfl, fun j i => rfl⟩

/-- **C09** With an input-only cost, importance-sampling displacement leaves labels as they are. -/
theorem C09_labels_never_displaced (D : DualLoss) (hc : D.cost.kind = .normCost) (xi zeta y zl : Tensor ℝ)
    {x' z' : Tensor ℝ} {y' zl' : Option (Tensor (XNum ℝ))}
    (h : displaceSamples D xi (some y) zeta (some zl) = .ok (x', y', z', zl')) :
    (∃ t, y' = some t ∧ t.shape = 1 :: y.shape ∧ ∀ j i, t.get (j :: i) = .fin (y.get i)) ∧
    ∃ t, zl' = some t ∧ t.shape = zl.shape ∧ ∀ i, t.get i = .fin (zl.get i) := by
  unfold displaceSamples at h
  generalize optimalDisplacement D xi (some y) = od at h
  obtain ⟨d, dl⟩ := od
  simp only at h
  cases hb : checkTensorInvalid d || labelsInvalid dl with
  | true =>
    simp only [hb, if_true] at h
    simp only [Except.ok.injEq, Prod.mk.injEq] at h
    obtain ⟨_, rfl, _, rfl⟩ := h
    exact ⟨⟨_, rfl, rfl, fun _ _ => rfl⟩, ⟨_, rfl, rfl, fun _ => rfl⟩⟩
  | false =>
    simp only [hb, Bool.false_eq_true, if_false] at h
    unfold solveMaxSeriesExp at h
    cases hq : isSquaredEuclid D.cost with
    | false => simp [hq] at h
    | true =>
      simp only [hq, if_true, hc] at h
      cases h1 : halfStep xi.unsqueeze0 (d.map XNum.toReal) with
      | error e => simp [h1] at h
      | ok x1 =>
        cases h2 : halfStep zeta (d.map XNum.toReal) with
        | error e => simp [h1, h2] at h
        | ok z1 =>
          simp only [h1, h2, ok_bind, Except.ok.injEq, Prod.mk.injEq] at h
          obtain ⟨_, rfl, _, rfl⟩ := h
          exact ⟨⟨_, rfl, rfl, fun _ _ => rfl⟩, ⟨_, rfl, rfl, fun _ => rfl⟩⟩

/-- `robustify` with cost code `NC-2-2` on labelled data meets the hypotheses -/
example (a : DualizeArgs) (ha : a.cost_spec = some "NC-2-2".toList) (hs : a.sigma = none) (g : G) :
    ∃ D g', dualize ext a g = .ok (D, g') ∧ D.cost.kind = .normCost := by
  have hp : parse_code_torch a.cost_spec a.xi_labels.isSome = .ok ⟨"t".toList, "NC".toList, .fin 2, .fin 2, DEFAULT_KAPPA⟩ := by
    have e : splitDash "NC-2-2".toList = ["NC".toList, "2".toList, "2".toList] := by decide
    have e2 : pyFloat "2".toList = .ok (.fin 2) := pyFloat_decimal 2
    rw [ha]
    simp only [parse_code_torch, e, e2, ok_bind]
  have ho : cost_from_parse_torch ⟨"t".toList, "NC".toList, .fin 2, .fin 2, DEFAULT_KAPPA⟩ =
      .ok (mkNormCost (.fin 2) (.fin 2) none) := rfl
  obtain ⟨D, g', s, h, _⟩ := (C08_supported_costs ext a g hp ho (by simp [hs])).1 (Or.inr ⟨rfl, rfl⟩)
  refine ⟨D, g', h, ?_⟩
  obtain ⟨parsed, obj, c, s, hp', ho', hr, _, rfl⟩ := dualize_ok h
  rw [hp] at hp'
  simp only [Except.ok.injEq] at hp'
  subst hp'
  rw [ho] at ho'
  simp only [Except.ok.injEq] at ho'
  subst ho'
  simp only [CostObj.toReal, mkNormCost, Option.some.injEq] at hr
  subst hr
  rfl

/-! ## C10 -/

/-- **C10** Sampling a `Dirac` with any sample shape and any number of batch dimensions returns copies of the location,
with shape sample + batch + event. -/
theorem C10_samples_are_copies (loc : Tensor ℝ) (nBatch : ℕ) (sample : List ℕ) :
    Returns ((Dirac.mk' loc nBatch).rsample sample) (fun t =>
      t.shape = sample ++ ((Dirac.mk' loc nBatch).batchShape ++ (Dirac.mk' loc nBatch).eventShape) ∧
      (Dirac.mk' loc nBatch).batchShape ++ (Dirac.mk' loc nBatch).eventShape = loc.shape ∧
      ∀ j i, InShape i loc.shape → t.get (j ++ i) = loc.get i) := by
  have e : (Dirac.mk' loc nBatch).batchShape ++ (Dirac.mk' loc nBatch).eventShape = loc.shape := by
    simp [Dirac.mk', List.take_append_drop]
  refine ⟨_, by simp only [Dirac.rsample, Dirac.expandTensor, e]; simp only [Dirac.mk', bcastShape_suffix, if_true]; rfl,
    by rw [e], e, fun j i hi => ?_⟩
  simp [proj_suffix hi]

theorem sum_nonneg_eq_zero {l : List ℝ} (h : ∀ x ∈ l, 0 ≤ x) : l.sum = 0 ↔ ∀ x ∈ l, x = 0 := by
  induction l with
  | nil => simp
  | cons a l ih =>
    have h1 := h a (by simp)
    have h2 := List.sum_nonneg (l := l) (fun x hx => h x (by simp [hx]))
    have ih := ih (fun x hx => h x (by simp [hx]))
    simp only [List.sum_cons, List.mem_cons, forall_eq_or_imp]
    constructor
    · intro hh; exact ⟨by linarith, ih.1 (by linarith)⟩
    · rintro ⟨ha, hl⟩; rw [ha, ih.2 hl, add_zero]

/-- **C10** The log-probability of any batch of shape sample + location shape: 0 exactly when every copy equals the
location everywhere, `-inf` as soon as one entry of one copy differs. -/
theorem C10_log_prob (loc value : Tensor ℝ) (nBatch : ℕ) (sample : List ℕ) (hs : value.shape = sample ++ loc.shape) :
    ((∀ j i, InShape j sample → InShape i loc.shape → value.get (j ++ i) = loc.get i) →
      (Dirac.mk' loc nBatch).logProb value = .ok (.fin 0)) ∧
    ((∃ j i, InShape j sample ∧ InShape i loc.shape ∧ value.get (j ++ i) ≠ loc.get i) →
      (Dirac.mk' loc nBatch).logProb value = .ok .ninf) := by
  classical
  have key : (Dirac.mk' loc nBatch).logProb value = .ok (if (∀ j i, InShape j sample → InShape i loc.shape →
      value.get (j ++ i) = loc.get i) then .fin 0 else .ninf) := by
    simp only [Dirac.logProb, Dirac.mk', Tensor.zipWith, hs, bcastShape_suffix', ok_bind, Tensor.map, toList,
      Except.ok.injEq]
    refine if_congr ?_ rfl rfl
    rw [sum_nonneg_eq_zero (by simp)]
    simp only [List.mem_map, mem_indices, forall_exists_index, and_imp, forall_apply_eq_imp_iff₂, abs_eq_zero, sub_eq_zero]
    constructor
    · intro h j i hj hi
      have hij : InShape (j ++ i) (sample ++ loc.shape) := List.rel_append hj hi
      have := h _ hij
      rwa [proj_self hij, proj_suffix hi] at this
    · intro h i hi
      obtain ⟨a, b, rfl, ha, hb⟩ := inShape_append_inv hi
      rw [proj_self hi, proj_suffix hb]
      exact h a b ha hb
  constructor
  · intro h; rw [key, if_pos h]
  · rintro ⟨j, i, hj, hi, hne⟩
    rw [key, if_neg (fun h => hne (h j i hj hi))]

/-- **C10** A drawn sample has log-probability 0. -/
theorem C10_sample_log_prob (loc : Tensor ℝ) (nBatch : ℕ) (sample : List ℕ) {t : Tensor ℝ}
    (h : (Dirac.mk' loc nBatch).rsample sample = .ok t) : (Dirac.mk' loc nBatch).logProb t = .ok (.fin 0) := by
  obtain ⟨t', ht', h1, h2, h3⟩ := C10_samples_are_copies loc nBatch sample
  rw [h] at ht'
  simp only [Except.ok.injEq] at ht'
  subst ht'
  exact (C10_log_prob loc t nBatch sample (by rw [h1, h2])).1 (fun j i _ hi => h3 j i hi)

/-- **C10** Moments: every drawn value equals the mean (and the mode), and its squared deviation is the variance; the single point of
the support is the location. -/
theorem C10_moments (loc : Tensor ℝ) (nBatch : ℕ) (sample : List ℕ) :
    Returns ((Dirac.mk' loc nBatch).rsample sample) (fun t =>
      ((Dirac.mk' loc nBatch).mean.shape = loc.shape ∧ (Dirac.mk' loc nBatch).variance.shape = loc.shape) ∧
      ∀ j i, InShape i loc.shape → t.get (j ++ i) = (Dirac.mk' loc nBatch).mean.get i ∧
        t.get (j ++ i) = (Dirac.mk' loc nBatch).mode.get i ∧
        (t.get (j ++ i) - (Dirac.mk' loc nBatch).mean.get i) ^ 2 = (Dirac.mk' loc nBatch).variance.get i) ∧
    Returns ((Dirac.mk' loc nBatch).enumerateSupport true) (fun t => t.shape = 1 :: loc.shape ∧
      ∀ i, InShape i loc.shape → t.get (0 :: i) = loc.get i) ∧
    (Dirac.mk' loc nBatch).enumerateSupport false = .error .notImplemented := by
  obtain ⟨t, ht, h1, h2, h3⟩ := C10_samples_are_copies loc nBatch sample
  obtain ⟨t1, ht1, h11, h12, h13⟩ := C10_samples_are_copies loc nBatch [1]
  refine ⟨⟨t, ht, ⟨rfl, rfl⟩, fun j i hi => ⟨h3 j i hi, h3 j i hi, ?_⟩⟩, ⟨t1, ht1, ?_, fun i hi => h13 [0] i hi⟩, rfl⟩
  · rw [h3 j i hi]
    simp [Dirac.mk', Dirac.mean, Dirac.variance, Tensor.map]
  · rw [h11, h12]; rfl

theorem bcastRev_eq_right (s t : List ℕ) :
    bcastRev s t = some t ↔ ∃ mid rest, t = mid ++ rest ∧ List.Forall₂ (fun a b => a = 1 ∨ a = b) s mid := by
  induction s generalizing t with
  | nil => exact ⟨fun _ => ⟨[], t, rfl, .nil⟩, fun _ => by cases t <;> rfl⟩
  | cons m s ih =>
    cases t with
    | nil =>
      refine ⟨fun h => by simp [bcastRev] at h, fun ⟨mid, rest, h, hf⟩ => ?_⟩
      cases hf
      simp at h
    | cons n t =>
      have key : bcastRev (m :: s) (n :: t) = some (n :: t) ↔ (m = 1 ∨ m = n) ∧ bcastRev s t = some t := by
        simp only [bcastRev]
        split_ifs with h1 h2
        · rw [Option.map_eq_some_iff]
          constructor
          · rintro ⟨a, ha, he⟩
            simp only [List.cons.injEq] at he
            exact ⟨Or.inr he.1, by rw [ha, he.2]⟩
          · rintro ⟨h, ha⟩
            refine ⟨t, ha, ?_⟩
            simp only [List.cons.injEq, and_true]
            omega
        · simp [h2]
        · simp only [reduceCtorEq, false_iff, not_and]
          intro h
          omega
      rw [key, ih]
      constructor
      · rintro ⟨h, mid, rest, rfl, hf⟩
        exact ⟨n :: mid, rest, rfl, .cons h hf⟩
      · rintro ⟨mid, rest, he, hf⟩
        cases hf with
        | cons h hf =>
          simp only [List.cons_append, List.cons.injEq] at he
          obtain ⟨rfl, rfl⟩ := he
          exact ⟨h, _, rest, rfl, hf⟩

/-- **C10** Expanding to a batch shape is accepted exactly when the resulting shape ends with as many dimensions as the location has,
each of them equal to that of the location unless the latter is one; otherwise a RuntimeError is raised. -/
theorem C10_expand_accepts (loc : Tensor ℝ) (nBatch : ℕ) (batch : List ℕ) :
    let d := Dirac.mk' loc nBatch
    ((∃ pre mid, batch ++ d.eventShape = pre ++ mid ∧ List.Forall₂ (fun a b => a = 1 ∨ a = b) loc.shape mid) →
      Returns (d.expand batch) (fun d' => d'.loc.shape = batch ++ d.eventShape)) ∧
    ((¬ ∃ pre mid, batch ++ d.eventShape = pre ++ mid ∧ List.Forall₂ (fun a b => a = 1 ∨ a = b) loc.shape mid) →
      d.expand batch = .error .runtimeError) := by
  intro d
  have key : bcastShape loc.shape (batch ++ d.eventShape) = some (batch ++ d.eventShape) ↔
      ∃ pre mid, batch ++ d.eventShape = pre ++ mid ∧ List.Forall₂ (fun a b => a = 1 ∨ a = b) loc.shape mid := by
    generalize batch ++ d.eventShape = t
    have h1 : bcastShape loc.shape t = some t ↔ bcastRev loc.shape.reverse t.reverse = some t.reverse := by
      rw [bcastShape, Option.map_eq_some_iff]
      constructor
      · rintro ⟨a, ha, rfl⟩
        rw [List.reverse_reverse] at ha ⊢
        exact ha
      · exact fun h => ⟨_, h, List.reverse_reverse t⟩
    rw [h1, bcastRev_eq_right]
    constructor
    · rintro ⟨mid, rest, he, hf⟩
      refine ⟨rest.reverse, mid.reverse, by rw [← List.reverse_append, ← he, List.reverse_reverse], ?_⟩
      rw [← List.forall₂_reverse_iff, List.reverse_reverse]
      exact hf
    · rintro ⟨pre, mid, he, hf⟩
      exact ⟨mid.reverse, pre.reverse, by rw [he, List.reverse_append], List.forall₂_reverse_iff.2 hf⟩
  have hl : d.loc = loc := rfl
  constructor
  · intro h
    refine ⟨⟨⟨batch ++ d.eventShape, fun i => loc.get (proj loc.shape i)⟩, batch, d.eventShape⟩, ?_, rfl⟩
    simp only [Dirac.expand, Dirac.expandTensor, hl, key.2 h, if_true, ok_bind]
  · intro h
    simp only [Dirac.expand, Dirac.expandTensor, hl]
    cases hb : bcastShape loc.shape (batch ++ d.eventShape) with
    | none => rfl
    | some r =>
      have : r ≠ batch ++ d.eventShape := fun he => h (key.1 (by rw [hb, he]))
      simp only [if_neg this, error_bind]

/-- a location of shape `(2, 3)`, two batch entries: four batch entries are refused, five copies of the two accepted -/
example : (Dirac.mk' ⟨[2, 3], fun _ => 0⟩ 1).expand [4] = .error .runtimeError :=
  (C10_expand_accepts ⟨[2, 3], fun _ => 0⟩ 1 [4]).2 fun ⟨pre, mid, he, hf⟩ => by
    have hlen := hf.length_eq
    have h2 := congrArg List.length he
    simp [Dirac.mk'] at hlen h2 he
    have : pre = [] := List.eq_nil_of_length_eq_zero (by omega)
    subst this
    simp only [List.nil_append] at he
    subst he
    simp at hf
example := (C10_expand_accepts ⟨[2, 3], fun _ => 0⟩ 1 [5, 2]).1 ⟨[5], [2, 3], rfl, by simp⟩

/-- **C10** Expanding to more batch dimensions keeps the law: the event shape is unchanged, the batch shape is the requested one, and
every value drawn from the expanded distribution is a copy of the original location. -/
theorem C10_expand (loc : Tensor ℝ) (nBatch : ℕ) (pre : List ℕ) :
    Returns ((Dirac.mk' loc nBatch).expand (pre ++ (Dirac.mk' loc nBatch).batchShape)) (fun d =>
      d.batchShape = pre ++ (Dirac.mk' loc nBatch).batchShape ∧ d.eventShape = (Dirac.mk' loc nBatch).eventShape ∧
      ∀ sample, Returns (d.rsample sample) (fun t => t.shape = sample ++ (pre ++ loc.shape) ∧
        ∀ j i, InShape j (sample ++ pre) → InShape i loc.shape → t.get (j ++ i) = loc.get i)) := by
  have e : (Dirac.mk' loc nBatch).batchShape ++ (Dirac.mk' loc nBatch).eventShape = loc.shape := by
    simp [Dirac.mk', List.take_append_drop]
  have e2 : pre ++ (Dirac.mk' loc nBatch).batchShape ++ (Dirac.mk' loc nBatch).eventShape = pre ++ loc.shape := by
    rw [List.append_assoc, e]
  have hl : (Dirac.mk' loc nBatch).loc = loc := rfl
  refine ⟨⟨⟨pre ++ loc.shape, fun i => loc.get (proj loc.shape i)⟩, pre ++ (Dirac.mk' loc nBatch).batchShape,
    (Dirac.mk' loc nBatch).eventShape⟩, ?_, rfl, rfl, ?_⟩
  · simp only [Dirac.expand, Dirac.expandTensor, e2, hl, bcastShape_suffix, if_true, ok_bind]
  · intro sample
    refine ⟨⟨sample ++ (pre ++ loc.shape), fun i => loc.get (proj loc.shape (proj (pre ++ loc.shape) i))⟩, ?_, rfl, ?_⟩
    · simp only [Dirac.rsample, Dirac.expandTensor, e2, bcastShape_suffix, if_true]
    · intro j i hj hi
      obtain ⟨a, b, rfl, ha, hb⟩ := inShape_append_inv hj
      have hbi : InShape (b ++ i) (pre ++ loc.shape) := List.rel_append hb hi
      simp only [List.append_assoc]
      rw [proj_suffix hbi, proj_suffix hi]

/-- a two-point location, five copies, one entry changed -/
example : ∃ t, (Dirac.mk' (vec ![1, 2]) 1).rsample [5] = .ok t ∧ t.shape = [5, 2] ∧
    (Dirac.mk' (vec ![1, 2]) 1).logProb ⟨[5, 2], fun i => if i = [3, 0] then 7 else t.get i⟩ = .ok .ninf := by
  obtain ⟨t, ht, h1, h2, h3⟩ := C10_samples_are_copies (vec ![1, 2]) 1 [5]
  refine ⟨t, ht, by rw [h1, h2]; rfl, (C10_log_prob _ _ 1 [5] rfl).2 ⟨[3], [0], ?_, ?_, ?_⟩⟩
  · exact List.Forall₂.cons (by norm_num) List.Forall₂.nil
  · exact List.Forall₂.cons (by simp) List.Forall₂.nil
  · simp [vec]

/-! ## C11 -/

/-- **C11** After any history of resets, a further `reset_mean(xi, y)` gives a sampler centred at `xi` (labels centred at
`y`) with the noise law the sampler was built with. -/
theorem C11_reset_moves_centre_only {s₀ s s' : Sampler} (h₀ : Built ext s₀) (h : Resets ext s₀ s) {xi : Tensor ℝ}
    {y : Option (Tensor ℝ)} {g g' : G} (r : s.resetMean ext xi y g = .ok (s', g')) :
    centreOf s'.data_s = xi ∧ noiseOf ext s'.data_s = noiseOf ext s₀.data_s ∧
    s'.labels_s.isSome = s₀.labels_s.isSome ∧
    (∀ l, s'.labels_s = some l → y = some (centreOf l)) ∧
    s'.labels_s.map (noiseOf ext) = s₀.labels_s.map (noiseOf ext) := by
  obtain ⟨hs, hl⟩ := resets_spec (built_sane h₀) h
  obtain ⟨k, _⟩ := resetMean_spec hs r
  exact ⟨k.centre, k.noise.trans hl.noise, k.labels.trans hl.labels, k.labelCentre, k.labelNoise.trans hl.labelNoise⟩

/-- **C11** A sampler says it produces labels exactly when its draws have labels, and no history of resets changes that. -/
theorem C11_produces_labels {s₀ s : Sampler} (h₀ : Built ext s₀) (h : Resets ext s₀ s) (n : ℕ) (g : G) :
    (s.producesLabels = true ↔ (s.sample ext n g).2.1.isSome = true) ∧ s.producesLabels = s₀.producesLabels := by
  obtain ⟨-, hl⟩ := resets_spec (built_sane h₀) h
  refine ⟨?_, hl.labels⟩
  unfold Sampler.producesLabels Sampler.sample
  cases s.labels_s <;> simp

/-- **C11** Seen on the drawn samples: from the same generator state, the re-centred sampler draws the same displacements
from its centre as the original one, for batches of the same shape. -/
theorem C11_reset_keeps_noise {s₀ s s' : Sampler} (h₀ : Built ext s₀) (h : Resets ext s₀ s) {xi : Tensor ℝ}
    {y : Option (Tensor ℝ)} {g g' : G} (r : s.resetMean ext xi y g = .ok (s', g'))
    (hsh : xi.shape = (centreOf s₀.data_s).shape) (n : ℕ) (g₁ : G) (i : List ℕ) :
    (s'.sample ext n g₁).1.get i - xi.get i.tail = (s₀.sample ext n g₁).1.get i - (centreOf s₀.data_s).get i.tail := by
  obtain ⟨h1, h2, _⟩ := C11_reset_moves_centre_only ext h₀ h r
  have hs := built_sane h₀
  have hf : ∀ p, noiseOf ext s₀.data_s ≠ .flip p := by
    intro p
    obtain ⟨g, g', xi, y, seed, cost, p', sigma, sigma', tril, prec, cov, tril', prec', cov', hb⟩ := h₀
    cases hk : s₀.kind with
    | noLabelsCost =>
      obtain ⟨c, x, _, hd, _⟩ := hs.noLabelsCost hk
      cases hd' : s₀.data_s with
      | flip q z =>
        rw [hd'] at hd
        exfalso
        unfold samplerData mkLaplace mkNormal validScale at hd
        simp only at hd
        split_ifs at hd <;> (try split at hd) <;> (try split_ifs at hd) <;> simp at hd
      | _ => simp [noiseOf]
    | labeledCost =>
      obtain ⟨c, x, _, _, hd, _⟩ := hs.labeledCost hk
      cases hd' : s₀.data_s with
      | flip q z =>
        rw [hd'] at hd
        exfalso
        unfold samplerData mkLaplace mkNormal validScale at hd
        simp only at hd
        split_ifs at hd <;> (try split at hd) <;> (try split_ifs at hd) <;> simp at hd
      | _ => simp [noiseOf]
    | normalNoLabels => obtain ⟨x, c, hd, _⟩ := hs.normalNoLabels hk; simp [hd, noiseOf]
    | normalNormal => obtain ⟨x, c, _, _, hd, _⟩ := hs.normalNormal hk; simp [hd, noiseOf]
    | normalId => obtain ⟨x, c, _, hd, _⟩ := hs.normalId hk; simp [hd, noiseOf]
    | normalBernoulli => obtain ⟨x, c, _, _, hd, _⟩ := hs.normalBernoulli hk; simp [hd, noiseOf]
  have := (rsample_congr h2 (by rw [h1, hsh]) n g₁).2.2.1 i hf
  rw [h1] at this
  have e : ∀ (t : Sampler), (t.sample ext n g₁).1 = (t.data_s.rsample ext g₁ n).1 := by
    intro t; unfold Sampler.sample; cases t.labels_s <;> rfl
  rw [e, e]
  exact this

theorem sample_fst {s : Sampler} {n : ℕ} {g : G} : (s.sample ext n g).1 = (s.data_s.rsample ext g n).1 := by
  unfold Sampler.sample; cases s.labels_s <;> rfl

theorem sample_labels {s : Sampler} {n : ℕ} {g : G} : (s.sample ext n g).2.1 =
    s.labels_s.map (fun l => (l.rsample ext (s.data_s.rsample ext g n).2 n).1) := by
  unfold Sampler.sample; cases s.labels_s <;> rfl

/-- **C11** The same for labels: same displacement from the labels, or (label flips) same decision to keep or to change the
sign. -/
theorem C11_reset_keeps_label_noise {s₀ s s' : Sampler} (h₀ : Built ext s₀) (h : Resets ext s₀ s) {xi y : Tensor ℝ}
    {g g' : G} (r : s.resetMean ext xi (some y) g = .ok (s', g')) {l₀ : Dist} (hl₀ : s₀.labels_s = some l₀)
    (hsh : xi.shape = (centreOf s₀.data_s).shape) (hshl : y.shape = (centreOf l₀).shape) (n : ℕ) (g₁ : G) :
    ∃ t t₀, (s'.sample ext n g₁).2.1 = some t ∧ (s₀.sample ext n g₁).2.1 = some t₀ ∧ ∀ i,
      t.get i - y.get i.tail = t₀.get i - (centreOf l₀).get i.tail ∨
      (t.get i = -y.get i.tail ∧ t₀.get i = -(centreOf l₀).get i.tail) := by
  obtain ⟨h1, h2, h3, h4, h5⟩ := C11_reset_moves_centre_only ext h₀ h r
  cases hl : s'.labels_s with
  | none => rw [hl, hl₀] at h3; simp at h3
  | some l =>
    have h4 := h4 l hl
    simp only [Option.some.injEq] at h4
    rw [hl, hl₀] at h5
    simp only [Option.map_some, Option.some.injEq] at h5
    refine ⟨_, _, by rw [sample_labels, hl]; rfl, by rw [sample_labels, hl₀]; rfl, fun i => ?_⟩
    have e := (rsample_congr h2 (by rw [h1, hsh]) n g₁).1
    rw [e]
    obtain ⟨_, _, k3, k4⟩ := rsample_congr h5 (by rw [← h4, hshl]) n (s₀.data_s.rsample ext g₁ n).2
    subst h4
    by_cases hf : ∃ p, noiseOf ext l₀ = .flip p
    · obtain ⟨p, hp⟩ := hf
      rcases k4 i p hp with k | k
      · left; rw [k.1, k.2, sub_self, sub_self]
      · right; exact k
    · left; exact k3 i (fun p hp => hf ⟨p, hp⟩)

/-- the covariances of the samplers that keep one are accepted by torch -/
def AcceptedCovars (s : Sampler) : Prop :=
  s.kind ≠ .noLabelsCost → s.kind ≠ .labeledCost →
    ∀ x c, s.data_s = .mvn x c ∨ s.labels_s = some (.mvn x c) → ext.Accepts c

theorem mkNormalNoLabels_accepted {xi : Tensor ℝ} {sigma : Option ℝ} {tril prec cov : Option (Tensor ℝ)} {seed : Option ℤ} {g g' : G}
    {s : Sampler} (h : mkNormalNoLabels ext xi sigma tril prec cov seed g = .ok (s, g')) : AcceptedCovars ext s := by
  unfold mkNormalNoLabels at h
  obtain ⟨c, -, h⟩ := bind_ok h
  obtain ⟨d, hm, h⟩ := bind_ok h
  obtain ⟨rfl, -, ha⟩ := mkMvn_ok hm
  simp only [Except.ok.injEq, Prod.mk.injEq] at h
  obtain ⟨rfl, _⟩ := h
  rintro - - x c' (h | h)
  · simp only [Dist.mvn.injEq] at h; exact h.2 ▸ ha
  · simp at h

theorem mkNormalId_accepted {xi y : Tensor ℝ} {sigma : Option ℝ} {tril prec cov : Option (Tensor ℝ)} {seed : Option ℤ} {g g' : G}
    {s : Sampler} (h : mkNormalId ext xi y sigma tril prec cov seed g = .ok (s, g')) : AcceptedCovars ext s := by
  unfold mkNormalId at h
  obtain ⟨c, -, h⟩ := bind_ok h
  obtain ⟨d, hm, h⟩ := bind_ok h
  obtain ⟨rfl, -, ha⟩ := mkMvn_ok hm
  simp only [Except.ok.injEq, Prod.mk.injEq] at h
  obtain ⟨rfl, _⟩ := h
  rintro - - x c' (h | h)
  · simp only [Dist.mvn.injEq] at h; exact h.2 ▸ ha
  · simp at h

theorem mkNormalBernoulli_accepted {p : ℝ} {xi y : Tensor ℝ} {sigma : Option ℝ} {tril prec cov : Option (Tensor ℝ)} {seed : Option ℤ}
    {g g' : G} {s : Sampler} (h : mkNormalBernoulli ext p xi y sigma tril prec cov seed g = .ok (s, g')) : AcceptedCovars ext s := by
  unfold mkNormalBernoulli at h
  split at h
  · obtain ⟨c, -, h⟩ := bind_ok h
    obtain ⟨d, hm, h⟩ := bind_ok h
    obtain ⟨rfl, -, ha⟩ := mkMvn_ok hm
    simp only [Except.ok.injEq, Prod.mk.injEq] at h
    obtain ⟨rfl, _⟩ := h
    rintro - - x c' (h | h)
    · simp only [Dist.mvn.injEq] at h; exact h.2 ▸ ha
    · simp at h
  · simp at h

theorem mkNormalNormal_accepted {xi y : Tensor ℝ} {sigma sigma' : Option ℝ} {tril prec cov tril' prec' cov' : Option (Tensor ℝ)}
    {seed : Option ℤ} {g g' : G} {s : Sampler}
    (h : mkNormalNormal ext xi y sigma tril prec cov sigma' tril' prec' cov' seed g = .ok (s, g')) : AcceptedCovars ext s := by
  unfold mkNormalNormal at h
  split at h
  · simp at h
  · obtain ⟨c, -, h⟩ := bind_ok h
    obtain ⟨c', -, h⟩ := bind_ok h
    obtain ⟨d, hm, h⟩ := bind_ok h
    obtain ⟨rfl, -, ha⟩ := mkMvn_ok hm
    obtain ⟨d', hm', h⟩ := bind_ok h
    obtain ⟨rfl, -, ha'⟩ := mkMvn_ok hm'
    simp only [Except.ok.injEq, Prod.mk.injEq] at h
    obtain ⟨rfl, _⟩ := h
    rintro - - x c' (h | h)
    · simp only [Dist.mvn.injEq] at h; exact h.2 ▸ ha
    · simp only [Option.some.injEq, Dist.mvn.injEq] at h; exact h.2 ▸ ha'

theorem built_accepted {s : Sampler} (h : Built ext s) : AcceptedCovars ext s := by
  obtain ⟨g, g', xi, y, seed, cost, p, sigma, sigma', tril, prec, cov, tril', prec', cov', h⟩ := h
  rcases h with h | h | h | h | h | h
  · unfold mkNoLabelsCost at h
    obtain ⟨d, -, h⟩ := bind_ok h
    simp only [Except.ok.injEq, Prod.mk.injEq] at h
    obtain ⟨rfl, _⟩ := h
    intro k; exact absurd rfl k
  · unfold mkLabeledCost at h
    obtain ⟨d, -, h⟩ := bind_ok h
    obtain ⟨l, -, h⟩ := bind_ok h
    cases l with
    | none => simp at h
    | some l =>
      simp only [Except.ok.injEq, Prod.mk.injEq] at h
      obtain ⟨rfl, _⟩ := h
      intro _ k; exact absurd rfl k
  · exact mkNormalNoLabels_accepted ext h
  · exact mkNormalNormal_accepted ext h
  · exact mkNormalId_accepted ext h
  · exact mkNormalBernoulli_accepted ext h

theorem resetMean_accepted {s s' : Sampler} (hs : Sane s) {xi : Tensor ℝ} {y : Option (Tensor ℝ)} {g g' : G}
    (h : s.resetMean ext xi y g = .ok (s', g')) : AcceptedCovars ext s' := by
  have hk' := (resetMean_spec hs h).1.kind
  unfold Sampler.resetMean at h
  cases hk : s.kind with
  | noLabelsCost => intro k; exact absurd (hk'.trans hk) k
  | labeledCost => intro _ k; exact absurd (hk'.trans hk) k
  | normalNoLabels =>
    simp only [hk] at h
    obtain ⟨l, -, h⟩ := bind_ok h
    exact mkNormalNoLabels_accepted ext h
  | normalNormal =>
    cases y with
    | none => simp [hk] at h
    | some y =>
      simp only [hk] at h
      obtain ⟨l, -, h⟩ := bind_ok h
      cases hl : s.labels_s with
      | none => simp [hl] at h
      | some ls =>
        simp only [hl] at h
        obtain ⟨l', -, h⟩ := bind_ok h
        exact mkNormalNormal_accepted ext h
  | normalId =>
    cases y with
    | none => simp [hk] at h
    | some y =>
      simp only [hk] at h
      obtain ⟨l, -, h⟩ := bind_ok h
      exact mkNormalId_accepted ext h
  | normalBernoulli =>
    cases y with
    | none => simp [hk] at h
    | some y =>
      simp only [hk] at h
      cases hp : s.p with
      | none => simp [hp] at h
      | some p =>
        simp only [hp] at h
        obtain ⟨l, -, h⟩ := bind_ok h
        exact mkNormalBernoulli_accepted ext h

theorem accepts_tril (hf : FactorContract ext) {c : Covar} (h : ext.Accepts c) : ext.Accepts (.scaleTril (ext.tril c)) := by
  cases c with
  | scaleTril l => exact h
  | covariance m => exact (hf m h.1 h.2).1
  | precision m => exact (hf m h.1 h.2).2

/-- **C11** (re-centring never fails) A sampler built by any of the constructors, after any history of resets, can be re-centred on
every batch of at least two dimensions, with labels of at least two dimensions if it samples labels; labels are ignored otherwise
(torch contract: factors of positive definite matrices are lower triangular with positive diagonal). -/
theorem C11_reset_accepts (hf : FactorContract ext) {s₀ s : Sampler} (h₀ : Built ext s₀) (h : Resets ext s₀ s) {xi : Tensor ℝ}
    (hx : 2 ≤ xi.dim) {y : Option (Tensor ℝ)} (hy : s.producesLabels = true → ∃ t, y = some t ∧ 2 ≤ t.dim) (g : G) :
    ∃ s' g', s.resetMean ext xi y g = .ok (s', g') := by
  have hs := (resets_spec (built_sane h₀) h).1
  have ha : AcceptedCovars ext s := by
    cases h with
    | start => exact built_accepted ext h₀
    | reset h r => exact resetMean_accepted ext (resets_spec (built_sane h₀) h).1 r
  have nz : ∀ {t : Tensor ℝ}, 2 ≤ t.dim → t.shape ≠ [] := by
    intro t h e; simp [Tensor.dim, e] at h
  cases hk : s.kind with
  | noLabelsCost =>
    obtain ⟨c, x, hc, hd, hl⟩ := hs.noLabelsCost hk
    obtain ⟨_, hd'⟩ := samplerData_recentre (x' := xi) hd
    exact ⟨_, _, by simp only [Sampler.resetMean, hk, hc, mkNoLabelsCost, hd', ok_bind]; rfl⟩
  | labeledCost =>
    obtain ⟨c, x, y0, hc, hd, hl⟩ := hs.labeledCost hk
    obtain ⟨_, hd'⟩ := samplerData_recentre (x' := xi) hd
    obtain ⟨l0, hl0, _⟩ := samplerLabels_recentre (y' := xi) hl
    obtain ⟨t, rfl, -⟩ := hy (by simp [Sampler.producesLabels, hl0])
    obtain ⟨_, _, _, hl'⟩ := samplerLabels_recentre (y' := t) hl
    exact ⟨_, _, by simp only [Sampler.resetMean, hk, hc, mkLabeledCost, hd', hl', ok_bind]; rfl⟩
  | normalNoLabels =>
    obtain ⟨x, c, hd, hl, -⟩ := hs.normalNoLabels hk
    have hm := mkMvn_accepts (nz hx) (accepts_tril ext hf (ha (by simp [hk]) (by simp [hk]) x c (.inl hd)))
    exact ⟨_, _, by simp only [Sampler.resetMean, hk, hd, Dist.trilAttr, mkNormalNoLabels, initCovar, hm, ok_bind]; rfl⟩
  | normalNormal =>
    obtain ⟨x, c, y0, c', hd, hl, -⟩ := hs.normalNormal hk
    obtain ⟨t, rfl, ht⟩ := hy (by simp [Sampler.producesLabels, hl])
    have hm := mkMvn_accepts (nz hx) (accepts_tril ext hf (ha (by simp [hk]) (by simp [hk]) x c (.inl hd)))
    have hm' := mkMvn_accepts (nz ht) (accepts_tril ext hf (ha (by simp [hk]) (by simp [hk]) y0 c' (.inr hl)))
    have hn : ¬ (xi.dim < 2 ∨ t.dim < 2) := by omega
    exact ⟨_, _, by simp only [Sampler.resetMean, hk, hd, hl, Dist.trilAttr, mkNormalNormal, if_neg hn, initCovar, hm, hm', ok_bind]; rfl⟩
  | normalId =>
    obtain ⟨x, c, y0, hd, hl, -⟩ := hs.normalId hk
    obtain ⟨t, rfl, ht⟩ := hy (by simp [Sampler.producesLabels, hl])
    have hm := mkMvn_accepts (nz hx) (accepts_tril ext hf (ha (by simp [hk]) (by simp [hk]) x c (.inl hd)))
    exact ⟨_, _, by simp only [Sampler.resetMean, hk, hd, Dist.trilAttr, mkNormalId, initCovar, hm, ok_bind]; rfl⟩
  | normalBernoulli =>
    obtain ⟨x, c, y0, p, hd, hl, h1, h2, h3, hp⟩ := hs.normalBernoulli hk
    obtain ⟨t, rfl, ht⟩ := hy (by simp [Sampler.producesLabels, hl])
    have hm := mkMvn_accepts (nz hx) (accepts_tril ext hf (ha (by simp [hk]) (by simp [hk]) x c (.inl hd)))
    exact ⟨_, _, by simp only [Sampler.resetMean, hk, hd, h3, Dist.trilAttr, mkNormalBernoulli, initCovar, hm, ok_bind, hp, and_self, if_true]; rfl⟩

/-- torch accepts a positive scalar deviation -/
theorem accepts_eye (d : ℕ) {σ : ℝ} (h : d = 0 ∨ 0 < σ) : ext.Accepts (.scaleTril (eyeTimes d σ)) := by
  refine ⟨rfl, fun r c hr hc => ⟨fun hlt => ?_, fun he => ?_⟩⟩
  · simp [eyeTimes, hlt.ne]
  · subst he
    rcases h with rfl | h
    · simp [eyeTimes] at hr
    · simpa [eyeTimes] using h

theorem not_accepts_eye {d : ℕ} {σ : ℝ} (h : ¬ (d = 0 ∨ 0 < σ)) : ¬ ext.Accepts (.scaleTril (eyeTimes d σ)) := by
  rintro ⟨-, hL⟩
  refine h ?_
  by_cases hd : d = 0
  · exact .inl hd
  · have := (hL 0 0 (by simpa [eyeTimes] using Nat.pos_of_ne_zero hd) (by simpa [eyeTimes] using Nat.pos_of_ne_zero hd)).2 rfl
    right; simpa [eyeTimes] using this

/-- the hypotheses are met by the default sampler of labelled problems, and by the label-flip sampler -/
example (xi y : Tensor ℝ) (hx : xi.shape ≠ []) (g : G) : ∃ s g' s' g'', Built ext s ∧
    mkNormalBernoulli ext (1 / 4) xi y (some 2) none none none (some 3) g = .ok (s, g') ∧
    s.resetMean ext xi (some y) g' = .ok (s', g'') := by
  have h : (0 : ℝ) ≤ 1 / 4 ∧ (1 / 4 : ℝ) ≤ 1 := by norm_num
  have hm := mkMvn_accepts (ext := ext) hx (accepts_eye ext (lastSize xi) (σ := 2) (.inr (by norm_num)))
  have e : mkNormalBernoulli ext (1 / 4) xi y (some 2) none none none (some 3) g =
      .ok (⟨.normalBernoulli, some 3, .mvn xi (.scaleTril (eyeTimes (lastSize xi) 2)), some (.flip (1 / 4) y), none, none,
        some (1 / 4)⟩, ext.seed 3) := by
    unfold mkNormalBernoulli; rw [if_pos h]; simp only [initCovar, ok_bind, hm]; rfl
  have e2 : ∀ g, mkNormalBernoulli ext (1 / 4) xi y none (some (eyeTimes (lastSize xi) 2)) none none (some 3) g =
      .ok (⟨.normalBernoulli, some 3, .mvn xi (.scaleTril (eyeTimes (lastSize xi) 2)), some (.flip (1 / 4) y), none, none,
        some (1 / 4)⟩, ext.seed 3) := by
    intro g; unfold mkNormalBernoulli; rw [if_pos h]; simp only [initCovar, ok_bind, hm]; rfl
  refine ⟨_, _, _, _, ⟨g, _, xi, y, some 3, ⟨.normCost, .fin 2, 2, .fin 0⟩, 1 / 4, some 2, none, none, none, none, none,
    none, none, Or.inr (Or.inr (Or.inr (Or.inr (Or.inr e))))⟩, e, e2 (ext.seed 3)⟩

/-! ## C12 -/

theorem initCovar_spec (d : ℕ) (sigma : Option ℝ) (tril prec cov : Option (Tensor ℝ)) :
    (firstGiven ext d sigma tril cov prec = none → initCovar d sigma tril prec cov = .error .valueError) ∧
    (∀ L, firstGiven ext d sigma tril cov prec = some L → ∃ c, initCovar d sigma tril prec cov = .ok c ∧ ext.tril c = L ∧
      (FirstValid ext d sigma tril cov prec → ext.Accepts c) ∧ (¬ FirstValid ext d sigma tril cov prec → ¬ ext.Accepts c)) := by
  cases sigma with
  | some σ =>
    refine ⟨by simp [firstGiven], fun L hL => ?_⟩
    simp only [firstGiven, Option.map_some, Option.some_or, Option.some.injEq] at hL
    exact ⟨_, rfl, by simpa [TorchExt.tril] using hL, fun h => accepts_eye ext d h, fun h => not_accepts_eye ext h⟩
  | none =>
    cases tril <;> cases cov <;> cases prec <;>
      simp [firstGiven, initCovar, TorchExt.tril, FirstValid, TorchExt.Accepts] <;>
      exact fun h h' => ⟨h, h'⟩

/-- **C12** The covariance of every sampler is the first one given in the order sigma, tril, cov, prec: no option given is
a `ValueError`, and so is an invalid one (a deviation that is not positive, a factor that is not lower triangular with positive
diagonal, a matrix that is not positive definite), even when a valid one is given after it; otherwise the noise has that
covariance factor and all the other options are ignored.  (The label-flip probability must be in `[0,1]`, and the fully Gaussian
sampler needs batched inputs.) -/
theorem C12_first_given_covariance (xi y : Tensor ℝ) (hxi : xi.shape ≠ []) (sigma sigma' : Option ℝ)
    (tril cov prec tril' cov' prec' : Option (Tensor ℝ)) (p : ℝ) (seed : Option ℤ) (g : G) :
    (firstGiven ext (lastSize xi) sigma tril cov prec = none ∨ ¬ FirstValid ext (lastSize xi) sigma tril cov prec →
      mkNormalNoLabels ext xi sigma tril prec cov seed g = .error .valueError ∧
      mkNormalId ext xi y sigma tril prec cov seed g = .error .valueError ∧
      (0 ≤ p → p ≤ 1 → mkNormalBernoulli ext p xi y sigma tril prec cov seed g = .error .valueError) ∧
      (2 ≤ xi.dim → 2 ≤ y.dim →
        mkNormalNormal ext xi y sigma tril prec cov sigma' tril' prec' cov' seed g = .error .valueError)) ∧
    (∀ L, firstGiven ext (lastSize xi) sigma tril cov prec = some L → FirstValid ext (lastSize xi) sigma tril cov prec →
      Returns (mkNormalNoLabels ext xi sigma tril prec cov seed g) (fun s => noiseOf ext s.1.data_s = .gaussian L) ∧
      Returns (mkNormalId ext xi y sigma tril prec cov seed g) (fun s => noiseOf ext s.1.data_s = .gaussian L) ∧
      (0 ≤ p → p ≤ 1 → Returns (mkNormalBernoulli ext p xi y sigma tril prec cov seed g)
        (fun s => noiseOf ext s.1.data_s = .gaussian L)) ∧
      (2 ≤ xi.dim → 2 ≤ y.dim →
        (firstGiven ext (lastSize y) sigma' tril' cov' prec' = none ∨ ¬ FirstValid ext (lastSize y) sigma' tril' cov' prec' →
          mkNormalNormal ext xi y sigma tril prec cov sigma' tril' prec' cov' seed g = .error .valueError) ∧
        (∀ L', firstGiven ext (lastSize y) sigma' tril' cov' prec' = some L' → FirstValid ext (lastSize y) sigma' tril' cov' prec' →
          Returns (mkNormalNormal ext xi y sigma tril prec cov sigma' tril' prec' cov' seed g) (fun s =>
            noiseOf ext s.1.data_s = .gaussian L ∧ s.1.labels_s.map (noiseOf ext) = some (.gaussian L'))))) := by
  obtain ⟨h1, h2⟩ := initCovar_spec ext (lastSize xi) sigma tril prec cov
  obtain ⟨k1, k2⟩ := initCovar_spec ext (lastSize y) sigma' tril' prec' cov'
  have ydim : 2 ≤ y.dim → y.shape ≠ [] := by
    intro h e; simp [Tensor.dim, e] at h
  constructor
  · intro h
    cases hf : firstGiven ext (lastSize xi) sigma tril cov prec with
    | none =>
      have h1 := h1 hf
      refine ⟨by simp [mkNormalNoLabels, h1], by simp [mkNormalId, h1], ?_, ?_⟩
      · intro a b; simp [mkNormalBernoulli, h1, a, b]
      · intro a b
        have : ¬ (xi.dim < 2 ∨ y.dim < 2) := by omega
        simp only [mkNormalNormal, h1, this, if_false, error_bind]
    | some L =>
      obtain ⟨c, e1, -, -, e2⟩ := h2 L hf
      have hv : ¬ FirstValid ext (lastSize xi) sigma tril cov prec := by
        rcases h with h | h
        · rw [hf] at h; simp at h
        · exact h
      have e3 := mkMvn_refuses hxi (e2 hv)
      refine ⟨by simp [mkNormalNoLabels, e1, e3], by simp [mkNormalId, e1, e3], ?_, ?_⟩
      · intro a b; simp [mkNormalBernoulli, e1, e3, a, b]
      · intro a b
        have : ¬ (xi.dim < 2 ∨ y.dim < 2) := by omega
        simp only [mkNormalNormal, e1, this, if_false, ok_bind]
        cases hf' : initCovar (lastSize y) sigma' tril' prec' cov' with
        | error e =>
          cases hg : firstGiven ext (lastSize y) sigma' tril' cov' prec' with
          | none => rw [k1 hg] at hf'; simp only [Except.error.injEq] at hf'; simp [← hf']
          | some L' => obtain ⟨c', k, -⟩ := k2 L' hg; rw [k] at hf'; simp at hf'
        | ok c' => simp only [ok_bind, e3, error_bind]
  · intro L hL hv
    obtain ⟨c, h2, h3, h4, -⟩ := h2 L hL
    have h5 := mkMvn_accepts hxi (h4 hv)
    refine ⟨⟨_, by simp only [mkNormalNoLabels, h2, h5, ok_bind]; rfl, by simp [noiseOf, h3]⟩,
      ⟨_, by simp only [mkNormalId, h2, h5, ok_bind]; rfl, by simp [noiseOf, h3]⟩, ?_, ?_⟩
    · intro a b
      exact ⟨_, by simp only [mkNormalBernoulli, h2, h5, a, b, and_self, if_true, ok_bind]; rfl, by simp [noiseOf, h3]⟩
    · intro a b
      have : ¬ (xi.dim < 2 ∨ y.dim < 2) := by omega
      constructor
      · intro h
        cases hf : firstGiven ext (lastSize y) sigma' tril' cov' prec' with
        | none => simp only [mkNormalNormal, h2, this, k1 hf, if_false, ok_bind, error_bind]
        | some L' =>
          obtain ⟨c', e1, -, -, e2⟩ := k2 L' hf
          have hv' : ¬ FirstValid ext (lastSize y) sigma' tril' cov' prec' := by
            rcases h with h | h
            · rw [hf] at h; simp at h
            · exact h
          simp only [mkNormalNormal, h2, h5, e1, this, mkMvn_refuses (ydim b) (e2 hv'), if_false, ok_bind, error_bind]
      · intro L' hL' hv'
        obtain ⟨c', k2, k3, k4, -⟩ := k2 L' hL'
        exact ⟨_, by simp only [mkNormalNormal, h2, h5, k2, mkMvn_accepts (ydim b) (k4 hv'), this, if_false, ok_bind]; rfl, by simp [noiseOf, h3],
          by simp [noiseOf, k3]⟩

theorem eyeTimes_get (d : ℕ) (σ : ℝ) (k c : ℕ) : (eyeTimes d σ).get [k, c] = if k = c then σ else 0 := by
  simp [eyeTimes]

theorem flip_value (p : ℝ) (y : Tensor ℝ) (g : G) (n j : ℕ) (i : List ℕ) :
    ((Dist.flip p y).rsample ext g n).1.get (j :: i) =
      if (ext.bernoulli g p (n :: y.shape)).1.get (j :: i) = true then y.get i else -y.get i := by
  simp only [Dist.rsample, List.tail_cons]
  by_cases h : (ext.bernoulli g p (n :: y.shape)).1.get (j :: i) = true
  · rw [if_pos h, if_pos h]; ring
  · rw [if_neg h, if_neg h]; ring

theorem trilRow_eye (d : ℕ) (σ : ℝ) (row : List ℝ) (hr : row.length = d) {k : ℕ} (hk : k < d) :
    (trilRow (eyeTimes d σ) row).getD k 0 = σ * row.getD k 0 := by
  subst hr
  simp only [trilRow, List.getD_eq_getElem?_getD, List.getElem?_map, List.getElem?_range hk, Option.map_some,
    Option.getD_some, eyeTimes_get]
  rw [sum_range_fin (d := row.length) (fun c => (if k = c then σ else 0) * row[c]?.getD 0)]
  rw [Finset.sum_eq_single ⟨k, hk⟩]
  · simp
  · intro b _ hb
    have : k ≠ b.1 := fun h => hb (Fin.ext h.symm)
    simp [this]
  · simp

/-- **C12** With a positive scalar `sigma` every sampler draws `xi + sigma * standard normal noise`, coordinate by coordinate, whatever
other options are given (torch contract: noise has the requested shape). -/
theorem C12_sigma_is_standard_deviation (hext : ∀ g sh, (ext.stdNormal g sh).1.shape = sh) (xi : Tensor ℝ) {m d : ℕ}
    (hxi : xi.shape = [m, d]) {σ : ℝ} (hσ : 0 < σ) (tril cov prec : Option (Tensor ℝ)) (seed : Option ℤ) (g : G) :
    Returns (mkNormalNoLabels ext xi (some σ) tril prec cov seed g) (fun s => ∀ n g₁ (j : Fin n) (i : Fin m) (k : Fin d),
      (s.1.sample ext n g₁).1.shape = [n, m, d] ∧
      (s.1.sample ext n g₁).1.get [j, i, k] = xi.get [i, k] + σ * (ext.stdNormal g₁ [n, m, d]).1.get [j, i, k]) := by
  refine ⟨_, by simp only [mkNormalNoLabels, initCovar, ok_bind,
    mkMvn_accepts (by simp [hxi] : xi.shape ≠ []) (accepts_eye ext (lastSize xi) (.inr hσ))]; rfl, fun n g₁ j i k => ?_⟩
  rw [sample_fst]
  simp only [Dist.rsample, hxi, TorchExt.tril, lastSize, List.getLastD_cons, List.getLastD_nil, List.tail_cons, true_and]
  congr 1
  simp only [applyTril, List.getLastD_cons, List.getLastD_nil, List.dropLast_cons_cons, List.dropLast_singleton]
  have hl : ((ext.stdNormal g₁ [n, m, d]).1.lastRow [j.1, i.1]).length = d := by
    simp [lastRow, hext]
  rw [trilRow_eye d σ _ hl k.2]
  congr 1
  simp [lastRow, hext]

/-! ## C13 -/

/-- torch's Bernoulli contract: from a random generator state (at the time labels are drawn), each drawn entry is `true` with probability `p` -/
def BernoulliContract {Ω : Type} [MeasurableSpace Ω] (μ : MeasureTheory.Measure Ω) (gen : Ω → G) : Prop :=
  ∀ (p : ℝ), 0 ≤ p → p ≤ 1 → ∀ (sh i : List ℕ), InShape i sh →
    MeasurableSet {ω | (ext.bernoulli (gen ω) p sh).1.get i = true} ∧
    μ {ω | (ext.bernoulli (gen ω) p sh).1.get i = true} = ENNReal.ofReal p

/-- **C13** (outputs) The Bernoulli label sampler only outputs the label or its opposite. -/
theorem C13_outputs_label_or_opposite (p : ℝ) (xi y : Tensor ℝ) (sigma : Option ℝ) (tril prec cov : Option (Tensor ℝ))
    (seed : Option ℤ) {g g' : G} {s : Sampler} (h : mkNormalBernoulli ext p xi y sigma tril prec cov seed g = .ok (s, g'))
    (n : ℕ) (g₁ : G) : ∃ t, (s.sample ext n g₁).2.1 = some t ∧ t.shape = n :: y.shape ∧
      ∀ j i, t.get (j :: i) = y.get i ∨ t.get (j :: i) = -y.get i := by
  unfold mkNormalBernoulli at h
  split at h
  · cases hc : initCovar (lastSize xi) sigma tril prec cov with
    | error e => simp [hc] at h
    | ok c =>
      simp only [hc, ok_bind] at h
      obtain ⟨d, -, h⟩ := bind_ok h
      simp only [Except.ok.injEq, Prod.mk.injEq] at h
      obtain ⟨rfl, _⟩ := h
      refine ⟨_, by rw [sample_labels]; rfl, rfl, fun j i => ?_⟩
      rw [flip_value]
      split
      · left; rfl
      · right; rfl
  · simp at h

/-- **C13** What the code does: with parameter `p`, documented as the probability of a switch, a nonzero label is *kept* with
probability `p` and switched with probability `1 - p`.  Missing for the documented claim: the two agree only for `p = 1/2`. -/
theorem C13_switch_probability_partial {Ω : Type} [MeasurableSpace Ω] (μ : MeasureTheory.Measure Ω)
    [MeasureTheory.IsProbabilityMeasure μ] (gen : Ω → G) (p : ℝ) (xi y : Tensor ℝ) (sigma : Option ℝ)
    (tril prec cov : Option (Tensor ℝ)) (seed : Option ℤ) {g g' : G} {s : Sampler}
    (h : mkNormalBernoulli ext p xi y sigma tril prec cov seed g = .ok (s, g')) (n : ℕ)
    (hext : BernoulliContract ext μ (fun ω => (s.data_s.rsample ext (gen ω) n).2))
    (j : ℕ) (hj : j < n) (i : List ℕ) (hi : InShape i y.shape) (hy : y.get i ≠ 0) :
    μ {ω | ∃ t, (s.sample ext n (gen ω)).2.1 = some t ∧ t.get (j :: i) = -y.get i} = ENNReal.ofReal (1 - p) := by
  have hp : 0 ≤ p ∧ p ≤ 1 := by
    by_contra hp
    simp only [mkNormalBernoulli, if_neg hp, reduceCtorEq] at h
  have hs : s.labels_s = some (.flip p y) := by
    simp only [mkNormalBernoulli, if_pos hp] at h
    cases hc : initCovar (lastSize xi) sigma tril prec cov with
    | error e => simp [hc] at h
    | ok c =>
      simp only [hc, ok_bind] at h
      obtain ⟨d, -, h⟩ := bind_ok h
      simp only [Except.ok.injEq, Prod.mk.injEq] at h
      obtain ⟨rfl, _⟩ := h
      rfl
  have hin : InShape (j :: i) (n :: y.shape) := List.Forall₂.cons hj hi
  obtain ⟨hm, hP⟩ := hext p hp.1 hp.2 _ _ hin
  have e : {ω | ∃ t, (s.sample ext n (gen ω)).2.1 = some t ∧ t.get (j :: i) = -y.get i} =
      {ω | (ext.bernoulli (s.data_s.rsample ext (gen ω) n).2 p (n :: y.shape)).1.get (j :: i) = true}ᶜ := by
    ext ω
    simp only [Set.mem_ofPred_eq, Set.mem_compl_iff]
    rw [sample_labels, hs]
    simp only [Option.map_some, Option.some.injEq, exists_eq_left', flip_value]
    split
    · next h =>
      simp only [h, not_true_eq_false, iff_false]
      intro h2; exact hy (by linarith)
    · next h => simp [h]
  rw [e, MeasureTheory.prob_compl_eq_one_sub hm, hP, ENNReal.ofReal_sub _ hp.1, ENNReal.ofReal_one]

/-- a generator whose state is a uniform number of `[0,1]`, drawing Bernoulli variables by inversion -/
noncomputable def uniformExt : TorchExt unitInterval where
  seed := fun _ => 0
  stdNormal := fun g sh => (⟨sh, fun _ => 0⟩, g)
  stdLaplace := fun g sh => (⟨sh, fun _ => 0⟩, g)
  bernoulli := fun g p sh => (⟨sh, fun _ => by classical exact decide (g.1 < p)⟩, g)
  cholesky := id
  precisionToTril := id
  mvnLogDensity := fun _ _ => 0

theorem uniformExt_contract : BernoulliContract uniformExt MeasureTheory.volume id := by
  intro p h0 h1 sh i _
  have e : {ω : unitInterval | (uniformExt.bernoulli (id ω) p sh).1.get i = true} = Set.Iio ⟨p, h0, h1⟩ := by
    ext ω
    simp [uniformExt, ← Subtype.coe_lt_coe]
  rw [e, unitInterval.volume_Iio]
  exact ⟨measurableSet_Iio, rfl⟩

/-- **C13** (documented claim, false) `p` is not the probability of a switch: there is a setting meeting torch's contract in
which, with `p = 1/4`, a label is switched with probability `3/4`. -/
theorem C13_switch_probability_false :
    ∃ (s : Sampler) (g' : unitInterval) (y : Tensor ℝ),
      mkNormalBernoulli uniformExt (1 / 4) (mat ![![0]]) y (some 1) none none none none 0 = .ok (s, g') ∧
      BernoulliContract uniformExt MeasureTheory.volume (fun ω => (s.data_s.rsample uniformExt (id ω) 1).2) ∧
      MeasureTheory.volume {ω : unitInterval | ∃ t, (s.sample uniformExt 1 (id ω)).2.1 = some t ∧
        t.get [0, 0, 0] = -y.get [0, 0]} ≠ ENNReal.ofReal (1 / 4) := by
  have h : (0 : ℝ) ≤ 1 / 4 ∧ (1 / 4 : ℝ) ≤ 1 := by norm_num
  have e : mkNormalBernoulli uniformExt (1 / 4) (mat ![![0]]) (mat ![![1]]) (some 1) none none none none 0 =
      .ok (⟨.normalBernoulli, none, .mvn (mat ![![0]]) (.scaleTril (eyeTimes 1 1)), some (.flip (1 / 4) (mat ![![1]])),
        none, none, some (1 / 4)⟩, 0) := by
    have hm := mkMvn_accepts (ext := uniformExt) (loc := mat ![![0]]) (by simp [mat]) (accepts_eye uniformExt 1 (σ := 1) (.inr (by norm_num)))
    unfold mkNormalBernoulli; rw [if_pos h]
    have : lastSize (mat ![![(0 : ℝ)]]) = 1 := rfl
    simp only [initCovar, ok_bind, this, hm]; rfl
  refine ⟨_, _, mat ![![1]], e, uniformExt_contract, ?_⟩
  have := C13_switch_probability_partial uniformExt MeasureTheory.volume id (1 / 4) _ _ _ _ _ _ _ e 1
    uniformExt_contract 0 (by norm_num) [0, 0] (List.Forall₂.cons (by norm_num) (List.Forall₂.cons (by norm_num) .nil))
    (by simp [mat])
  rw [this, Ne, ENNReal.ofReal_eq_ofReal_iff (by norm_num) (by norm_num)]
  norm_num

/-! ## C14 -/

/-- **C14** With a seeded sampler the result of a post-sampled evaluation (value, re-centred sampler and next generator
state) does not depend on the generator state it starts from. -/
theorem C14_seeded_evaluation_forgets_generator (D : DualLoss) {s : Sampler} (hs : D.sampler = some s) {k : ℤ}
    (hk : s.seed = some k) (xi : Tensor ℝ) (y : Option (Tensor ℝ)) (g g' : G) :
    postForward ext D xi y true g = postForward ext D xi y true g' := by
  unfold postForward
  simp only [hs, if_true]
  rw [resetMean_seeded hk xi y g g']

/-- the robust loss `D` after any number of post-sampled evaluations (on any batches, from any generator states) -/
inductive Evaluations (D : DualLoss) : DualLoss → Prop
  | start : Evaluations D D
  | eval {E E' : DualLoss} {xi : Tensor ℝ} {y : Option (Tensor ℝ)} {g g' : G} {v : DualVal} (h : Evaluations D E)
      (r : postForward ext E xi y true g = .ok (v, E', g')) : Evaluations D E'

theorem postForward_sampler {E E' : DualLoss} {s : Sampler} (hs : E.sampler = some s) {xi : Tensor ℝ} {y : Option (Tensor ℝ)}
    {g g' : G} {v : DualVal} (r : postForward ext E xi y true g = .ok (v, E', g')) :
    ∃ s' g₁, s.resetMean ext xi y g = .ok (s', g₁) ∧ E' = { E with sampler := some s' } := by
  unfold postForward at r
  simp only [hs, if_true] at r
  cases hr : s.resetMean ext xi y g with
  | error e => simp [hr] at r
  | ok sg =>
    obtain ⟨s', g₁⟩ := sg
    refine ⟨s', g₁, rfl, ?_⟩
    simp only [hr, ok_bind] at r
    cases hrho : E.rho with
    | nan =>
      simp only [hrho] at r
      generalize computeDual ext _ xi y _ _ = c at r
      cases c with
      | error e => simp at r
      | ok v => simp only [ok_bind, Except.ok.injEq, Prod.mk.injEq] at r; rw [← r.2.1]
    | num rho =>
      simp only [hrho] at r
      split at r
      · simp at r
      · split at r
        · cases hp : E.primal xi.unsqueeze0 (maybeUnsqueeze y) with
          | error e => simp [hp] at r
          | ok b =>
            simp only [hp, ok_bind] at r
            cases hq : reduceLossBatch E.reduction b.squeeze0 with
            | error e => simp [hq] at r
            | ok l => simp only [hq, ok_bind, Except.ok.injEq, Prod.mk.injEq] at r; rw [← r.2.1]
        · generalize computeDual ext _ xi y _ _ = c at r
          cases c with
          | error e => simp at r
          | ok v => simp only [ok_bind, Except.ok.injEq, Prod.mk.injEq] at r; rw [← r.2.1]

/-- **C14** The same evaluation made after any history of other evaluations gives the same value: results depend only on the
seed, the robust loss and the batch. -/
theorem C14_seeded_evaluation_forgets_history (D E : DualLoss) {s : Sampler} (hs : D.sampler = some s) (hb : Built ext s)
    {k : ℤ} (hk : s.seed = some k) (h : Evaluations ext D E) (xi : Tensor ℝ) (y : Option (Tensor ℝ)) (g g' : G) :
    postForward ext E xi y true g = postForward ext D xi y true g' := by
  have key : ∃ t, E = { D with sampler := some t } ∧ Sane t ∧ SameLaw ext s t := by
    induction h with
    | start => exact ⟨s, by rw [← hs], built_sane hb, SameLaw.rfl⟩
    | eval h r ih =>
      obtain ⟨t, rfl, ht, hl⟩ := ih
      obtain ⟨t', g₁, hr, rfl⟩ := postForward_sampler ext rfl r
      obtain ⟨h1, _⟩ := resetMean_spec ht hr
      exact ⟨t', rfl, h1.sane, hl.trans h1.same⟩
  obtain ⟨t, rfl, ht, hl⟩ := key
  rw [C14_seeded_evaluation_forgets_generator ext D hs hk xi y g' g]
  unfold postForward
  simp only [hs, if_true]
  rw [resetMean_congr (built_sane hb) ht hl]

/-- the hypotheses are met by the robust losses built by `robustify` with their default seed -/
example (a : DualizeArgs) {g g' : G} {D : DualLoss} (h : dualize ext a g = .ok (D, g')) :
    ∃ s, D.sampler = some s ∧ Built ext s ∧ s.seed = a.seed := by
  obtain ⟨parsed, obj, c, s, hp, ho, hr, hs, rfl⟩ := dualize_ok h
  refine ⟨s, rfl, ?_, ?_⟩
  · cases hl : a.xi_labels with
    | none =>
      simp only [dualizeSampler, hl] at hs
      exact ⟨g, g', a.xi, a.xi, a.seed, c, 0, _, none, none, none, none, none, none, none, Or.inl hs⟩
    | some y =>
      simp only [dualizeSampler, hl] at hs
      exact ⟨g, g', a.xi, y, a.seed, c, 0, _, none, none, none, none, none, none, none, Or.inr (Or.inl hs)⟩
  · cases hl : a.xi_labels with
    | none =>
      simp only [dualizeSampler, hl, mkNoLabelsCost] at hs
      cases hd : samplerData c a.xi (some (expertSigma a.rho a.sigma SIGMA_FACTOR)) with
      | error e => simp [hd] at hs
      | ok d => simp only [hd, ok_bind, Except.ok.injEq, Prod.mk.injEq] at hs; rw [← hs.1]
    | some y =>
      simp only [dualizeSampler, hl, mkLabeledCost] at hs
      cases hd : samplerData c a.xi (some (expertSigma a.rho a.sigma SIGMA_FACTOR)) with
      | error e => simp [hd] at hs
      | ok d =>
        cases hy : samplerLabels c (some y) (some (expertSigma a.rho a.sigma SIGMA_FACTOR)) with
        | error e => simp [hd, hy] at hs
        | ok l =>
          cases l with
          | none => simp [hd, hy] at hs
          | some l => simp only [hd, hy, ok_bind, Except.ok.injEq, Prod.mk.injEq] at hs; rw [← hs.1]

/-! ## C15 -/

/-- **C15** (fresh noise, unseeded samplers) Without a seed an evaluation with positive radius draws its samples from the
generator state it receives and hands over the state left by these draws, so successive evaluations consume successive
segments of the stream.  Missing: samplers with a seed, which is the default, see `C15_fresh_noise_false`. -/
theorem C15_fresh_noise_partial (D : DualLoss) {s : Sampler} (hs : D.sampler = some s) (hb : Built ext s)
    (hk : s.seed = none) {rho : ℝ} (hr : D.rho = .num rho) (hpos : 0 < rho) (xi : Tensor ℝ) (y : Option (Tensor ℝ))
    {g g' : G} {v : DualVal} {E : DualLoss} (h : postForward ext D xi y true g = .ok (v, E, g')) :
    ∃ s', s.resetMean ext xi y g = .ok (s', g) ∧ s'.seed = none ∧ E = { D with sampler := some s' } ∧
      g' = (s'.sample ext D.nSamples g).2.2 ∧
      computeDual ext E xi y (s'.sample ext D.nSamples g).1 (s'.sample ext D.nSamples g).2.1 = .ok v := by
  obtain ⟨s', g₁, h1, rfl⟩ := postForward_sampler ext hs h
  obtain ⟨h2, h3⟩ := resetMean_spec (built_sane hb) h1
  rw [hk] at h3
  simp only [seedGlobal] at h3
  subst h3
  refine ⟨s', h1, h2.seed.trans hk, rfl, ?_⟩
  unfold postForward at h
  simp only [hs, if_true, h1, ok_bind, hr] at h
  rw [if_neg (by linarith), if_neg (by linarith)] at h
  simp only [hr]
  generalize computeDual ext _ xi y _ _ = c at h ⊢
  cases c with
  | error e => simp at h
  | ok w =>
    simp only [ok_bind, Except.ok.injEq, Prod.mk.injEq] at h
    exact ⟨h.2.2.symm, by rw [h.1]⟩

/-- **C15** (what happens with a seed) Every evaluation of a seeded post-sampled loss on a given batch returns the same value,
whatever was evaluated before: the "fresh" noise is always the same. -/
theorem C15_seeded_noise_repeats_partial (D E : DualLoss) {s : Sampler} (hs : D.sampler = some s) (hb : Built ext s)
    {k : ℤ} (hk : s.seed = some k) (h : Evaluations ext D E) (xi : Tensor ℝ) (y : Option (Tensor ℝ)) {g g₁ : G}
    {v : DualVal} {D' : DualLoss} (h₁ : postForward ext D xi y true g = .ok (v, D', g₁)) (g₂ : G) :
    postForward ext E xi y true g₂ = .ok (v, D', g₁) := by
  rw [← h₁]; exact C14_seeded_evaluation_forgets_history ext D E hs hb hk h xi y g₂ g

/-- a generator whose state counts the draws, each draw being filled with the count -/
def counterExt : TorchExt ℕ where
  seed := fun _ => 0
  stdNormal := fun g sh => (⟨sh, fun _ => g⟩, g + 1)
  stdLaplace := fun g sh => (⟨sh, fun _ => g⟩, g + 1)
  bernoulli := fun g _ sh => (⟨sh, fun _ => g % 2 = 0⟩, g + 1)
  cholesky := id
  precisionToTril := id
  mvnLogDensity := fun _ _ => 0

/-- the re-centred sampler and the generator state from which the next evaluation on `(xi, y)` draws its noise -/
noncomputable def nextDraw (s : Sampler) (n : ℕ) (xi : Tensor ℝ) (y : Option (Tensor ℝ)) (g : G) :
    Except PyErr (Sampler × Tensor ℝ × G) := do
  let (s', g') ← s.resetMean ext xi y g
  .ok (s', (s'.sample ext n g').1, (s'.sample ext n g').2.2)

/-- **C15** (false) Fresh noise fails for the default seeded samplers: two successive evaluations draw the same noise, although
the stream has moved on (the second segment of the stream is different). -/
theorem C15_fresh_noise_false :
    ∃ (s : Sampler) (xi z₁ z₂ : Tensor ℝ) (s₁ s₂ : Sampler) (g₀ g₁ g₂ : ℕ),
      mkNoLabelsCost counterExt ⟨.normCost, .fin 2, 2, .fin 0⟩ xi (some 1) (some 42) 0 = .ok (s, g₀) ∧
      nextDraw counterExt s 1 xi none g₀ = .ok (s₁, z₁, g₁) ∧ nextDraw counterExt s₁ 1 xi none g₁ = .ok (s₂, z₂, g₂) ∧
      z₁ = z₂ ∧ (s₁.sample counterExt 1 g₁).1.get [0, 0, 0] ≠ z₂.get [0, 0, 0] := by
  have e : ∀ g, mkNoLabelsCost counterExt ⟨.normCost, .fin 2, 2, .fin 0⟩ (mat ![![0]]) (some 1) (some 42) g =
      .ok (⟨.noLabelsCost, some 42, .normal (mat ![![0]]) (.fin 1), none, some ⟨.normCost, .fin 2, 2, .fin 0⟩, some 1,
        none⟩, 0) := by
    intro g
    simp [mkNoLabelsCost, samplerData, defaultEps, mkNormal, validScale, seedGlobal, counterExt]
  have e2 : ∀ g, nextDraw counterExt ⟨.noLabelsCost, some 42, .normal (mat ![![0]]) (.fin 1), none,
      some ⟨.normCost, .fin 2, 2, .fin 0⟩, some 1, none⟩ 1 (mat ![![0]]) none g =
      .ok (⟨.noLabelsCost, some 42, .normal (mat ![![0]]) (.fin 1), none, some ⟨.normCost, .fin 2, 2, .fin 0⟩, some 1,
        none⟩, ⟨[1, 1, 1], fun i => (mat ![![0]]).get i.tail + scaleVal (.fin 1) * ((0 : ℕ) : ℝ)⟩, 1) := by
    intro g
    simp only [nextDraw, Sampler.resetMean]
    rw [e g]
    rfl
  refine ⟨_, mat ![![0]], _, _, _, _, _, _, _, e 0, e2 0, e2 1, rfl, ?_⟩
  simp [Sampler.sample, Dist.rsample, counterExt, scaleVal]

end Skwdro
