import Verif.Lemmas.ImpSamp
import Verif.Lemmas.Dual
import Verif.Lemmas.WrapProblem
import Verif.Props.Costs
import Verif.Props.WrapProblem
import Mathlib.MeasureTheory.Integral.Bochner.Basic
import Mathlib.MeasureTheory.Constructions.Pi
import Mathlib.MeasureTheory.Measure.Lebesgue.Basic

/-!
# Importance sampling: C16 – C21

`Unlabelled` and `WithLabels` (Spec/ImpSamp.lean) say what a displacement step receives: data, samples, and the gradients of
the loss at the data (computed by torch's autograd, external).
-/

namespace Skwdro
open Spec Tensor

variable {G : Type} (ext : TorchExt G)
variable {n m d e : ℕ} {D : DualLoss} {xi zeta y zl tg tgl : Tensor ℝ} {X g : Fin m → Fin d → ℝ}
  {Z : Fin n → Fin m → Fin d → ℝ} {Y gl : Fin m → Fin e → ℝ} {W : Fin n → Fin m → Fin e → ℝ}

/-- A robust loss with squared Euclidean cost on the loss `(|x|^2 + |y|^2) / 2`, whose gradients are `x` and `y`; used in
examples. -/
noncomputable def exImp (kind : CostKind) (kappa : XNum ℝ) (lam : ℝ) (s : Option Sampler) : DualLoss where
  primal z zl := match zl with
    | none => .ok (z.map (fun x => x ^ 2 / 2))
    | some w => Tensor.zipWith (fun x y => (x ^ 2 + y ^ 2) / 2) z w
  grads x y := (x, y)
  cost := ⟨kind, .fin 2, 2, kappa⟩
  rho := .num 1
  epsilon := 1
  lam := lam
  reduction := .mean
  ermMode := false
  impSamp := true
  sampler := s
  hasLabels := false
  nSamples := 1

theorem exImp_unlabelled {m d n : ℕ} (hm : 0 < m) (hd : 0 < d) (kappa : XNum ℝ) (lam : ℝ) (s : Option Sampler)
    (X : Fin m → Fin d → ℝ) (Z : Fin n → Fin m → Fin d → ℝ) :
    Unlabelled (exImp .normCost kappa lam s) (mat X) (ten Z) X Z X :=
  ⟨hm, hd, rfl, rfl, isMat_mat X, isTen_ten Z, _, rfl, isTen_unsqueeze (isMat_mat X)⟩

theorem exImp_labelled {m d e n : ℕ} (hm : 0 < m) (hd : 0 < d) (he : 0 < e) (kind : CostKind) {k : ℝ} (hk : 0 ≤ k)
    (lam : ℝ) (s : Option Sampler) (X : Fin m → Fin d → ℝ) (Y : Fin m → Fin e → ℝ) (Z : Fin n → Fin m → Fin d → ℝ)
    (W : Fin n → Fin m → Fin e → ℝ) :
    WithLabels (exImp kind (.fin k) lam s) (mat X) (mat Y) (ten Z) (ten W) X Y Z W X Y :=
  ⟨hm, hd, he, rfl, rfl, ⟨two_order, fun _ => Or.inl ⟨k, hk, rfl⟩⟩, isMat_mat X, isTen_ten Z, isMat_mat Y, isTen_ten W,
    _, _, rfl, isTen_unsqueeze (isMat_mat X), isTen_unsqueeze (isMat_mat Y)⟩

theorem unlab (h : Unlabelled D xi zeta X Z g) :
    ∃ x' z', displaceSamples D xi none zeta none = .ok (x', none, z', none) ∧
      IsTen x' (fun (_ : Fin 1) i k => X i k + moved (Regular D.lam g) D.lam g i k) ∧
      IsTen z' (fun j i k => Z j i k + moved (Regular D.lam g) D.lam g i k) := by
  obtain ⟨tg, h1, h2⟩ := h.grads
  exact displace_unlabelled h.m_pos h.d_pos (squared_of h.order h.power) h.data h.samples h1 h2

theorem lab (h : WithLabels D xi y zeta zl X Y Z W g gl) :
    ∃ x' y' z' zl', displaceSamples D xi (some y) zeta (some zl) = .ok (x', some y', z', some zl') ∧
      IsTen x' (fun (_ : Fin 1) i k => X i k + moved (Regular D.lam g ∧ Regular D.lam gl) D.lam g i k) ∧
      IsTen y' (fun (_ : Fin 1) i k => labelTo D.cost (Regular D.lam g ∧ Regular D.lam gl) D.lam gl i k (Y i k)) ∧
      IsTen z' (fun j i k => Z j i k + moved (Regular D.lam g ∧ Regular D.lam gl) D.lam g i k) ∧
      IsTen zl' (fun j i k => labelTo D.cost (Regular D.lam g ∧ Regular D.lam gl) D.lam gl i k (W j i k)) := by
  obtain ⟨tg, tgl, h1, h2, h3⟩ := h.grads
  exact displace_labelled_raw h.m_pos h.d_pos h.e_pos (squared_of h.order h.power) h.data h.samples h.labels
    h.sampledLabels h1 h2 h3

/-! ## C16 -/

/-- **C16** Displacement (no labels) succeeds and keeps the difference between every sample and its centre, whatever the
gradients and the multiplier. -/
theorem C16_noise_kept (h : Unlabelled D xi zeta X Z g) :
    ∃ x' z', displaceSamples D xi none zeta none = .ok (x', none, z', none) ∧ x'.shape = [1, m, d] ∧
      z'.shape = [n, m, d] ∧
      ∀ (j : Fin n) (i : Fin m) (k : Fin d), z'.get [j, i, k] - x'.get [0, i, k] = Z j i k - X i k := by
  obtain ⟨x', z', h1, h2, h3⟩ := unlab h
  refine ⟨x', z', h1, h2.1, h3.1, fun j i k => ?_⟩
  have := h2.2 0 i k
  simp only [Fin.val_zero] at this
  rw [this, h3.2]; ring

/-- **C16** The same with labels, on the input part. -/
theorem C16_noise_kept_inputs (h : WithLabels D xi y zeta zl X Y Z W g gl) :
    ∃ x' y' z' zl', displaceSamples D xi (some y) zeta (some zl) = .ok (x', some y', z', some zl') ∧
      x'.shape = [1, m, d] ∧ z'.shape = [n, m, d] ∧
      ∀ (j : Fin n) (i : Fin m) (k : Fin d), z'.get [j, i, k] - x'.get [0, i, k] = Z j i k - X i k := by
  obtain ⟨x', y', z', zl', h1, h2, _, h3, _⟩ := lab h
  refine ⟨x', y', z', zl', h1, h2.1, h3.1, fun j i k => ?_⟩
  have := h2.2 0 i k
  simp only [Fin.val_zero] at this
  rw [this, h3.2]; ring

/-- **C16** The same on the label part.  Partial: the label weight must not be zero (see `C16_zero_weight_false`). -/
theorem C16_noise_kept_labels_partial (h : WithLabels D xi y zeta zl X Y Z W g gl) (hk : labelWeight D.cost ≠ some 0) :
    ∃ x' y' z' zl', displaceSamples D xi (some y) zeta (some zl) = .ok (x', some y', z', some zl') ∧
      ∃ (Y' : Fin m → Fin e → ℝ) (W' : Fin n → Fin m → Fin e → ℝ), IsTen y' (fun (_ : Fin 1) i k => .fin (Y' i k)) ∧
        IsTen zl' (fun j i k => .fin (W' j i k)) ∧ ∀ j i k, W' j i k - Y' i k = W j i k - Y i k := by
  obtain ⟨x', y', z', zl', h1, _, h2, _, h3⟩ := lab h
  simp only [labelTo_weight h.cost hk] at h2 h3
  exact ⟨x', y', z', zl', h1, _, _, h2, h3, fun j i k => by ring⟩

example : Unlabelled (exImp .normCost (.fin 0) 1 none) (mat ![![1, 2]]) (ten ![![![3, 4]], ![![5, 6]]]) ![![1, 2]]
    ![![![3, 4]], ![![5, 6]]] ![![1, 2]] := exImp_unlabelled (by norm_num) (by norm_num) _ _ _ _ _

example : WithLabels (exImp .normLabelCost (.fin 3) 1 none) (mat ![![1, 2]]) (mat ![![1]]) (ten ![![![3, 4]]])
    (ten ![![![7]]]) ![![1, 2]] ![![1]] ![![![3, 4]]] ![![![7]]] ![![1, 2]] ![![1]] ∧
    labelWeight (exImp .normLabelCost (.fin 3) 1 none).cost ≠ some 0 :=
  ⟨exImp_labelled (by norm_num) (by norm_num) (by norm_num) _ (by norm_num) _ _ _ _ _ _, by
    simp [labelWeight, exImp]⟩

/-! ## C17 -/

theorem regular_iff {lam : ℝ} : ¬ Regular lam g ↔ lam = 0 ∨ ∃ i, ∀ k, g i k = 0 := by
  unfold Regular
  simp only [← norm2_eq_zero]
  constructor
  · intro h
    by_cases hl : lam = 0
    · exact Or.inl hl
    · right
      by_contra hc
      exact h ⟨hl, fun i hi => hc ⟨i, hi⟩⟩
  · rintro (h | ⟨i, hi⟩) ⟨h1, h2⟩
    · exact h1 h
    · exact h2 i hi

/-- **C17** Without labels, the displacement never fails.  If the multiplier is zero or one of the gradients of the batch
vanishes, no point at all is displaced.  Otherwise, for a positive multiplier, every centre and every sample moves along the
gradient of its own point, by the length `min(10^10, |grad|)/(2 lam)`. -/
theorem C17_displacement (h : Unlabelled D xi zeta X Z g) :
    ∃ x' z', displaceSamples D xi none zeta none = .ok (x', none, z', none) ∧
      ((D.lam = 0 ∨ ∃ i, ∀ k, g i k = 0) → IsTen x' (fun (_ : Fin 1) => X) ∧ IsTen z' Z) ∧
      (0 < D.lam → (∀ i, ∃ k, g i k ≠ 0) → ∃ v : Fin m → Fin d → ℝ,
        IsTen x' (fun (_ : Fin 1) i k => X i k + v i k) ∧ IsTen z' (fun j i k => Z j i k + v i k) ∧
        ∀ i, (∃ a, 0 < a ∧ ∀ k, v i k = a * g i k) ∧ norm2 (v i) = min (10 ^ 10) (norm2 (g i)) / (2 * D.lam)) := by
  obtain ⟨x', z', h1, h2, h3⟩ := unlab h
  refine ⟨x', z', h1, fun hr => ?_, fun hl hg => ⟨shift D.lam ∘ g, ?_⟩⟩
  · have hr := regular_iff.2 hr
    simp only [moved, hr, if_false, add_zero] at h2 h3
    exact ⟨h2, h3⟩
  · have hr : Regular D.lam g := by
      by_contra hc
      rcases regular_iff.1 hc with h0 | ⟨i, hi⟩
      · exact hl.ne' h0
      · obtain ⟨k, hk⟩ := hg i; exact hk (hi k)
    simp only [moved, hr, if_true] at h2 h3
    refine ⟨h2, h3, fun i => ⟨⟨min (10 ^ 10) (norm2 (g i)) / (2 * D.lam) / norm2 (g i), ?_, fun k => ?_⟩,
      norm2_shift hl (hr.2 i)⟩⟩
    · have hp : 0 < norm2 (g i) := lt_of_le_of_ne (norm2_nonneg _) (Ne.symm (hr.2 i))
      have : 0 < min (10 ^ 10) (norm2 (g i)) := lt_min (by norm_num) hp
      positivity
    · simp only [Function.comp, shift]; ring

/-- **C17** With labels: if the multiplier is zero, or one gradient (with respect to a point or to a label) vanishes, nothing
is displaced; otherwise inputs move as without labels, and all returned labels are finite.  Partial: the label weight must
not be zero (next theorem). -/
theorem C17_displacement_labelled_partial (h : WithLabels D xi y zeta zl X Y Z W g gl)
    (hk : labelWeight D.cost ≠ some 0) :
    ∃ x' y' z' zl', displaceSamples D xi (some y) zeta (some zl) = .ok (x', some y', z', some zl') ∧
      ((D.lam = 0 ∨ (∃ i, ∀ k, g i k = 0) ∨ (∃ i, ∀ k, gl i k = 0)) →
        IsTen x' (fun (_ : Fin 1) => X) ∧ IsTen z' Z ∧ IsTen y' (fun (_ : Fin 1) i k => .fin (Y i k)) ∧
        IsTen zl' (fun j i k => .fin (W j i k))) ∧
      (0 < D.lam → (∀ i, ∃ k, g i k ≠ 0) → (∀ i, ∃ k, gl i k ≠ 0) → ∃ (v : Fin m → Fin d → ℝ) (w : Fin m → Fin e → ℝ),
        IsTen x' (fun (_ : Fin 1) i k => X i k + v i k) ∧ IsTen z' (fun j i k => Z j i k + v i k) ∧
        IsTen y' (fun (_ : Fin 1) i k => .fin (Y i k + w i k)) ∧ IsTen zl' (fun j i k => .fin (W j i k + w i k)) ∧
        (∀ i, (∃ a, 0 < a ∧ ∀ k, v i k = a * g i k) ∧ norm2 (v i) = min (10 ^ 10) (norm2 (g i)) / (2 * D.lam)) ∧
        ∀ i, norm2 (w i) = match labelWeight D.cost with
          | some q => min (10 ^ 10) (norm2 (gl i)) / (2 * D.lam) / q
          | none => 0) := by
  obtain ⟨x', y', z', zl', h1, h2, h3, h4, h5⟩ := lab h
  simp only [labelTo_weight h.cost hk] at h3 h5
  refine ⟨x', y', z', zl', h1, fun hr => ?_, fun hl hg hgl => ⟨shift D.lam ∘ g, _, ?_, ?_, h3, h5, ?_, ?_⟩⟩
  · have hr : ¬ (Regular D.lam g ∧ Regular D.lam gl) := by
      rintro ⟨h6, h7⟩
      rcases hr with hr | hr | hr
      · exact h6.1 hr
      · exact regular_iff.2 (Or.inr hr) h6
      · exact regular_iff.2 (Or.inr hr) h7
    have e : ∀ i k, movedLabel D.cost (Regular D.lam g ∧ Regular D.lam gl) D.lam gl i k = 0 := by
      intro i k; unfold movedLabel; split <;> simp only [moved, hr, if_false, zero_div]
    simp only [e, add_zero] at h3 h5
    simp only [moved, hr, if_false, add_zero] at h2 h4
    exact ⟨h2, h4, h3, h5⟩
  all_goals
    have hr : Regular D.lam g := by
      by_contra hc
      rcases regular_iff.1 hc with h0 | ⟨i, hi⟩
      · exact hl.ne' h0
      · obtain ⟨k, hk⟩ := hg i; exact hk (hi k)
    have hrl : Regular D.lam gl := by
      by_contra hc
      rcases regular_iff.1 hc with h0 | ⟨i, hi⟩
      · exact hl.ne' h0
      · obtain ⟨k, hk⟩ := hgl i; exact hk (hi k)
  · simpa only [moved, hr, hrl, and_self, if_true, Function.comp] using h2
  · simpa only [moved, hr, hrl, and_self, if_true, Function.comp] using h4
  · refine fun i => ⟨⟨min (10 ^ 10) (norm2 (g i)) / (2 * D.lam) / norm2 (g i), ?_, fun k => ?_⟩,
      norm2_shift hl (hr.2 i)⟩
    · have hp : 0 < norm2 (g i) := lt_of_le_of_ne (norm2_nonneg _) (Ne.symm (hr.2 i))
      have : 0 < min (10 ^ 10) (norm2 (g i)) := lt_min (by norm_num) hp
      positivity
    · simp only [Function.comp, shift]; ring
  · intro i
    cases hw : labelWeight D.cost with
    | none => simp only; exact (norm2_eq_zero _).2 fun k => by simp only [movedLabel, hw]
    | some q =>
      have hq : 0 ≤ q := by
        unfold labelWeight at hw
        split at hw
        · next hkind hkap =>
          rcases h.cost.weight hkind with ⟨k, hk0, hk1⟩ | hk1
          · rw [hkap] at hk1; simp only [XNum.fin.injEq, Option.some.injEq] at hk1 hw; subst hw; subst hk1; exact hk0
          · rw [hkap] at hk1; simp at hk1
        · simp at hw
      have e : movedLabel D.cost (Regular D.lam g ∧ Regular D.lam gl) D.lam gl i =
          fun k => (1 / q) * shift D.lam (gl i) k := by
        funext k; simp only [movedLabel, hw, moved, if_pos (And.intro hr hrl)]; ring
      simp only [e]
      rw [norm2_mul, norm2_shift hl (hrl.2 i), abs_of_nonneg (by positivity)]; ring

/-- **C17** is false for the label weight 0 (accepted by the cost constructor, e.g. code `t-NLC-2-2-0`): finite non-zero
gradients and a positive multiplier give a label that is not finite, and the robust loss is NaN. -/
theorem C17_zero_weight_false : ∃ (D : DualLoss) (X Y : Fin 1 → Fin 1 → ℝ) (Z W : Fin 1 → Fin 1 → Fin 1 → ℝ)
    (g gl : Fin 1 → Fin 1 → ℝ), WithLabels D (mat X) (mat Y) (ten Z) (ten W) X Y Z W g gl ∧ 0 < D.lam ∧
    (∀ i, norm2 (g i) ≠ 0) ∧ (∀ i, norm2 (gl i) ≠ 0) ∧
    (∃ x' y' z' zl', displaceSamples D (mat X) (some (mat Y)) (ten Z) (some (ten W)) = .ok (x', some y', z', some zl') ∧
      ∀ r, y'.get [0, 0, 0] ≠ .fin r) ∧
    computeDual ext D (mat X) (some (mat Y)) (ten Z) (some (ten W)) = .ok .nan := by
  have h := exImp_labelled (m := 1) (d := 1) (e := 1) (n := 1) (by norm_num) (by norm_num) (by norm_num) .normLabelCost
    (le_refl (0 : ℝ)) 1 none (fun _ _ => 1) (fun _ _ => 1) (fun _ _ _ => 1) (fun _ _ _ => 1)
  have hn : norm2 (fun _ : Fin 1 => (1 : ℝ)) ≠ 0 := by
    rw [Ne, norm2_eq_zero]; simp
  have hr : Regular (1 : ℝ) (fun (_ _ : Fin 1) => (1 : ℝ)) := ⟨one_ne_zero, fun _ => hn⟩
  obtain ⟨x', y', z', zl', h1, _, h3, _, _⟩ := lab h
  have hy : ∀ r, y'.get [0, 0, 0] ≠ .fin r := by
    intro r
    have := h3.2 0 0 0
    simp only [Fin.val_zero] at this
    rw [this]
    simp only [labelTo, hr, and_self, exImp, if_true, labelStep]
    have hx := xdiv_zero_not_fin (2 * shift 1 (fun _ : Fin 1 => (1 : ℝ)) 0 / 2)
    generalize xdiv (2 * shift 1 (fun _ : Fin 1 => (1 : ℝ)) 0 / 2) 0 = q at hx
    cases q with
    | fin x => exact absurd rfl (hx x)
    | _ => simp
  refine ⟨_, _, _, _, _, _, _, h, by simp [exImp], fun _ => hn, fun _ => hn, ⟨x', y', z', zl', h1, hy⟩, ?_⟩
  have hbad : labelsInvalid (some y') = true := by
    simp only [labelsInvalid, checkTensorInvalid, List.any_eq_true, toList, List.mem_map, mem_indices]
    refine ⟨_, ⟨[0, 0, 0], ?_, rfl⟩, ?_⟩
    · rw [h3.1]; exact List.Forall₂.cons (by norm_num) (List.Forall₂.cons (by norm_num) (List.Forall₂.cons (by norm_num) .nil))
    · cases hq : y'.get [0, 0, 0] with
      | fin x => exact absurd hq (hy x)
      | _ => rfl
  have e1 : (exImp .normLabelCost (.fin 0) 1 none).rho = .num 1 := rfl
  have e2 : (exImp .normLabelCost (.fin 0) 1 none).ermMode = false := rfl
  have e3 : (exImp .normLabelCost (.fin 0) 1 none).impSamp = true := rfl
  simp [computeDual, e1, e2, e3, impSampBranch, h1, hbad]

include ext in
/-- **C16** is false for the label weight 0: finite non-zero gradients and a positive multiplier displace the labels to infinity, where
no difference is left to keep. -/
theorem C16_zero_weight_false : ∃ (D : DualLoss) (X Y : Fin 1 → Fin 1 → ℝ) (Z W : Fin 1 → Fin 1 → Fin 1 → ℝ)
    (g gl : Fin 1 → Fin 1 → ℝ), WithLabels D (mat X) (mat Y) (ten Z) (ten W) X Y Z W g gl ∧ 0 < D.lam ∧
    ¬ ∃ x' y' z' zl', displaceSamples D (mat X) (some (mat Y)) (ten Z) (some (ten W)) = .ok (x', some y', z', some zl') ∧
      ∃ (Y' : Fin 1 → Fin 1 → ℝ) (W' : Fin 1 → Fin 1 → Fin 1 → ℝ), IsTen y' (fun (_ : Fin 1) i k => .fin (Y' i k)) ∧
        IsTen zl' (fun j i k => .fin (W' j i k)) ∧ ∀ j i k, W' j i k - Y' i k = W j i k - Y i k := by
  obtain ⟨D, X, Y, Z, W, g, gl, h, hl, -, -, ⟨x', y', z', zl', h1, h2⟩, -⟩ := C17_zero_weight_false ext
  refine ⟨D, X, Y, Z, W, g, gl, h, hl, ?_⟩
  rintro ⟨a, b, c, e, k1, Y', W', k2, -⟩
  rw [h1] at k1
  cases k1
  exact h2 _ (k2.2 0 0 0)

/-! ## C18 -/

/-- first-order gain of moving a point from `x` to `z`, minus the transport price -/
noncomputable def firstOrderAttack (lam : ℝ) (g x z : Fin d → ℝ) : ℝ :=
  ∑ k, g k * (z k - x k) - lam * norm2 (fun k => z k - x k) ^ 2

theorem attack_gap {lam : ℝ} (hl : lam ≠ 0) (g x z : Fin d → ℝ) :
    firstOrderAttack lam g x (fun k => x k + g k / (2 * lam)) - firstOrderAttack lam g x z =
      lam * norm2 (fun k => z k - (x k + g k / (2 * lam))) ^ 2 := by
  simp only [firstOrderAttack, norm2_sq, Finset.mul_sum]
  rw [← Finset.sum_sub_distrib, ← Finset.sum_sub_distrib, ← Finset.sum_sub_distrib]
  refine Finset.sum_congr rfl fun k _ => ?_
  field_simp
  ring

/-- **C18** The displaced centre of every point is the unique best first-order attack.  Partial: either all the gradients
of the batch are non-zero or they all vanish, and none is longer than the threshold `10^10` (see the two theorems below). -/
theorem C18_best_first_order_attack_partial (h : Unlabelled D xi zeta X Z g) (hl : 0 < D.lam)
    (hg : (∀ i, ∃ k, g i k ≠ 0) ∨ ∀ i k, g i k = 0) (hb : ∀ i, norm2 (g i) ≤ 10 ^ 10) :
    ∃ x' z', displaceSamples D xi none zeta none = .ok (x', none, z', none) ∧ ∃ X' : Fin m → Fin d → ℝ,
      IsTen x' (fun (_ : Fin 1) => X') ∧
      ∀ i c, c ≠ X' i → firstOrderAttack D.lam (g i) (X i) c < firstOrderAttack D.lam (g i) (X i) (X' i) := by
  obtain ⟨x', z', h1, h2, _⟩ := unlab h
  refine ⟨x', z', h1, fun i k => X i k + g i k / (2 * D.lam), ?_, fun i c hc => ?_⟩
  · have e : ∀ i k, moved (Regular D.lam g) D.lam g i k = g i k / (2 * D.lam) := by
      intro i k
      rcases hg with hg | hg
      · have hr : Regular D.lam g := by
          by_contra hc
          rcases regular_iff.1 hc with h0 | ⟨i, hi⟩
          · exact hl.ne' h0
          · obtain ⟨k, hk⟩ := hg i; exact hk (hi k)
        simp only [moved, if_pos hr, shift, min_eq_right (hb i)]
        have := hr.2 i
        field_simp
      · have hr : ¬ Regular D.lam g := regular_iff.2 (Or.inr ⟨⟨0, h.m_pos⟩, hg _⟩)
        simp only [moved, if_neg hr, hg, zero_div]
    simpa only [e] using h2
  · have hgap := attack_gap hl.ne' (g i) (X i) c
    have hne : norm2 (fun k => c k - (X i k + g i k / (2 * D.lam))) ≠ 0 := by
      rw [Ne, norm2_eq_zero]
      intro h0
      exact hc (funext fun k => by have := h0 k; linarith)
    have : 0 < D.lam * norm2 (fun k => c k - (X i k + g i k / (2 * D.lam))) ^ 2 := by positivity
    linarith

example : Unlabelled (exImp .normCost (.fin 0) 2 none) (mat ![![1, 2], ![0, 5]]) (ten ![![![3, 4], ![0, 0]]])
      ![![1, 2], ![0, 5]] ![![![3, 4], ![0, 0]]] ![![1, 2], ![0, 5]] ∧
    (∀ i, ∃ k, (![![1, 2], ![0, 5]] : Fin 2 → Fin 2 → ℝ) i k ≠ 0) ∧
    ∀ i, norm2 ((![![1, 2], ![0, 5]] : Fin 2 → Fin 2 → ℝ) i) ≤ 10 ^ 10 := by
  refine ⟨exImp_unlabelled (by norm_num) (by norm_num) _ _ _ _ _, fun i => ⟨1, by fin_cases i <;> simp⟩, fun i => ?_⟩
  refine abs_le_of_sq_le_sq' ?_ (by norm_num) |>.2
  rw [norm2_sq, Fin.sum_univ_two]
  fin_cases i <;> simp <;> norm_num

/-- **C18** fails when a single point of the batch has a vanishing gradient: the other points are not displaced, although
moving them would be a better attack. -/
theorem C18_zero_gradient_false : ∃ (D : DualLoss) (X : Fin 2 → Fin 1 → ℝ) (Z : Fin 1 → Fin 2 → Fin 1 → ℝ)
    (g : Fin 2 → Fin 1 → ℝ), Unlabelled D (mat X) (ten Z) X Z g ∧ 0 < D.lam ∧
    ∃ x' z', displaceSamples D (mat X) none (ten Z) none = .ok (x', none, z', none) ∧
      ∃ X' : Fin 2 → Fin 1 → ℝ, IsTen x' (fun (_ : Fin 1) => X') ∧
        ∃ i c, firstOrderAttack D.lam (g i) (X i) (X' i) < firstOrderAttack D.lam (g i) (X i) c := by
  have h := exImp_unlabelled (m := 2) (d := 1) (n := 1) (by norm_num) (by norm_num) (.fin 0) 1 none ![![0], ![1]]
    ![![![0], ![1]]]
  refine ⟨_, _, _, _, h, by simp [exImp], ?_⟩
  obtain ⟨x', z', h1, h2, _⟩ := C17_displacement h
  obtain ⟨h3, _⟩ := h2 (Or.inr ⟨0, fun k => by fin_cases k; simp⟩)
  refine ⟨x', z', h1, _, h3, 1, fun _ => 3 / 2, ?_⟩
  simp [firstOrderAttack, norm2_sq, exImp]
  norm_num

/-- **C18** fails for a gradient longer than the threshold `10^10`: the displacement is cut. -/
theorem C18_threshold_false : ∃ (D : DualLoss) (X : Fin 1 → Fin 1 → ℝ) (Z : Fin 1 → Fin 1 → Fin 1 → ℝ)
    (g : Fin 1 → Fin 1 → ℝ), Unlabelled D (mat X) (ten Z) X Z g ∧ 0 < D.lam ∧ (∀ i, ∃ k, g i k ≠ 0) ∧
    ∃ x' z', displaceSamples D (mat X) none (ten Z) none = .ok (x', none, z', none) ∧
      ∃ X' : Fin 1 → Fin 1 → ℝ, IsTen x' (fun (_ : Fin 1) => X') ∧
        ∃ i c, firstOrderAttack D.lam (g i) (X i) (X' i) < firstOrderAttack D.lam (g i) (X i) c := by
  have h := exImp_unlabelled (m := 1) (d := 1) (n := 1) (by norm_num) (by norm_num) (.fin 0) 1 none
    (fun _ _ => 2 * 10 ^ 10) (fun _ _ _ => 0)
  have hg : ∀ i : Fin 1, ∃ k : Fin 1, (fun _ _ => (2 * 10 ^ 10 : ℝ)) i k ≠ 0 := fun i => ⟨0, by norm_num⟩
  refine ⟨_, _, _, _, h, by simp [exImp], hg, ?_⟩
  obtain ⟨x', z', h1, _, h2⟩ := C17_displacement h
  obtain ⟨v, h3, _, h4⟩ := h2 (by simp [exImp]) hg
  refine ⟨x', z', h1, _, h3, 0, fun k => 2 * 10 ^ 10 + 2 * 10 ^ 10 / (2 * 1), ?_⟩
  have hlam : (exImp .normCost (.fin 0) 1 none).lam = 1 := rfl
  rw [hlam]
  have hgap := attack_gap (one_ne_zero : (1 : ℝ) ≠ 0) (fun _ : Fin 1 => (2 * 10 ^ 10 : ℝ)) (fun _ => 2 * 10 ^ 10)
    (fun k => 2 * 10 ^ 10 + v 0 k)
  have hn : norm2 (fun _ : Fin 1 => (2 * 10 ^ 10 : ℝ)) = 2 * 10 ^ 10 := by
    have h5 := norm2_sq (fun _ : Fin 1 => (2 * 10 ^ 10 : ℝ))
    have h6 := norm2_nonneg (fun _ : Fin 1 => (2 * 10 ^ 10 : ℝ))
    simp only [Finset.univ_unique, Finset.sum_const, Finset.card_singleton, one_smul] at h5
    nlinarith
  have hv := (h4 0).2
  rw [hlam, hn] at hv
  have hne : norm2 (fun k : Fin 1 => 2 * 10 ^ 10 + v 0 k - (2 * 10 ^ 10 + 2 * 10 ^ 10 / (2 * 1))) ≠ 0 := by
    rw [Ne, norm2_eq_zero]
    intro h0
    have e : v 0 = fun _ => (10 ^ 10 : ℝ) := funext fun k => by have := h0 k; linarith
    have h5 := norm2_sq (v 0)
    rw [hv, e] at h5
    simp only [Finset.univ_unique, Finset.sum_const, Finset.card_singleton, one_smul] at h5
    norm_num at h5
  have : 0 < 1 * norm2 (fun k : Fin 1 => 2 * 10 ^ 10 + v 0 k - (2 * 10 ^ 10 + 2 * 10 ^ 10 / (2 * 1))) ^ 2 := by positivity
  linarith

/-! ## C19 -/

/-- **C19** The log-correction computed by the importance-sampled loss for an unlabelled sampler centred at `X` and displaced
centres `X'` (`log_prob` minus `log_prob_recentered`) is the exact log density ratio: `exp(correction)` times the density of
the displaced law is the density of the reference law, at every sample. -/
theorem C19_exact_weights {s : Sampler} (hs : s.labels_s = none) (hl : HasDensity s.data_s) {x' z : Tensor ℝ}
    {X' : Fin m → Fin d → ℝ} (hc : IsMat s.data_s.mean X) (hx : IsTen x' (fun (_ : Fin 1) => X')) (hz : IsTen z Z) :
    ∃ a b t, s.logProb ext z none = .ok a ∧ s.logProbRecentered ext x' none z none = .ok b ∧
      Tensor.zipWith XNum.sub a b = .ok t ∧ ∃ w : Fin n → Fin m → ℝ, IsTen t (fun j i (_ : Fin 1) => .fin (w j i)) ∧
        ∀ j i, Real.exp (w j i) * densityAt ext s.data_s (X' i) (Z j i) = densityAt ext s.data_s (X i) (Z j i) := by
  obtain ⟨a, b, t, h1, h2, h3, h4⟩ := correction_is ext hs hl hc hx hz
  refine ⟨a, b, t, h1, h2, h3, _, h4, fun j i => ?_⟩
  rw [← exp_rowLP ext hl, ← exp_rowLP ext hl, ← Real.exp_add]
  congr 1; ring

theorem densityAt_pos {l : Dist} (hl : HasDensity l) (c z : Fin d → ℝ) : 0 < densityAt ext l c z := by
  rw [← exp_rowLP ext hl]; exact Real.exp_pos _

/-- **C19** Re-weighting with these ratios targets the same expectation, for every function of the sample: the integral
against the displaced law of the re-weighted function is the integral against the reference law. -/
theorem C19_same_expectation {l : Dist} (hl : HasDensity l) (c c' : Fin d → ℝ) (f : (Fin d → ℝ) → ℝ) :
    ∫ z, (f z * (densityAt ext l c z / densityAt ext l c' z)) * densityAt ext l c' z = ∫ z, f z * densityAt ext l c z := by
  congr 1
  funext z
  have := (densityAt_pos ext hl c' z).ne'
  field_simp

/-- **C19** End to end: the importance-sampled robust loss (no labels, loss evaluated pointwise as `ell`) is the robust
objective on the displaced samples `Z'`, each exponential being multiplied by the density ratio of the reference law
(centred at the data) to the displaced law. -/
theorem C19_value (h : Unlabelled D xi zeta X Z g) (hk : D.cost.kind = .normCost) {rho : ℝ} (hrho : D.rho = .num rho)
    (hpos : 0 < rho) (herm : D.ermMode = false) (himp : D.impSamp = true)
    (hn : 0 < n) (hr : D.reduction = .mean) {s : Sampler} (hs : D.sampler = some s) (hsl : s.labels_s = none)
    (hl : HasDensity s.data_s) (hc : IsMat s.data_s.mean X) {ell : (Fin d → ℝ) → ℝ}
    (hloss : ∀ (z : Tensor ℝ) (Z : Fin n → Fin m → Fin d → ℝ), IsTen z Z →
      Returns (D.primal z none) (fun t => IsTen t (fun j i (_ : Fin 1) => ell (Z j i)))) :
    ∃ (x' z' : Tensor ℝ) (X' : Fin m → Fin d → ℝ) (Z' : Fin n → Fin m → Fin d → ℝ),
      displaceSamples D xi none zeta none = .ok (x', none, z', none) ∧ IsTen x' (fun (_ : Fin 1) => X') ∧ IsTen z' Z' ∧
      ReturnsVal (computeDual ext D xi none zeta none) (fun v => IsScalar v (D.lam * rho ^ D.cost.power +
        (∑ i, D.epsilon * Real.log ((∑ j,
          densityAt ext s.data_s (X i) (Z' j i) / densityAt ext s.data_s (X' i) (Z' j i) *
          Real.exp ((ell (Z' j i) - D.lam * norm2 (fun k => X i k - Z' j i k) ^ 2) / D.epsilon)) / n)) / m)) := by
  obtain ⟨x', z', X', Z', h1, h2', h3⟩ : ∃ (x' z' : Tensor ℝ) (X' : Fin m → Fin d → ℝ) (Z' : Fin n → Fin m → Fin d → ℝ),
      displaceSamples D xi none zeta none = .ok (x', none, z', none) ∧ IsTen x' (fun (_ : Fin 1) => X') ∧ IsTen z' Z' := by
    obtain ⟨x', z', h1, h2, h3⟩ := unlab h
    exact ⟨x', z', _, _, h1, h2, h3⟩
  refine ⟨x', z', X', Z', h1, h2', h3, ?_⟩
  obtain ⟨lt, hl1, hl2⟩ := hloss z' _ h3
  obtain ⟨ct, hc1, hc2⟩ := C04_formula D.cost hk (by rw [h.order]; exact two_order) (isTen_unsqueeze h.data) h3 none none
  obtain ⟨it, hi1, hi2⟩ := Is.zipWith_same (f := fun l c => (l - D.lam * c) / D.epsilon) hl2.is hc2.is
  obtain ⟨a, b, t, ha, hb, ht, w, hw, hden⟩ := C19_exact_weights ext hsl hl hc h2' h3
  have hwr : IsTen (t.map XNum.toReal) (fun j i (_ : Fin 1) => w j i) :=
    ⟨hw.1, fun j i k => by simp only [Tensor.map]; rw [hw.2 j i k]; rfl⟩
  obtain ⟨ft, hf1, hf2⟩ := Is.zipWith_same (f := fun p q : ℝ => p + q) hi2 hwr.is
  have hvalid : checkTensorInvalid t = false := by
    rw [Bool.eq_false_iff]
    simp only [checkTensorInvalid, ne_eq, List.any_eq_true, toList, List.mem_map, mem_indices, not_exists, not_and]
    rintro v ⟨idx, hidx, rfl⟩
    rw [hw.1] at hidx
    rcases hidx with _ | ⟨i0, hidx⟩
    rcases hidx with _ | ⟨i1, hidx⟩
    rcases hidx with _ | ⟨i2, hidx⟩
    cases hidx
    have := hw.2 ⟨_, i0⟩ ⟨_, i1⟩ ⟨_, i2⟩
    simp only at this
    rw [this]; simp [XNum.notFin]
  have hsz : z'.size0 = n := by simp [size0, h3.1]
  have hcomp : computeDual ext D xi none zeta none = finishDual D rho n ft := by
    simp only [computeDual, hrho, hpos.ne', herm, Bool.false_eq_true, or_self, Bool.or_self, if_false, hpos, if_true, himp,
      impSampBranch, h1, ok_bind, labelsInvalid, realLabels, Option.map_none, hs, ha, hb, ht, hvalid, integrand, hl1,
      maybeUnsqueeze, hc1, hi1, hf1, hsz]
  rw [hcomp]
  have hten : IsTen ft (fun j i (_ : Fin 1) =>
      (ell (Z' j i) - D.lam * norm2 (fun k => X i k - Z' j i k) ^ 2) / D.epsilon + w j i) := by
    have := isTen_iff.1 hf2
    simp only [ix3_apply, h.order, h.power] at this
    convert this using 6
    · norm_num [norm2]
  have hfin := finishDual_mean hn h.m_pos (rho := rho) hr hten
  simp only [avg] at hfin
  have e : ∀ i j, Real.exp ((ell (Z' j i) - D.lam * norm2 (fun k => X i k - Z' j i k) ^ 2) / D.epsilon + w j i) =
      densityAt ext s.data_s (X i) (Z' j i) / densityAt ext s.data_s (X' i) (Z' j i) *
      Real.exp ((ell (Z' j i) - D.lam * norm2 (fun k => X i k - Z' j i k) ^ 2) / D.epsilon) := by
    intro i j
    have hp := (densityAt_pos ext hl (X' i) (Z' j i)).ne'
    rw [Real.exp_add, mul_comm, ← hden j i]
    field_simp
  simpa only [e] using hfin

/-- a robust loss and a sampler meeting the hypotheses of `C19_value` -/
example (X : Fin 2 → Fin 1 → ℝ) (Z : Fin 3 → Fin 2 → Fin 1 → ℝ) : ∃ (D : DualLoss) (s : Sampler)
    (ell : (Fin 1 → ℝ) → ℝ), Unlabelled D (mat X) (ten Z) X Z X ∧ D.cost.kind = .normCost ∧ D.rho = .num 1 ∧
    D.ermMode = false ∧ D.impSamp = true ∧ D.reduction = .mean ∧ D.sampler = some s ∧ s.labels_s = none ∧
    HasDensity s.data_s ∧ IsMat s.data_s.mean X ∧
    (∀ (z : Tensor ℝ) (Z : Fin 3 → Fin 2 → Fin 1 → ℝ), IsTen z Z →
      Returns (D.primal z none) (fun t => IsTen t (fun j i (_ : Fin 1) => ell (Z j i)))) :=
  ⟨exImp .normCost (.fin 0) 1 (some ⟨.noLabelsCost, none, .normal (mat X) (.fin 2), none, none, none, none⟩), _,
    fun x => x 0 ^ 2 / 2, exImp_unlabelled (by norm_num) (by norm_num) _ _ _ _ _, rfl, rfl, rfl, rfl, rfl, rfl, rfl,
    ⟨2, by norm_num, rfl⟩, isMat_mat X, fun z Z hz => ⟨_, rfl, hz.1, fun j i k => by
      have hk : k = 0 := Subsingleton.elim _ _
      subst hk
      simp only [Tensor.map, hz.2 j i 0]⟩⟩

/-! ## C20 -/

/-- **C20** What the labelled correction is: zero, for every labelled sampler with densities, every displaced centre, every
sample.  Hence the density-ratio identity holds at a sample if and only if the displaced law and the reference law have the
same density there; in particular it holds when nothing was displaced.  Partial: the identity is false in general (next
theorem). -/
theorem C20_labelled_correction_partial {s : Sampler} {ls : Dist} (hs : s.labels_s = some ls) (hl : HasDensity s.data_s)
    (hll : HasDensity ls) {z w : Tensor ℝ} (hc : IsMat s.data_s.mean X) (hcl : IsMat ls.mean Y) (hz : IsTen z Z)
    (hw : IsTen w W) (x' y' : Tensor ℝ) :
    ∃ a b t, s.logProb ext z (some w) = .ok a ∧ s.logProbRecentered ext x' (some y') z (some w) = .ok b ∧
      Tensor.zipWith XNum.sub a b = .ok t ∧ IsTen t (fun (_ : Fin n) (_ : Fin m) (_ : Fin 1) => .fin 0) ∧
      ∀ (X' : Fin m → Fin d → ℝ) (Y' : Fin m → Fin e → ℝ) (j : Fin n) (i : Fin m),
        (∃ v, t.get [j, i, 0] = .fin v ∧
          Real.exp v * (densityAt ext s.data_s (X' i) (Z j i) * densityAt ext ls (Y' i) (W j i)) =
            densityAt ext s.data_s (X i) (Z j i) * densityAt ext ls (Y i) (W j i)) ↔
        densityAt ext s.data_s (X' i) (Z j i) * densityAt ext ls (Y' i) (W j i) =
            densityAt ext s.data_s (X i) (Z j i) * densityAt ext ls (Y i) (W j i) := by
  obtain ⟨a, ha, hA⟩ := format_is ext hl hc hz
  obtain ⟨b, hb, hB⟩ := format_is ext hll hcl hw
  obtain ⟨u, hu, hU⟩ := Is.zipWith_same (f := XNum.add) hA.is hB.is
  obtain ⟨t, ht, hT⟩ := Is.zipWith_same (f := XNum.sub) hU hU
  have hT' : IsTen t (fun (_ : Fin n) (_ : Fin m) (_ : Fin 1) => .fin 0) := by
    have := isTen_iff.1 hT
    simpa only [ix3_apply, XNum.sub, XNum.add, XNum.neg, add_neg_cancel] using this
  refine ⟨u, u, t, by simp [Sampler.logProb, hs, ha, hb, hu], by simp [Sampler.logProbRecentered, hs, ha, hb, hu], ht, hT',
    fun X' Y' j i => ?_⟩
  have h0 := hT'.2 j i 0
  simp only [Fin.val_zero] at h0
  rw [h0]
  constructor
  · rintro ⟨v, hv, h⟩
    simp only [XNum.fin.injEq] at hv
    subst hv
    simpa using h
  · intro h; exact ⟨0, rfl, by simpa using h⟩

/-- **C20** is false: for the default labelled setting (squared costs, normal samplers for inputs and labels, label weight 1)
a displacement does take place, the correction is nevertheless 0, and the density-ratio identity fails. -/
theorem C20_labelled_weights_false : ∃ (D : DualLoss) (s : Sampler) (ls : Dist) (X Y X' Y' : Fin 1 → Fin 1 → ℝ)
    (Z W Z' W' : Fin 1 → Fin 1 → Fin 1 → ℝ) (x' z' : Tensor ℝ) (y' w' : Tensor (XNum ℝ)) (a b t : Tensor (XNum ℝ)),
    WithLabels D (mat X) (mat Y) (ten Z) (ten W) X Y Z W X Y ∧ D.sampler = some s ∧ s.labels_s = some ls ∧
    HasDensity s.data_s ∧ HasDensity ls ∧ IsMat s.data_s.mean X ∧ IsMat ls.mean Y ∧
    displaceSamples D (mat X) (some (mat Y)) (ten Z) (some (ten W)) = .ok (x', some y', z', some w') ∧
    IsTen x' (fun (_ : Fin 1) => X') ∧ IsTen y' (fun (_ : Fin 1) i k => .fin (Y' i k)) ∧ IsTen z' Z' ∧
    IsTen w' (fun j i k => .fin (W' j i k)) ∧
    s.logProb ext z' (some (w'.map XNum.toReal)) = .ok a ∧
    s.logProbRecentered ext x' (some (y'.map XNum.toReal)) z' (some (w'.map XNum.toReal)) = .ok b ∧
    Tensor.zipWith XNum.sub a b = .ok t ∧ t.get [0, 0, 0] = .fin 0 ∧
    Real.exp 0 * (densityAt ext s.data_s (X' 0) (Z' 0 0) * densityAt ext ls (Y' 0) (W' 0 0)) ≠
      densityAt ext s.data_s (X 0) (Z' 0 0) * densityAt ext ls (Y 0) (W' 0 0) := by
  have h := exImp_labelled (m := 1) (d := 1) (e := 1) (n := 1) (by norm_num) (by norm_num) (by norm_num) .normLabelCost
    (zero_le_one : (0 : ℝ) ≤ 1) 1 (some ⟨.labeledCost, none, .normal (mat (fun (_ _ : Fin 1) => 1)) (.fin 1),
      some (.normal (mat (fun (_ _ : Fin 1) => 1)) (.fin 1)), none, none, none⟩) (fun _ _ => 1) (fun _ _ => 1)
      (fun _ _ _ => 1) (fun _ _ _ => 1)
  have hk : labelWeight (exImp .normLabelCost (.fin 1) 1 (some ⟨.labeledCost, none,
      .normal (mat (fun (_ _ : Fin 1) => 1)) (.fin 1), some (.normal (mat (fun (_ _ : Fin 1) => 1)) (.fin 1)), none, none,
      none⟩)).cost ≠ some 0 := by simp [labelWeight, exImp]
  have hn : norm2 (fun _ : Fin 1 => (1 : ℝ)) = 1 := by
    have h5 := norm2_sq (fun _ : Fin 1 => (1 : ℝ))
    have h6 := norm2_nonneg (fun _ : Fin 1 => (1 : ℝ))
    simp only [Finset.univ_unique, Finset.sum_const, Finset.card_singleton, one_smul] at h5
    nlinarith
  have hr : Regular (1 : ℝ) (fun (_ _ : Fin 1) => (1 : ℝ)) := ⟨one_ne_zero, fun _ => by rw [hn]; norm_num⟩
  obtain ⟨x', y', z', w', h1, h2, h3, h4, h5⟩ := lab h
  simp only [labelTo_weight h.cost hk] at h3 h5
  have hshift : ∀ k, shift 1 (fun _ : Fin 1 => (1 : ℝ)) k = 1 / 2 := by
    intro k; simp only [shift, hn]; rw [min_eq_right (by norm_num)]; norm_num
  have hlam : (exImp .normLabelCost (.fin 1) 1 (some ⟨.labeledCost, none,
      .normal (mat (fun (_ _ : Fin 1) => 1)) (.fin 1), some (.normal (mat (fun (_ _ : Fin 1) => 1)) (.fin 1)), none, none,
      none⟩)).lam = 1 := rfl
  rw [hlam] at h2 h3 h4 h5
  simp only [moved, if_pos (And.intro hr hr), hshift] at h2 h4
  have hml : ∀ i k, movedLabel (exImp .normLabelCost (.fin 1) 1 (some ⟨.labeledCost, none,
      .normal (mat (fun (_ _ : Fin 1) => 1)) (.fin 1), some (.normal (mat (fun (_ _ : Fin 1) => 1)) (.fin 1)), none, none,
      none⟩)).cost (Regular (1 : ℝ) (fun (_ _ : Fin 1) => (1 : ℝ)) ∧ Regular (1 : ℝ) (fun (_ _ : Fin 1) => (1 : ℝ))) 1
      (fun (_ _ : Fin 1) => (1 : ℝ)) i k = 1 / 2 := by
    intro i k
    simp only [movedLabel, exImp, labelWeight, moved, if_pos (And.intro hr hr), hshift]; norm_num
  simp only [hml] at h3 h5
  have hd : HasDensity (.normal (mat (fun (_ _ : Fin 1) => 1)) (.fin 1)) := ⟨1, by norm_num, rfl⟩
  have hwr : IsTen (w'.map XNum.toReal) (fun (_ _ _ : Fin 1) => (1 + 1 / 2 : ℝ)) :=
    ⟨h5.1, fun j i k => by simp only [Tensor.map]; rw [h5.2 j i k]; rfl⟩
  obtain ⟨a, b, t, k1, k2, k3, k4, _⟩ := C20_labelled_correction_partial ext (s := ⟨.labeledCost, none,
      .normal (mat (fun (_ _ : Fin 1) => 1)) (.fin 1), some (.normal (mat (fun (_ _ : Fin 1) => 1)) (.fin 1)), none, none,
      none⟩) rfl hd hd (isMat_mat (fun (_ _ : Fin 1) => 1)) (isMat_mat (fun (_ _ : Fin 1) => 1)) h4 hwr x'
      (y'.map XNum.toReal)
  have k5 := k4.2 0 0 0
  refine ⟨_, _, _, _, _, _, _, _, _, _, _, x', z', y', w', a, b, t, h, rfl, rfl, hd, hd, isMat_mat _, isMat_mat _, h1, h2,
    h3, h4, h5, k1, k2, k3, k5, ?_⟩
  rw [← exp_rowLP ext hd, ← exp_rowLP ext hd, ← Real.exp_add, ← Real.exp_add,
    ← Real.exp_add, Ne, Real.exp_eq_exp]
  simp only [rowLP, normalLP, scaleVal, Finset.univ_unique, Finset.sum_const, Finset.card_singleton, one_smul]
  intro hh
  linarith

/-! ## C21 -/

theorem zipWith_error {α β γ : Type} {f : α → β → γ} {a : Tensor α} {b : Tensor β} {err : PyErr}
    (h : Tensor.zipWith f a b = .error err) : err = .runtimeError := by
  unfold Tensor.zipWith at h
  split at h
  · simp at h
  · simpa using h.symm

theorem solve_error {c : CostR} (hc : isSquaredEuclid c = true) {xi rhs : Tensor ℝ} {xl rl : Option (Tensor ℝ)} {err : PyErr}
    (h : solveMaxSeriesExp c xi xl rhs rl = .error err) : err = .runtimeError := by
  unfold solveMaxSeriesExp at h
  rw [if_pos hc] at h
  unfold halfStep at h
  split at h
  · cases h1 : Tensor.zipWith (fun a b : ℝ => a + b / 2) xi rhs with
    | error e1 => rw [h1] at h; simp only [error_bind, Except.error.injEq] at h; subst h; exact zipWith_error h1
    | ok v =>
      rw [h1, ok_bind] at h
      rename_i yy rr _
      cases h2 : Tensor.zipWith (labelStep c.kappa) yy rr with
      | error e1 => rw [h2] at h; simp only [error_bind, Except.error.injEq] at h; subst h; exact zipWith_error h2
      | ok v => rw [h2] at h; simp at h
  · cases h1 : Tensor.zipWith (fun a b : ℝ => a + b / 2) xi rhs with
    | error e1 => rw [h1] at h; simp only [error_bind, Except.error.injEq] at h; subst h; exact zipWith_error h1
    | ok v => rw [h1] at h; simp at h

theorem cost_of_parse {parsed : ParsedCost} {obj : CostObj} {c : CostR} (ho : cost_from_parse_torch parsed = .ok obj)
    (hc : obj.toReal = some c) : c.p = parsed.type.map (fun q : ℚ => (q : ℝ)) ∧ parsed.power.map (fun q : ℚ => (q : ℝ)) =
      .fin c.power := by
  have h : obj.p = parsed.type ∧ obj.power = parsed.power := by
    unfold cost_from_parse_torch at ho
    split at ho
    · simp only [Except.ok.injEq] at ho; subst ho; exact ⟨rfl, rfl⟩
    · split at ho
      · unfold mkNormLabelCost at ho
        split at ho
        · simp only [Except.ok.injEq] at ho; subst ho; exact ⟨rfl, rfl⟩
        · simp at ho
      · simp at ho
  unfold CostObj.toReal at hc
  split at hc
  · next w hw =>
    simp only [Option.some.injEq] at hc
    subst hc
    rw [h.2] at hw
    simp only [h.1, hw, XNum.map, and_self]
  · simp at hc

/-- **C21** Importance sampling is enabled exactly when it was asked for and the cost is the squared Euclidean one (norm
order 2 and power 2), for every accepted cost code. -/
theorem C21_enabled_iff {a : DualizeArgs} {g g' : G} {D : DualLoss} (h : dualize ext a g = .ok (D, g')) :
    D.impSamp = true ↔ a.imp_samp = true ∧ D.cost.p = .fin 2 ∧ D.cost.power = 2 := by
  obtain ⟨parsed, obj, c, s, _, ho, hr, _, rfl⟩ := dualize_ok h
  obtain ⟨h1, h2⟩ := cost_of_parse ho hr
  simp only [dualOf, decideOnImpsamp, ParsedCost.can_imp_samp, Bool.and_eq_true]
  rw [h1]
  refine and_congr_right fun _ => ?_
  rw [and_comm]
  refine and_congr ?_ ?_
  · cases parsed.type with
    | fin q => simp only [XNum.eqLit, decide_eq_true_eq, XNum.map, XNum.fin.injEq]; norm_cast
    | _ => simp [XNum.eqLit, XNum.map]
  · cases hp : parsed.power with
    | fin q =>
      rw [hp] at h2
      simp only [XNum.map, XNum.fin.injEq] at h2
      rw [← h2]
      simp only [XNum.eqLit, decide_eq_true_eq]; norm_cast
    | _ => rw [hp] at h2; simp [XNum.map] at h2

/-- **C21** A robust loss built by `robustify` with importance sampling enabled never meets the not-implemented error of the
displacement step: whatever the data, samples, labels, multiplier, gradients or sampler it has at that time (only its cost is
the one it was built with). -/
theorem C21_never_unsupported {a : DualizeArgs} {g g' : G} {D : DualLoss} (h : dualize ext a g = .ok (D, g'))
    (himp : D.impSamp = true) (D' : DualLoss) (hc : D'.cost = D.cost) (xi zeta : Tensor ℝ) (xl zl : Option (Tensor ℝ)) :
    displaceSamples D' xi xl zeta zl ≠ .error .notImplemented := by
  obtain ⟨_, h1, h2⟩ := (C21_enabled_iff ext h).1 himp
  have hsq : isSquaredEuclid D'.cost = true := by rw [hc]; exact squared_of h1 h2
  intro herr
  unfold displaceSamples at herr
  generalize optimalDisplacement D' xi xl = od at herr
  obtain ⟨d, dl⟩ := od
  simp only at herr
  split at herr
  · simp at herr
  · cases e1 : solveMaxSeriesExp D'.cost xi.unsqueeze0 (maybeUnsqueeze xl) (d.map XNum.toReal)
      (dl.map (fun d => d.map XNum.toReal)) with
    | error er =>
      rw [e1] at herr
      simp only [error_bind, Except.error.injEq] at herr
      subst herr
      exact absurd (solve_error hsq e1) (by simp)
    | ok v =>
      rw [e1] at herr
      simp only [ok_bind] at herr
      cases e2 : solveMaxSeriesExp D'.cost zeta zl (d.map XNum.toReal) (dl.map (fun d => d.map XNum.toReal)) with
      | error er =>
        rw [e2] at herr
        simp only [error_bind, Except.error.injEq] at herr
        subst herr
        exact absurd (solve_error hsq e2) (by simp)
      | ok v => rw [e2] at herr; simp at herr

/-- the default configuration (no cost code, no labels) has importance sampling enabled -/
example (a : DualizeArgs) (ha : a.cost_spec = none) (hl : a.xi_labels = none) (hi : a.imp_samp = true) (hs : a.sigma = none)
    (g : G) : ∃ D g', dualize ext a g = .ok (D, g') ∧ D.impSamp = true := by
  have hp : parse_code_torch a.cost_spec a.xi_labels.isSome = .ok ⟨"t".toList, "NC".toList, .fin 2, .fin 2, DEFAULT_KAPPA⟩ := by
    rw [ha, hl]; rfl
  have ho : cost_from_parse_torch ⟨"t".toList, "NC".toList, .fin 2, .fin 2, DEFAULT_KAPPA⟩ =
      .ok (mkNormCost (.fin 2) (.fin 2) none) := rfl
  obtain ⟨D, g', s, h, _⟩ := (C08_supported_costs ext a g hp ho (by simp [hs])).1 (Or.inr ⟨rfl, rfl⟩)
  refine ⟨D, g', h, ?_⟩
  obtain ⟨parsed, obj, c, s, hp', _, _, _, rfl⟩ := dualize_ok h
  rw [hp] at hp'
  simp only [Except.ok.injEq] at hp'
  subst hp'
  simp [dualOf, decideOnImpsamp, hi, ParsedCost.can_imp_samp, XNum.eqLit]

end Skwdro
