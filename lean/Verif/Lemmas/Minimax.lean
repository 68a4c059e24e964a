import Verif.Lemmas.Portfolio
import Mathlib.Topology.Sion
import Mathlib.Topology.Instances.EReal.Lemmas

/-! Minimax for functions affine in both arguments; norms. -/

namespace Skwdro
open Spec

section
variable {E F : Type} [TopologicalSpace E] [AddCommGroup E] [_root_.Module ℝ E] [IsTopologicalAddGroup E] [ContinuousSMul ℝ E]
  [TopologicalSpace F] [AddCommGroup F] [_root_.Module ℝ F] [IsTopologicalAddGroup F] [ContinuousSMul ℝ F]

/-- if every `y` has an `x` with `f x y` at least `V`, one `x` serves all `y` -/
theorem exists_minimax {X : Set E} {Y : Set F} {f : E → F → ℝ} (hne : X.Nonempty) (hX : Convex ℝ X) (hk : IsCompact X) (hY : Convex ℝ Y)
    (hfx : ∀ y, Continuous fun x => f x y) (hfy : ∀ x, Continuous fun y => f x y)
    (hx : ∀ y ∈ Y, ConcaveOn ℝ X fun x => f x y) (hy : ∀ x ∈ X, ConvexOn ℝ Y fun y => f x y) {V : ℝ}
    (h : ∀ y ∈ Y, ∃ x ∈ X, V ≤ f x y) : ∃ x ∈ X, ∀ y ∈ Y, V ≤ f x y := by
  set φ : E → F → EReal := fun x y => ((-f x y : ℝ) : EReal) with hφ
  have hc : Continuous fun t : ℝ => (t : EReal) := continuous_coe_real_ereal
  have h1 : ∀ y ∈ Y, LowerSemicontinuousOn (fun x => φ x y) X := fun y _ =>
    (hc.comp (hfx y).neg).lowerSemicontinuous.lowerSemicontinuousOn X
  have h2 : ∀ x ∈ X, UpperSemicontinuousOn (fun y => φ x y) Y := fun x _ =>
    (hc.comp (hfy x).neg).upperSemicontinuous.upperSemicontinuousOn Y
  have hm : Monotone fun t : ℝ => (t : EReal) := fun a b hab => EReal.coe_le_coe_iff.2 hab
  have h3 : ∀ y ∈ Y, QuasiconvexOn ℝ X fun x => φ x y := fun y hy' => by
    have := (hx y hy').neg.quasiconvexOn.monotone_comp (g := fun t : ℝ => (t : EReal)) hm
    exact this
  have h4 : ∀ x ∈ X, QuasiconcaveOn ℝ Y fun y => φ x y := fun x hx' => by
    have := (hy x hx').neg.quasiconcaveOn.monotone_comp (g := fun t : ℝ => (t : EReal)) hm
    exact this
  have key := Sion.minimax' hne hX hk h1 h3 hY h2 h4
  have hlsc : LowerSemicontinuousOn (fun x => ⨆ y ∈ Y, φ x y) X := fun x hx => by
    apply lowerSemicontinuousWithinAt_iSup
    intro i
    exact lowerSemicontinuousWithinAt_iSup fun hi => h1 i hi x hx
  obtain ⟨a, ha, hmin⟩ := LowerSemicontinuousOn.exists_isMinOn hne hk hlsc
  have h5 : (⨆ y ∈ Y, ⨅ x ∈ X, φ x y) ≤ ((-V : ℝ) : EReal) := by
    refine iSup₂_le fun y hy => ?_
    obtain ⟨x, hx, hV⟩ := h y hy
    exact (iInf₂_le x hx).trans (EReal.coe_le_coe_iff.2 (by linarith))
  refine ⟨a, ha, fun y hy => ?_⟩
  have h6 : φ a y ≤ ((-V : ℝ) : EReal) :=
    (le_iSup₂ (f := fun y (_ : y ∈ Y) => φ a y) y hy).trans (((le_iInf₂ fun x hx => hmin hx).trans (le_of_eq key)).trans h5)
  have := EReal.coe_le_coe_iff.1 h6
  linarith

end

variable {m : ℕ}

theorem pnorm_abs {p : XNum ℝ} {u v : Fin m → ℝ} (h : ∀ j, |u j| = |v j|) : pnorm p u = pnorm p v := by
  cases p <;> simp only [pnorm, h]

/-- equality case of the Hölder inequality -/
theorem holder_attained' {p q : XNum ℝ} (h : Conj p q) (hm : 0 < m) (u : Fin m → ℝ) :
    ∃ v : Fin m → ℝ, pnorm p v ≤ 1 ∧ ∑ j, u j * v j = pnorm q u := by
  obtain ⟨v, h1, h2⟩ := holder_attained h hm (fun j => |u j|) fun j => abs_nonneg _
  refine ⟨fun j => if u j < 0 then -v j else v j, ?_, ?_⟩
  · rwa [pnorm_abs (v := v)]
    intro j
    split_ifs <;> simp
  · rw [pnorm_abs (u := u) (v := fun j => |u j|) (fun j => (abs_abs _).symm), ← h2]
    refine Finset.sum_congr rfl fun j _ => ?_
    dsimp only
    split_ifs with hj
    · rw [abs_of_neg hj]; ring
    · rw [abs_of_nonneg (not_lt.1 hj)]

/-- coordinates are bounded by the norm -/
theorem coord_le {p q : XNum ℝ} (h : Conj p q) : ∃ B : ℝ, 0 ≤ B ∧ ∀ (u : Fin m → ℝ) j, |u j| ≤ B * pnorm p u := by
  classical
  refine ⟨∑ j, pnorm q (Pi.single (M := fun _ : Fin m => ℝ) j 1), Finset.sum_nonneg fun j _ => pnorm_nonneg _ _, fun u j => ?_⟩
  have h1 := holder_abs h (Pi.single (M := fun _ : Fin m => ℝ) j 1) u
  simp only [Pi.single_apply, ite_mul, one_mul, zero_mul, Finset.sum_ite_eq', Finset.mem_univ, if_true] at h1
  refine h1.trans (mul_le_mul_of_nonneg_right ?_ (pnorm_nonneg _ _))
  have := Finset.single_le_sum (f := fun j => pnorm q (Pi.single (M := fun _ : Fin m => ℝ) j 1)) (fun j _ => pnorm_nonneg _ _) (Finset.mem_univ j)
  refine le_trans (le_of_eq ?_) this
  rfl

end Skwdro
