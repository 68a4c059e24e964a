import Verif.Lemmas.Logistic
import Verif.Lemmas.Costs

/-! Hölder inequality between conjugate orders and its equality case. -/

namespace Skwdro
open Spec MeasureTheory

/-- conjugate orders -/
def Conj (p q : XNum ℝ) : Prop :=
  (p = .fin 1 ∧ q = .pinf) ∨ (p = .pinf ∧ q = .fin 1) ∨ ∃ a b : ℝ, p = .fin a ∧ q = .fin b ∧ a.HolderConjugate b

theorem pfQ_conj {p q : XNum ℝ} (hp : NormOrder p) (h : pfQ p = .ok q) : Conj p q := by
  rcases hp with ⟨a, ha, rfl⟩ | rfl
  · simp only [pfQ] at h
    by_cases h1 : a = 1
    · rw [if_pos h1] at h
      left
      exact ⟨by rw [h1], (Except.ok.inj h).symm⟩
    · rw [if_neg h1, if_neg (by linarith)] at h
      right; right
      have ha' : 1 < a := lt_of_le_of_ne ha (Ne.symm h1)
      refine ⟨a, 1 / (1 - 1 / a), rfl, (Except.ok.inj h).symm, ?_⟩
      rw [Real.holderConjugate_iff]
      refine ⟨ha', ?_⟩
      simp
  · right; left
    exact ⟨rfl, (Except.ok.inj h).symm⟩

theorem Conj.normOrder_right {p q : XNum ℝ} (h : Conj p q) : NormOrder q := by
  rcases h with ⟨-, rfl⟩ | ⟨-, rfl⟩ | ⟨a, b, -, rfl, hab⟩
  · exact .inr rfl
  · exact .inl ⟨1, le_rfl, rfl⟩
  · exact .inl ⟨b, hab.symm.lt.le, rfl⟩

theorem Conj.normOrder_left {p q : XNum ℝ} (h : Conj p q) : NormOrder p := by
  rcases h with ⟨rfl, -⟩ | ⟨rfl, -⟩ | ⟨a, b, rfl, -, hab⟩
  · exact .inl ⟨1, le_rfl, rfl⟩
  · exact .inr rfl
  · exact .inl ⟨a, hab.lt.le, rfl⟩

variable {m : ℕ}

theorem abs_le_pinf (u : Fin m → ℝ) (j : Fin m) : |u j| ≤ pnorm .pinf u :=
  le_ciSup (f := fun k : Fin m => |u k|) (Set.finite_range _).bddAbove j

theorem pnorm_one (u : Fin m → ℝ) : pnorm (.fin 1) u = ∑ j, |u j| := by
  simp [pnorm]

theorem holder {p q : XNum ℝ} (h : Conj p q) (u v : Fin m → ℝ) : ∑ j, u j * v j ≤ pnorm q u * pnorm p v := by
  rcases h with ⟨rfl, rfl⟩ | ⟨rfl, rfl⟩ | ⟨a, b, rfl, rfl, hab⟩
  · rw [pnorm_one, Finset.mul_sum]
    refine Finset.sum_le_sum fun j _ => (le_abs_self _).trans ?_
    rw [abs_mul]
    exact mul_le_mul_of_nonneg_right (abs_le_pinf u j) (abs_nonneg _)
  · rw [pnorm_one, Finset.sum_mul]
    refine Finset.sum_le_sum fun j _ => (le_abs_self _).trans ?_
    rw [abs_mul]
    exact mul_le_mul_of_nonneg_left (abs_le_pinf v j) (abs_nonneg _)
  · exact Real.inner_le_Lp_mul_Lq Finset.univ u v hab.symm

theorem holder_abs {p q : XNum ℝ} (h : Conj p q) (u v : Fin m → ℝ) : |∑ j, u j * v j| ≤ pnorm q u * pnorm p v := by
  rw [abs_le]
  refine ⟨?_, holder h u v⟩
  have := holder h (fun j => -u j) v
  rw [pnorm_neg] at this
  simp only [neg_mul, Finset.sum_neg_distrib] at this
  linarith

/-- equality case, for non-negative vectors -/
theorem holder_attained {p q : XNum ℝ} (h : Conj p q) (hm : 0 < m) (u : Fin m → ℝ) (hu : ∀ j, 0 ≤ u j) :
    ∃ v : Fin m → ℝ, pnorm p v ≤ 1 ∧ ∑ j, u j * v j = pnorm q u := by
  classical
  rcases h with ⟨rfl, rfl⟩ | ⟨rfl, rfl⟩ | ⟨a, b, rfl, rfl, hab⟩
  · have : Nonempty (Fin m) := ⟨⟨0, hm⟩⟩
    obtain ⟨i, hi⟩ := exists_eq_ciSup_of_finite (f := fun k : Fin m => |u k|)
    refine ⟨fun j => if j = i then 1 else 0, ?_, ?_⟩
    · rw [pnorm_one]
      refine le_of_eq ?_
      rw [Finset.sum_eq_single i] <;> simp +contextual
    · simp only [mul_ite, mul_one, mul_zero, Finset.sum_ite_eq', Finset.mem_univ, if_true]
      rw [← abs_of_nonneg (hu i)]
      exact hi
  · refine ⟨fun _ => 1, ?_, ?_⟩
    · have : Nonempty (Fin m) := ⟨⟨0, hm⟩⟩
      simp [pnorm]
    · rw [pnorm_one]
      simp [abs_of_nonneg (hu _)]
  · lift u to Fin m → NNReal using hu
    obtain ⟨⟨g, hg, hge⟩, -⟩ := NNReal.isGreatest_Lp Finset.univ u hab.symm
    refine ⟨fun j => (g j : ℝ), ?_, ?_⟩
    · have h1 : ∑ j, (g j : ℝ) ^ a ≤ 1 := by
        have := hg
        simp only [Set.mem_ofPred_eq] at this
        exact_mod_cast this
      simp only [pnorm, NNReal.abs_eq]
      exact Real.rpow_le_one (Finset.sum_nonneg fun j _ => by positivity) h1 (one_div_nonneg.2 hab.nonneg)
    · have := congrArg NNReal.toReal hge
      push_cast at this
      simp only [pnorm, NNReal.abs_eq]
      exact this

theorem vnorm_ofFn {d : ℕ} {p : XNum ℝ} (hp : NormOrder p) (f : Fin d → ℝ) : vnorm p (List.ofFn f) = pnorm p f := by
  have h := vnorm_range (d := d) hp (fun k => if h : k < d then f ⟨k, h⟩ else 0)
  have e1 : (List.range d).map (fun k => if h : k < d then f ⟨k, h⟩ else 0) = List.ofFn f := by
    apply List.ext_getElem
    · simp
    · intro i h1 h2
      simp at h1
      simp [h1]
  rw [e1] at h
  rw [h]
  simp

end Skwdro
