import Verif.Lemmas.Tensor
import Verif.Spec.Norms

/-! Helper lemmas on p-norms and ground costs. -/

namespace Skwdro
open Spec Tensor

theorem foldr_max_eq_iSup {d : ℕ} (f : ℕ → ℝ) (hf : ∀ k, 0 ≤ f k) :
    ((List.range d).map f).foldr max 0 = ⨆ k : Fin d, f k := by
  have key : ∀ l : List ℝ, (∀ x ∈ l, x ≤ l.foldr max 0) ∧ ((l.foldr max 0) = 0 ∨ l.foldr max 0 ∈ l) := by
    intro l
    induction l with
    | nil => simp
    | cons a l ih =>
      obtain ⟨h1, h2⟩ := ih
      refine ⟨?_, ?_⟩
      · intro x hx
        rcases List.mem_cons.1 hx with rfl | hx
        · exact le_max_left _ _
        · exact le_trans (h1 x hx) (le_max_right _ _)
      · simp only [List.foldr_cons]
        rcases le_total a (l.foldr max 0) with h | h
        · rw [max_eq_right h]
          rcases h2 with h2 | h2
          · exact Or.inl h2
          · exact Or.inr (List.mem_cons_of_mem _ h2)
        · rw [max_eq_left h]; exact Or.inr List.mem_cons_self
  obtain ⟨h1, h2⟩ := key ((List.range d).map f)
  have bdd : BddAbove (Set.range fun k : Fin d => f k) := Set.finite_range _ |>.bddAbove
  apply le_antisymm
  · rcases h2 with h2 | h2
    · rw [h2]; exact Real.iSup_nonneg (fun k => hf _)
    · obtain ⟨k, hk, e⟩ := List.mem_map.1 h2
      rw [← e]
      exact le_ciSup bdd (⟨k, List.mem_range.1 hk⟩ : Fin d)
  · rcases isEmpty_or_nonempty (Fin d) with he | he
    · rw [Real.iSup_of_isEmpty]
      rcases h2 with h2 | h2
      · rw [h2]
      · obtain ⟨k, _, e⟩ := List.mem_map.1 h2
        rw [← e]; exact hf _
    · exact ciSup_le fun k => h1 _ (List.mem_map.2 ⟨k, by simp, rfl⟩)

/-- `torch.norm` of the row of a vector is the p-norm. -/
theorem vnorm_range {d : ℕ} {p : XNum ℝ} (hp : NormOrder p) (f : ℕ → ℝ) :
    vnorm p ((List.range d).map f) = pnorm p (fun k : Fin d => f k) := by
  rcases hp with ⟨q, hq, rfl⟩ | rfl
  · have : q ≠ 0 := by linarith
    simp only [vnorm, this, if_false, pnorm, List.map_map]
    rw [sum_range_fin]; rfl
  · simp only [vnorm, pnorm, List.map_map]
    exact foldr_max_eq_iSup (fun k => |f k|) (fun k => abs_nonneg _)

section pnorm
variable {d : ℕ} {p : XNum ℝ}

theorem pnorm_nonneg (p : XNum ℝ) (v : Fin d → ℝ) : 0 ≤ pnorm p v := by
  cases p with
  | fin q => exact Real.rpow_nonneg (Finset.sum_nonneg fun i _ => Real.rpow_nonneg (abs_nonneg _) _) _
  | pinf => exact Real.iSup_nonneg fun _ => abs_nonneg _
  | nan => exact le_rfl
  | ninf => exact le_rfl

theorem pnorm_neg (p : XNum ℝ) (v : Fin d → ℝ) : pnorm p (fun i => -v i) = pnorm p v := by
  cases p <;> simp [pnorm]

theorem pnorm_sub_comm (p : XNum ℝ) (x z : Fin d → ℝ) : pnorm p (fun i => x i - z i) = pnorm p (fun i => z i - x i) := by
  rw [← pnorm_neg]; simp

theorem pnorm_eq_zero (hp : NormOrder p) (v : Fin d → ℝ) : pnorm p v = 0 ↔ ∀ i, v i = 0 := by
  rcases hp with ⟨q, hq, rfl⟩ | rfl
  · have h0 : 0 < q := by linarith
    have hn : ∀ i ∈ (Finset.univ : Finset (Fin d)), 0 ≤ |v i| ^ q := fun i _ => Real.rpow_nonneg (abs_nonneg _) _
    simp only [pnorm]
    rw [Real.rpow_eq_zero (Finset.sum_nonneg hn) (by positivity), Finset.sum_eq_zero_iff_of_nonneg hn]
    simp [Real.rpow_eq_zero, h0.ne']
  · simp only [pnorm]
    have bdd : BddAbove (Set.range fun k : Fin d => |v k|) := Set.finite_range _ |>.bddAbove
    constructor
    · intro h i
      have := le_ciSup bdd i
      rw [h] at this
      exact abs_eq_zero.1 (le_antisymm this (abs_nonneg _))
    · intro h; simp [h]

theorem pnorm_add_le (hp : NormOrder p) (u v : Fin d → ℝ) : pnorm p (fun i => u i + v i) ≤ pnorm p u + pnorm p v := by
  rcases hp with ⟨q, hq, rfl⟩ | rfl
  · exact Real.Lp_add_le Finset.univ u v hq
  · simp only [pnorm]
    have bu : BddAbove (Set.range fun k : Fin d => |u k|) := Set.finite_range _ |>.bddAbove
    have bv : BddAbove (Set.range fun k : Fin d => |v k|) := Set.finite_range _ |>.bddAbove
    rcases isEmpty_or_nonempty (Fin d) with he | he
    · simp [Real.iSup_of_isEmpty]
    · exact ciSup_le fun k => le_trans (abs_add_le _ _) (add_le_add (le_ciSup bu k) (le_ciSup bv k))

theorem pnorm_sub_triangle (hp : NormOrder p) (x y z : Fin d → ℝ) :
    pnorm p (fun i => x i - z i) ≤ pnorm p (fun i => x i - y i) + pnorm p (fun i => y i - z i) := by
  have := pnorm_add_le hp (fun i => x i - y i) (fun i => y i - z i)
  simpa using this

end pnorm

/-! ## Tensor-level values -/

/-- same shapes -/
theorem penalty_same {p : XNum ℝ} {a b : Tensor ℝ} {s : List ℕ} {d : ℕ} {fa fb : List ℕ → ℝ}
    (ha : Is a (s ++ [d]) fa) (hb : Is b (s ++ [d]) fb) :
    ∃ c, penalty p a b = .ok c ∧ Is c (s ++ [1])
      (fun i => vnorm p ((List.range d).map (fun k => fa (i.dropLast ++ [k]) - fb (i.dropLast ++ [k])))) := by
  obtain ⟨c, hc, hI⟩ := Is.zipWith_same (f := (· - ·)) ha hb
  exact ⟨_, by simp [penalty, hc], hI.reduceLast⟩

/-- first operand broadcast along the first dimension -/
theorem penalty_left {p : XNum ℝ} {a b : Tensor ℝ} {s : List ℕ} {n d : ℕ} {fa fb : List ℕ → ℝ}
    (ha : Is a (1 :: s ++ [d]) fa) (hb : Is b (n :: s ++ [d]) fb) :
    ∃ c, penalty p a b = .ok c ∧ Is c (n :: s ++ [1])
      (fun i => vnorm p ((List.range d).map
        (fun k => fa ((0 :: i.dropLast.tail) ++ [k]) - fb (i.dropLast ++ [k])))) := by
  obtain ⟨c, hc, hI⟩ := Is.zipWith_left (f := (· - ·)) (s := s ++ [d]) ha hb
  refine ⟨c.reduceLast (vnorm p), by simp [penalty, hc],
    (hI.reduceLast (s := n :: s)).congr fun i hi => ?_⟩
  congr 1
  apply List.map_congr_left
  intro k _
  obtain ⟨i', j, rfl, h1, -⟩ := inShape_concat_inv (s := n :: s) hi
  cases h1 with
  | cons h1 h2 => simp only [List.dropLast_concat]; simp

/-- data penalty of `n` samples per centre, `(1,m,d)` against `(n,m,d)` -/
theorem penalty_batch {p : XNum ℝ} (hp : NormOrder p) {n m d : ℕ} {a b : Tensor ℝ} {A : Fin 1 → Fin m → Fin d → ℝ}
    {B : Fin n → Fin m → Fin d → ℝ} (ha : IsTen a A) (hb : IsTen b B) :
    ∃ c, penalty p a b = .ok c ∧ Is c [n, m, 1]
      (ix3 (fun (j : Fin n) (i : Fin m) (_ : Fin 1) => pnorm p (fun k => A 0 i k - B j i k))) := by
  obtain ⟨c, hc, hI⟩ := penalty_left (p := p) (s := [m]) ha.is hb.is
  refine ⟨c, hc, hI.congr ?_⟩
  intro i hi
  rcases hi with _ | ⟨h1, hi⟩
  rcases hi with _ | ⟨h2, hi⟩
  rcases hi with _ | ⟨h3, hi⟩
  cases hi
  rename_i j i k
  have hk : k = 0 := by omega
  subst hk
  have e := ix3_apply (fun (j : Fin n) (i : Fin m) (_ : Fin 1) => pnorm p (fun k => A 0 i k - B j i k)) ⟨j, h1⟩ ⟨i, h2⟩ 0
  simp only [Fin.val_zero] at e
  rw [e, vnorm_range hp]
  congr 1
  funext k
  have e1 := ix3_apply A 0 ⟨i, h2⟩ k
  have e2 := ix3_apply B ⟨j, h1⟩ ⟨i, h2⟩ k
  simp only [Fin.val_zero] at e1
  simpa using congrArg₂ (· - ·) e1 e2

/-- penalty of one pair of vectors -/
theorem penalty_vec {p : XNum ℝ} (hp : NormOrder p) {d : ℕ} {a b : Tensor ℝ} {u v : Fin d → ℝ}
    (ha : IsVec a u) (hb : IsVec b v) :
    ∃ c, penalty p a b = .ok c ∧ Is c [1] (fun _ => pnorm p (fun k => u k - v k)) := by
  obtain ⟨c, hc, hI⟩ := penalty_same (p := p) (s := []) ha.is hb.is
  refine ⟨c, hc, hI.congr ?_⟩
  intro i hi
  rcases hi with _ | ⟨h1, hi⟩
  cases hi
  rw [vnorm_range hp]
  congr 1
  funext k
  simp

end Skwdro
