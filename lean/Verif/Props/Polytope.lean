import Verif.Lemmas.Minimax
import Verif.Lemmas.Cone
import Verif.Props.Portfolio

/-! C63 with restricted returns: strong duality for the portfolio program over any polytope. -/

namespace Skwdro
open Spec MeasureTheory

variable {N m J : ℕ}

/-! ## The saddle function -/

/-- one piece: weight `w` and displacement `y`, against the multipliers `γ` of the polytope -/
def pieceVal (c : ℝ) (e : Fin J → ℝ) (b : Fin m → ℝ) (C : Fin J → Fin m → ℝ) (w : ℝ) (y : Fin m → ℝ) (γ : Fin J → ℝ) : ℝ :=
  w * (c + ∑ l, γ l * e l) + ∑ j, y j * (b j - ∑ l, C l j * γ l)

section piece
variable {c : ℝ} {e : Fin J → ℝ} {b : Fin m → ℝ} {C : Fin J → Fin m → ℝ}

theorem pieceVal_left (w w' : ℝ) (y y' : Fin m → ℝ) (γ : Fin J → ℝ) (s t : ℝ) :
    pieceVal c e b C (s * w + t * w') (fun j => s * y j + t * y' j) γ = s * pieceVal c e b C w y γ + t * pieceVal c e b C w' y' γ := by
  unfold pieceVal
  have : ∑ j, (s * y j + t * y' j) * (b j - ∑ l, C l j * γ l) =
      s * ∑ j, y j * (b j - ∑ l, C l j * γ l) + t * ∑ j, y' j * (b j - ∑ l, C l j * γ l) := by
    rw [Finset.mul_sum, Finset.mul_sum, ← Finset.sum_add_distrib]
    exact Finset.sum_congr rfl fun j _ => by ring
  rw [this]
  ring

theorem pieceVal_right (w : ℝ) (y : Fin m → ℝ) (γ γ' : Fin J → ℝ) {s t : ℝ} (hst : s + t = 1) :
    pieceVal c e b C w y (fun l => s * γ l + t * γ' l) = s * pieceVal c e b C w y γ + t * pieceVal c e b C w y γ' := by
  unfold pieceVal
  have h1 : ∑ l, (s * γ l + t * γ' l) * e l = s * ∑ l, γ l * e l + t * ∑ l, γ' l * e l := by
    rw [Finset.mul_sum, Finset.mul_sum, ← Finset.sum_add_distrib]
    exact Finset.sum_congr rfl fun j _ => by ring
  have h2 : ∀ j, ∑ l, C l j * (s * γ l + t * γ' l) = s * ∑ l, C l j * γ l + t * ∑ l, C l j * γ' l := by
    intro j
    rw [Finset.mul_sum, Finset.mul_sum, ← Finset.sum_add_distrib]
    exact Finset.sum_congr rfl fun j _ => by ring
  have h3 : ∑ j, y j * (b j - ∑ l, C l j * (s * γ l + t * γ' l)) =
      s * ∑ j, y j * (b j - ∑ l, C l j * γ l) + t * ∑ j, y j * (b j - ∑ l, C l j * γ' l) := by
    rw [Finset.mul_sum, Finset.mul_sum, ← Finset.sum_add_distrib]
    refine Finset.sum_congr rfl fun j _ => ?_
    rw [h2]
    linear_combination (-(y j * b j)) * hst
  rw [h1, h3]
  linear_combination (-(w * c)) * hst

end piece

/-- worst-case plans before normalisation: weights of the pieces at each sample, and displacements times weights -/
def plans (N m : ℕ) (p : XNum ℝ) (rho : ℝ) : Set ((Fin N → Fin 2 → ℝ) × (Fin N → Fin 2 → Fin m → ℝ)) :=
  {x | (∀ i k, 0 ≤ x.1 i k) ∧ (∀ i, ∑ k, x.1 i k = 1 / N) ∧ ∑ i, ∑ k, pnorm p (x.2 i k) ≤ rho}

theorem plans_convex {p : XNum ℝ} (hp : NormOrder p) (rho : ℝ) : Convex ℝ (plans N m p rho) := by
  rintro x ⟨hx1, hx2, hx3⟩ y ⟨hy1, hy2, hy3⟩ s t hs ht hst
  refine ⟨fun i k => ?_, fun i => ?_, ?_⟩
  · have := mul_nonneg hs (hx1 i k)
    have := mul_nonneg ht (hy1 i k)
    simp only [Prod.fst_add, Prod.smul_fst, Pi.add_apply, Pi.smul_apply, smul_eq_mul]
    linarith
  · simp only [Prod.fst_add, Prod.smul_fst, Pi.add_apply, Pi.smul_apply, smul_eq_mul, Finset.sum_add_distrib, ← Finset.mul_sum, hx2, hy2]
    rw [← add_mul, hst, one_mul]
  · have h : ∀ i k, pnorm p ((s • x + t • y).2 i k) ≤ s * pnorm p (x.2 i k) + t * pnorm p (y.2 i k) := by
      intro i k
      rw [← pnorm_scale hp hs, ← pnorm_scale hp ht]
      exact pnorm_add_le hp _ _
    refine (Finset.sum_le_sum fun i _ => Finset.sum_le_sum fun k _ => h i k).trans ?_
    simp only [Finset.sum_add_distrib, ← Finset.mul_sum]
    calc s * _ + t * _ ≤ s * rho + t * rho := add_le_add (mul_le_mul_of_nonneg_left hx3 hs) (mul_le_mul_of_nonneg_left hy3 ht)
      _ = rho := by rw [← add_mul, hst, one_mul]

theorem plans_compact {p q : XNum ℝ} (hpq : Conj p q) (rho : ℝ) : IsCompact (plans N m p rho) := by
  obtain ⟨B, hB, hc⟩ := coord_le (m := m) hpq
  refine (isCompact_Icc (a := ((fun _ _ => 0, fun _ _ _ => -(B * rho)) : (Fin N → Fin 2 → ℝ) × (Fin N → Fin 2 → Fin m → ℝ)))
    (b := (fun _ _ => 1 / N, fun _ _ _ => B * rho))).of_isClosed_subset ?_ ?_
  · have e : plans N m p rho = (⋂ i, ⋂ k, {x | 0 ≤ x.1 i k}) ∩ ((⋂ i, {x | ∑ k, x.1 i k = 1 / (N : ℝ)}) ∩ {x | ∑ i, ∑ k, pnorm p (x.2 i k) ≤ rho}) := by
      ext x
      simp [plans]
    rw [e]
    refine IsClosed.inter (isClosed_iInter fun i => isClosed_iInter fun k => isClosed_le continuous_const (by fun_prop))
      (IsClosed.inter (isClosed_iInter fun i => isClosed_eq (by fun_prop) continuous_const) (isClosed_le ?_ continuous_const))
    refine continuous_finsetSum _ fun i _ => continuous_finsetSum _ fun k _ => (pnorm_continuous hpq.normOrder_left).comp ?_
    fun_prop
  · rintro x ⟨h1, h2, h3⟩
    have hw : ∀ i k, x.1 i k ≤ 1 / N := fun i k => by
      rw [← h2 i]
      exact Finset.single_le_sum (f := fun k => x.1 i k) (fun k _ => h1 i k) (Finset.mem_univ k)
    have hy : ∀ i k j, |x.2 i k j| ≤ B * rho := fun i k j => by
      refine (hc _ j).trans (mul_le_mul_of_nonneg_left ?_ hB)
      refine le_trans ?_ h3
      refine le_trans ?_ (Finset.single_le_sum (f := fun i => ∑ k, pnorm p (x.2 i k)) (fun i _ => Finset.sum_nonneg fun k _ => pnorm_nonneg _ _)
        (Finset.mem_univ i))
      exact Finset.single_le_sum (f := fun k => pnorm p (x.2 i k)) (fun k _ => pnorm_nonneg _ _) (Finset.mem_univ k)
    exact ⟨⟨fun i k => h1 i k, fun i k j => (abs_le.1 (hy i k j)).1⟩, ⟨fun i k => hw i k, fun i k j => (abs_le.1 (hy i k j)).2⟩⟩

/-- loss of piece `k` at sample `i` -/
noncomputable def pieceAt (eta alpha : ℝ) (samples : Fin N → Fin m → ℝ) (theta : Fin m → ℝ) (tau : ℝ) (i : Fin N) (k : Fin 2) : ℝ :=
  pfB eta alpha k * tau + pfA eta alpha k * ∑ j, theta j * samples i j

/-- the saddle function -/
noncomputable def saddle (C : Fin J → Fin m → ℝ) (d : Fin J → ℝ) (eta alpha : ℝ) (samples : Fin N → Fin m → ℝ) (theta : Fin m → ℝ) (tau : ℝ)
    (x : (Fin N → Fin 2 → ℝ) × (Fin N → Fin 2 → Fin m → ℝ)) (γ : Fin N → Fin 2 → Fin J → ℝ) : ℝ :=
  ∑ i, ∑ k, pieceVal (pieceAt eta alpha samples theta tau i k) (fun l => d l - ∑ j, C l j * samples i j)
    (fun j => pfA eta alpha k * theta j) C (x.1 i k) (x.2 i k) (γ i k)

theorem pfIx_unpair (f : Fin N → Fin 2 → Fin J → ℝ) : ∃ g : Fin (N * 2) → Fin J → ℝ, ∀ i k, g (pfIx i k) = f i k := by
  refine ⟨fun t => f ⟨t.1 / 2, by omega⟩ ⟨t.1 % 2, by omega⟩, fun i k => ?_⟩
  have h1 : (⟨(pfIx i k).1 / 2, by have := (pfIx i k).2; omega⟩ : Fin N) = i := Fin.ext (by simp only [pfIx]; omega)
  have h2 : (⟨(pfIx i k).1 % 2, by omega⟩ : Fin 2) = k := Fin.ext (by simp only [pfIx]; omega)
  show f _ _ = _
  rw [h1, h2]

/-- given multipliers of the polytope, the best value of the program is reached by a plan -/
theorem saddle_reaches {p q : XNum ℝ} (hpq : Conj p q) (hN : 0 < N) (hm : 0 < m) {C : Fin J → Fin m → ℝ} {d : Fin J → ℝ} {eta alpha rho : ℝ}
    (hr : 0 ≤ rho) (samples : Fin N → Fin m → ℝ) {theta : Fin m → ℝ} (ht : InSimplex theta) (tau : ℝ) {V : ℝ}
    (hV : ∀ v, (portfolioProgram C d q eta alpha rho samples).Feasible v → v.theta = theta → v.tau = tau →
      V ≤ (portfolioProgram C d q eta alpha rho samples).objective v)
    (γ : Fin N → Fin 2 → Fin J → ℝ) (hγ : ∀ i k l, 0 ≤ γ i k l) :
    ∃ x ∈ plans N m p rho, V ≤ saddle C d eta alpha samples theta tau x γ := by
  classical
  have hN' : (0 : ℝ) < N := by exact_mod_cast hN
  obtain ⟨g, hg⟩ := pfIx_unpair γ
  set A : Fin N → Fin 2 → ℝ := fun i k => pieceAt eta alpha samples theta tau i k + ∑ l, γ i k l * (d l - ∑ j, C l j * samples i j) with hA
  set U : Fin N × Fin 2 → ℝ := fun z => pnorm q (fun j => (∑ l, C l j * γ z.1 z.2 l) - pfA eta alpha z.2 * theta j) with hU
  have hk : ∀ i, ∃ k, ∀ k', A i k' ≤ A i k := fun i => by
    obtain ⟨k, -, hk⟩ := Finset.exists_max_image Finset.univ (A i) Finset.univ_nonempty
    exact ⟨k, fun k' => hk k' (Finset.mem_univ _)⟩
  choose kk hkk using hk
  obtain ⟨z, hz⟩ : ∃ z, ∀ z', U z' ≤ U z := by
    have : Nonempty (Fin N × Fin 2) := ⟨(⟨0, hN⟩, 0)⟩
    obtain ⟨z, -, hz⟩ := Finset.exists_max_image Finset.univ U Finset.univ_nonempty
    exact ⟨z, fun z' => hz z' (Finset.mem_univ _)⟩
  set v : PfVars N m J := ⟨U z, fun i => A i (kk i), theta, tau, g⟩ with hv
  have hf : (portfolioProgram C d q eta alpha rho samples).Feasible v := by
    rw [portfolio_feasible hpq.normOrder_right]
    refine ⟨ht, pnorm_nonneg _ _, fun i k => ?_⟩
    simp only [hv, hg]
    exact ⟨hkk i k, hz (i, k), hγ i k⟩
  obtain ⟨u, hu1, hu2⟩ := holder_attained' hpq hm (fun j => pfA eta alpha z.2 * theta j - ∑ l, C l j * γ z.1 z.2 l)
  refine ⟨(fun i k => if k = kk i then 1 / N else 0, fun i k j => if (i, k) = z then rho * u j else 0), ⟨fun i k => ?_, fun i => ?_, ?_⟩, ?_⟩
  · dsimp only
    split_ifs <;> positivity
  · simp
  · have h0 : pnorm p (fun _ : Fin m => (0 : ℝ)) = 0 := (pnorm_eq_zero hpq.normOrder_left _).2 fun _ => rfl
    have : ∀ i k, pnorm p (fun j => if (i, k) = z then rho * u j else 0) = if (i, k) = z then rho * pnorm p u else 0 := by
      intro i k
      split_ifs
      · exact pnorm_scale hpq.normOrder_left hr u
      · exact h0
    simp only [this]
    rw [← Fintype.sum_prod_type' (f := fun i k => if (i, k) = z then rho * pnorm p u else 0)]
    simp only [Prod.mk.eta, Finset.sum_ite_eq', Finset.mem_univ, if_true]
    calc rho * pnorm p u ≤ rho * 1 := mul_le_mul_of_nonneg_left hu1 hr
      _ = rho := mul_one _
  · refine (hV v hf rfl rfl).trans (le_of_eq ?_)
    have hUz : U z = ∑ j, (pfA eta alpha z.2 * theta j - ∑ l, C l j * γ z.1 z.2 l) * u j := by
      rw [hu2, hU]
      exact pnorm_abs fun j => abs_sub_comm _ _
    have e1 : ∀ i k, pieceVal (pieceAt eta alpha samples theta tau i k) (fun l => d l - ∑ j, C l j * samples i j)
        (fun j => pfA eta alpha k * theta j) C (if k = kk i then 1 / (N : ℝ) else 0) (fun j => if (i, k) = z then rho * u j else 0) (γ i k) =
        (if k = kk i then 1 / (N : ℝ) * A i k else 0) + (if (i, k) = z then rho * U z else 0) := by
      intro i k
      unfold pieceVal
      congr 1
      · split_ifs <;> simp [hA]
      · split_ifs with h
        · rw [hUz, ← h, Finset.mul_sum]
          exact Finset.sum_congr rfl fun j _ => by ring
        · simp
    unfold saddle
    simp only [e1, Finset.sum_add_distrib, Finset.sum_ite_eq', Finset.mem_univ, if_true]
    rw [← Fintype.sum_prod_type' (f := fun i k => if (i, k) = z then rho * U z else 0)]
    simp only [Prod.mk.eta, Finset.sum_ite_eq', Finset.mem_univ, if_true, ← Finset.mul_sum]
    simp only [portfolioProgram, hv]
    ring

/-- strong duality: some plan staying in the polytope is worth at least as much as every feasible point -/
theorem polytope_plan {p q : XNum ℝ} (hpq : Conj p q) (hN : 0 < N) (hm : 0 < m) {C : Fin J → Fin m → ℝ} {d : Fin J → ℝ} {eta alpha rho : ℝ}
    (hr : 0 ≤ rho) (samples : Fin N → Fin m → ℝ) {theta : Fin m → ℝ} (ht : InSimplex theta) (tau : ℝ) {V : ℝ}
    (hV : ∀ v, (portfolioProgram C d q eta alpha rho samples).Feasible v → v.theta = theta → v.tau = tau →
      V ≤ (portfolioProgram C d q eta alpha rho samples).objective v) :
    ∃ x ∈ plans N m p rho, (∀ i k l, ∑ j, C l j * x.2 i k j ≤ x.1 i k * (d l - ∑ j, C l j * samples i j)) ∧
      V ≤ ∑ i, ∑ k, (x.1 i k * pieceAt eta alpha samples theta tau i k + pfA eta alpha k * ∑ j, theta j * x.2 i k j) := by
  classical
  have hN' : (0 : ℝ) < N := by exact_mod_cast hN
  set Y : Set (Fin N → Fin 2 → Fin J → ℝ) := {γ | ∀ i k l, 0 ≤ γ i k l} with hY
  have hYc : Convex ℝ Y := by
    intro γ h γ' h' s t hs ht _ i k l
    exact add_nonneg (mul_nonneg hs (h i k l)) (mul_nonneg ht (h' i k l))
  have hne : (plans N m p rho).Nonempty := by
    obtain ⟨x, hx, -⟩ := saddle_reaches hpq hN hm hr samples ht tau hV (fun _ _ _ => 0) fun _ _ _ => le_rfl
    exact ⟨x, hx⟩
  obtain ⟨x, hx, hxV⟩ := exists_minimax (f := saddle C d eta alpha samples theta tau) (X := plans N m p rho) (Y := Y) hne
    (plans_convex hpq.normOrder_left rho) (plans_compact hpq rho) hYc
    (fun γ => by unfold saddle pieceVal; fun_prop) (fun x => by unfold saddle pieceVal; fun_prop)
    (fun γ _ => ⟨plans_convex hpq.normOrder_left rho, fun x _ y _ s t _ _ _ => le_of_eq (by
      unfold saddle
      simp only [smul_eq_mul, Finset.mul_sum, ← Finset.sum_add_distrib]
      exact Finset.sum_congr rfl fun i _ => Finset.sum_congr rfl fun k _ => (pieceVal_left _ _ _ _ _ s t).symm)⟩)
    (fun x _ => ⟨hYc, fun γ _ γ' _ s t _ _ hst => le_of_eq (by
      unfold saddle
      simp only [smul_eq_mul, Finset.mul_sum, ← Finset.sum_add_distrib]
      exact Finset.sum_congr rfl fun i _ => Finset.sum_congr rfl fun k _ => pieceVal_right _ _ _ _ hst)⟩)
    (fun γ hγ => saddle_reaches hpq hN hm hr samples ht tau hV γ hγ)
  set W := ∑ i, ∑ k, (x.1 i k * pieceAt eta alpha samples theta tau i k + pfA eta alpha k * ∑ j, theta j * x.2 i k j) with hW
  have hexp : ∀ γ, saddle C d eta alpha samples theta tau x γ = W +
      ∑ i, ∑ k, ∑ l, γ i k l * (x.1 i k * (d l - ∑ j, C l j * samples i j) - ∑ j, C l j * x.2 i k j) := by
    intro γ
    rw [hW]
    unfold saddle
    simp only [← Finset.sum_add_distrib]
    refine Finset.sum_congr rfl fun i _ => Finset.sum_congr rfl fun k _ => ?_
    unfold pieceVal
    have h1 : ∑ j, x.2 i k j * (pfA eta alpha k * theta j - ∑ l, C l j * γ i k l) =
        pfA eta alpha k * (∑ j, theta j * x.2 i k j) - ∑ l, γ i k l * ∑ j, C l j * x.2 i k j := by
      simp only [mul_sub, Finset.sum_sub_distrib, Finset.mul_sum]
      congr 1
      · exact Finset.sum_congr rfl fun j _ => by ring
      · rw [Finset.sum_comm]
        exact Finset.sum_congr rfl fun l _ => Finset.sum_congr rfl fun j _ => by ring
    rw [h1, mul_add, Finset.mul_sum]
    have h3 : ∑ l, γ i k l * (x.1 i k * (d l - ∑ j, C l j * samples i j) - ∑ j, C l j * x.2 i k j) =
        ∑ l, γ i k l * (x.1 i k * (d l - ∑ j, C l j * samples i j)) - ∑ l, γ i k l * ∑ j, C l j * x.2 i k j := by
      rw [← Finset.sum_sub_distrib]
      exact Finset.sum_congr rfl fun l _ => by ring
    have h2 : ∑ l, x.1 i k * (γ i k l * (d l - ∑ j, C l j * samples i j)) = ∑ l, γ i k l * (x.1 i k * (d l - ∑ j, C l j * samples i j)) :=
      Finset.sum_congr rfl fun l _ => by ring
    rw [h2, h3]
    ring
  refine ⟨x, hx, fun i k l => ?_, ?_⟩
  · by_contra hlt
    push Not at hlt
    set D := ∑ j, C l j * x.2 i k j - x.1 i k * (d l - ∑ j, C l j * samples i j) with hD
    have hDpos : 0 < D := by rw [hD]; linarith
    set t := (|W - V| + 1) / D with ht'
    have htpos : 0 ≤ t := by positivity
    have := hxV (fun i' k' l' => if i' = i ∧ k' = k ∧ l' = l then t else 0) (fun i' k' l' => by dsimp only; split_ifs <;> simp [htpos])
    rw [hexp] at this
    have hsum : ∑ i', ∑ k', ∑ l', (if i' = i ∧ k' = k ∧ l' = l then t else 0) *
        (x.1 i' k' * (d l' - ∑ j, C l' j * samples i' j) - ∑ j, C l' j * x.2 i' k' j) = t * -D := by
      rw [Finset.sum_eq_single i, Finset.sum_eq_single k, Finset.sum_eq_single l]
      · simp only [and_self, if_true, hD]; ring
      · intro l' _ h; simp [h]
      · simp
      · intro k' _ h; simp [h]
      · simp
      · intro i' _ h; simp [h]
      · simp
    rw [hsum] at this
    have h2 : t * D = |W - V| + 1 := by rw [ht']; field_simp
    have := le_abs_self (W - V)
    linarith
  · have := hxV (fun _ _ _ => 0) fun _ _ _ => le_rfl
    rw [hexp] at this
    simp only [zero_mul, Finset.sum_const_zero, add_zero] at this
    exact this

/-- a plan that stays in the polytope gives distributions of the ball whose risk comes as close to its value as wanted -/
theorem plan_realised {p : XNum ℝ} (hp : NormOrder p) (hN : 0 < N) {C : Fin J → Fin m → ℝ} {d : Fin J → ℝ} (eta alpha : ℝ) {rho : ℝ}
    (hr : 0 ≤ rho) {samples : Fin N → Fin m → ℝ} (hx : ∀ i l, ∑ j, C l j * samples i j ≤ d l) (theta : Fin m → ℝ) (tau : ℝ)
    {x : (Fin N → Fin 2 → ℝ) × (Fin N → Fin 2 → Fin m → ℝ)} (hxm : x ∈ plans N m p rho)
    (hxp : ∀ i k l, ∑ j, C l j * x.2 i k j ≤ x.1 i k * (d l - ∑ j, C l j * samples i j)) {δ : ℝ} (h0 : 0 < δ) (h1 : δ ≤ 1) :
    ∃ Q ∈ AssetBall C d p samples rho,
      (1 - δ) * (∑ i, ∑ k, (x.1 i k * pieceAt eta alpha samples theta tau i k + pfA eta alpha k * ∑ j, theta j * x.2 i k j)) +
      δ * (∑ i, ∑ k, 1 / (2 * (N : ℝ)) * pieceAt eta alpha samples theta tau i k) ≤ cvarRisk eta alpha theta tau Q := by
  have hN' : (0 : ℝ) < N := by exact_mod_cast hN
  have hδ : 0 ≤ 1 - δ := by linarith
  obtain ⟨hx1, hx2, hx3⟩ := hxm
  set w : Fin N → Fin 2 → ℝ := fun i k => (1 - δ) * x.1 i k + δ * (1 / (2 * N)) with hw
  have hwpos : ∀ i k, 0 < w i k := fun i k => by
    have := mul_nonneg hδ (hx1 i k)
    have : 0 < δ * (1 / (2 * (N : ℝ))) := by positivity
    simp only [hw]
    linarith
  set dest : Fin N → Fin 2 → Fin m → ℝ := fun i k j => samples i j + (1 - δ) / w i k * x.2 i k j with hdest
  have hsum : ∀ i, ∑ k, w i k = 1 / N := by
    intro i
    simp only [hw, Finset.sum_add_distrib, ← Finset.mul_sum, hx2]
    simp only [Finset.sum_const, Finset.card_univ, Fintype.card_fin, nsmul_eq_mul]
    push_cast
    field_simp
    ring
  refine ⟨(finPlan w dest).map Prod.snd, ⟨finPlan_inBall hN (fun i k => (hwpos i k).le) hsum _ ?_, ?_⟩, ?_⟩
  · have hc : ∀ i k, w i k * pnorm p (fun j => samples i j - dest i k j) = (1 - δ) * pnorm p (x.2 i k) := by
      intro i k
      have e1 : pnorm p (fun j => samples i j - dest i k j) = pnorm p (fun j => (1 - δ) / w i k * x.2 i k j) := by
        refine pnorm_abs fun j => ?_
        simp only [hdest, sub_add_cancel_left, abs_neg]
      have := hwpos i k
      rw [e1, pnorm_scale hp (by positivity)]
      field_simp
    simp only [hc, ← Finset.mul_sum]
    calc (1 - δ) * _ ≤ (1 - δ) * rho := mul_le_mul_of_nonneg_left hx3 hδ
      _ ≤ rho := by nlinarith
  · refine finPlan_snd_ae _ ?_ ?_
    · have : {x : Fin m → ℝ | ∀ l, ∑ j, C l j * x j ≤ d l} = ⋂ l, {x | ∑ j, C l j * x j ≤ d l} := by
        ext x; simp
      rw [this]
      exact MeasurableSet.iInter fun l => measurableSet_le (by fun_prop) measurable_const
    · intro i k l
      have hw' := hwpos i k
      have e : ∑ j, C l j * dest i k j = ∑ j, C l j * samples i j + (1 - δ) / w i k * ∑ j, C l j * x.2 i k j := by
        simp only [hdest, mul_add, Finset.sum_add_distrib, Finset.mul_sum]
        congr 1
        exact Finset.sum_congr rfl fun j _ => by ring
      have h2 := mul_le_mul_of_nonneg_left (hxp i k l) (show 0 ≤ (1 - δ) / w i k by positivity)
      have h3 : (1 - δ) / w i k * x.1 i k ≤ 1 := by
        rw [div_mul_eq_mul_div, div_le_one hw']
        have : 0 < δ * (1 / (2 * (N : ℝ))) := by positivity
        simp only [hw]
        linarith
      have h4 := mul_le_mul_of_nonneg_right h3 (sub_nonneg.2 (hx i l))
      rw [e]
      nlinarith
  · unfold cvarRisk
    rw [finPlan_snd_integral (fun i k => (hwpos i k).le) _ (cvar_measurable eta alpha theta tau)]
    simp only [Finset.mul_sum, ← Finset.sum_add_distrib]
    refine Finset.sum_le_sum fun i _ => Finset.sum_le_sum fun k _ => ?_
    have hw' := hwpos i k
    have e : ∑ j, theta j * dest i k j = ∑ j, theta j * samples i j + (1 - δ) / w i k * ∑ j, theta j * x.2 i k j := by
      simp only [hdest, mul_add, Finset.sum_add_distrib, Finset.mul_sum]
      congr 1
      exact Finset.sum_congr rfl fun j _ => by ring
    have hle : pfB eta alpha k * tau + pfA eta alpha k * ∑ j, theta j * dest i k j ≤ meanCVaR eta alpha (∑ j, theta j * dest i k j) tau := by
      rw [meanCVaR_eq]
      fin_cases k
      · exact le_max_left _ _
      · exact le_max_right _ _
    refine le_trans (le_of_eq ?_) (mul_le_mul_of_nonneg_left hle hw'.le)
    rw [e, ← Finset.mul_sum]
    have e2 : w i k * ((1 - δ) / w i k) = 1 - δ := by field_simp
    have e3 : w i k = (1 - δ) * x.1 i k + δ * (1 / (2 * N)) := rfl
    calc _ = ((1 - δ) * x.1 i k + δ * (1 / (2 * N))) * pieceAt eta alpha samples theta tau i k +
          (1 - δ) * (pfA eta alpha k * ∑ j, theta j * x.2 i k j) := by ring
      _ = w i k * pieceAt eta alpha samples theta tau i k + w i k * ((1 - δ) / w i k) * (pfA eta alpha k * ∑ j, theta j * x.2 i k j) := by rw [e2, e3]
      _ = _ := by unfold pieceAt; ring

theorem limit_le {V D M : ℝ} (h : ∀ δ : ℝ, 0 < δ → δ ≤ 1 → (1 - δ) * V + δ * D ≤ M) : V ≤ M := by
  by_contra hlt
  push Not at hlt
  have h1 := h 1 one_pos le_rfl
  have h2 : 0 < V - M := by linarith
  have h3 : 0 < V - D := by linarith
  have h4 := h ((V - M) / (2 * (V - D))) (by positivity) (by rw [div_le_one (by linarith)]; linarith)
  have h5 : (V - M) / (2 * (V - D)) * (V - D) = (V - M) / 2 := by field_simp
  nlinarith

/-- bounds valid on the whole ball are at least any lower bound of the program -/
theorem polytope_le {p q : XNum ℝ} (hpq : Conj p q) (hN : 0 < N) (hm : 0 < m) {C : Fin J → Fin m → ℝ} {d : Fin J → ℝ} {eta alpha rho : ℝ}
    (hr : 0 ≤ rho) {samples : Fin N → Fin m → ℝ} (hx : ∀ i l, ∑ j, C l j * samples i j ≤ d l) {theta : Fin m → ℝ} (ht : InSimplex theta)
    (tau : ℝ) {V M : ℝ}
    (hV : ∀ v, (portfolioProgram C d q eta alpha rho samples).Feasible v → v.theta = theta → v.tau = tau →
      V ≤ (portfolioProgram C d q eta alpha rho samples).objective v)
    (hM : ∀ Q ∈ AssetBall C d p samples rho, cvarRisk eta alpha theta tau Q ≤ M) : V ≤ M := by
  obtain ⟨x, hxm, hxp, hxV⟩ := polytope_plan hpq hN hm hr samples ht tau hV
  refine hxV.trans (limit_le (D := ∑ i, ∑ k, 1 / (2 * (N : ℝ)) * pieceAt eta alpha samples theta tau i k) fun δ h0 h1 => ?_)
  obtain ⟨Q, hQ, h⟩ := plan_realised hpq.normOrder_left hN eta alpha hr hx theta tau hxm hxp h0 h1
  exact h.trans (hM Q hQ)

/-- C63. For every polytope that contains the sample, the infimum of the values the program assigns to given weights and threshold is
the supremum of their expected loss over the distributions of the ball carried by the polytope: the program neither overestimates nor
underestimates the risk. -/
theorem C63_polytope {p q : XNum ℝ} (hp : NormOrder p) (hq : pfQ p = .ok q) (hN : 0 < N) (hm : 0 < m) {C : Fin J → Fin m → ℝ}
    {d : Fin J → ℝ} {eta alpha rho : ℝ} (he : 0 ≤ eta) (ha : 0 < alpha) (hr : 0 ≤ rho) {samples : Fin N → Fin m → ℝ}
    (hx : ∀ i l, ∑ j, C l j * samples i j ≤ d l) {theta : Fin m → ℝ} (ht : InSimplex theta) (tau : ℝ) :
    ∃ V, IsLUB {e | ∃ Q ∈ AssetBall C d p samples rho, e = cvarRisk eta alpha theta tau Q} V ∧
      IsGLB {e | ∃ v, (portfolioProgram C d q eta alpha rho samples).Feasible v ∧ v.theta = theta ∧ v.tau = tau ∧
        e = (portfolioProgram C d q eta alpha rho samples).objective v} V := by
  have hpq := pfQ_conj hp hq
  have hN' : (0 : ℝ) < N := by exact_mod_cast hN
  set S := {e | ∃ v, (portfolioProgram C d q eta alpha rho samples).Feasible v ∧ v.theta = theta ∧ v.tau = tau ∧
        e = (portfolioProgram C d q eta alpha rho samples).objective v} with hS
  have hne : S.Nonempty := by
    obtain ⟨h1, h2⟩ := pfPoint_feasible hpq.normOrder_right (C := C) (d := d) (rho := rho) he ha samples ht tau
    exact ⟨_, _, h1, rfl, rfl, rfl⟩
  obtain ⟨Q0, hQ0, -⟩ := plan_realised (x := (fun _ _ => 1 / (2 * N), fun _ _ _ => 0)) hp hN eta alpha hr hx theta tau
    ⟨fun _ _ => by positivity, fun _ => by simp [Fin.sum_univ_two]; field_simp,
      by simp [(pnorm_eq_zero hp (fun _ : Fin m => (0 : ℝ))).2 fun _ => rfl, hr]⟩
    (fun i k l => by
      simp only [mul_zero, Finset.sum_const_zero]
      exact mul_nonneg (by positivity) (sub_nonneg.2 (hx i l))) one_pos le_rfl
  have hb : BddBelow S := by
    refine ⟨cvarRisk eta alpha theta tau Q0, ?_⟩
    rintro _ ⟨v, hv, rfl, rfl, rfl⟩
    exact (C63_certificate hp hq hv hQ0).2.2
  have hg := Real.isGLB_sInf hne hb
  refine ⟨sInf S, ⟨?_, fun M hM => ?_⟩, hg⟩
  · rintro _ ⟨Q, hQ, rfl⟩
    refine hg.2 ?_
    rintro _ ⟨v, hv, rfl, rfl, rfl⟩
    exact (C63_certificate hp hq hv hQ).2.2
  · refine polytope_le hpq hN hm hr hx ht tau (fun v hv h1 h2 => hg.1 ⟨v, hv, h1, h2, rfl⟩) fun Q hQ => hM ⟨Q, hQ, rfl⟩

/-- the hypotheses are met: two assets with returns between -1 and 1, sup-norm cost -/
example : (∀ (i : Fin 2) (l : Fin 2), ∑ j : Fin 2, (if l = 0 then (1 : ℝ) else -1) * (if i = j then (1 : ℝ) / 2 else -1 / 4) ≤ 1) ∧
    pfQ .pinf = .ok (.fin 1) ∧ InSimplex (fun _ : Fin 2 => (1 / 2 : ℝ)) := by
  refine ⟨fun i l => ?_, rfl, fun _ => by norm_num, by norm_num⟩
  fin_cases i <;> fin_cases l <;> simp [Fin.sum_univ_two] <;> norm_num

/-! ## The program has a solution -/

theorem Conj.symm {p q : XNum ℝ} (h : Conj p q) : Conj q p := by
  rcases h with ⟨h1, h2⟩ | ⟨h1, h2⟩ | ⟨a, b, h1, h2, hab⟩
  · exact .inr (.inl ⟨h2, h1⟩)
  · exact .inl ⟨h2, h1⟩
  · exact .inr (.inr ⟨b, a, h2, h1, hab.symm⟩)

theorem simplex_return {theta : Fin m → ℝ} (ht : InSimplex theta) (samples : Fin N → Fin m → ℝ) (i : Fin N) :
    |∑ j, theta j * samples i j| ≤ ∑ i, ∑ j, |samples i j| := by
  have h1 : ∀ j, theta j ≤ 1 := fun j => by
    rw [← ht.2]
    exact Finset.single_le_sum (f := theta) (fun k _ => ht.1 k) (Finset.mem_univ j)
  calc |∑ j, theta j * samples i j| ≤ ∑ j, |theta j * samples i j| := Finset.abs_sum_le_sum_abs _ _
    _ ≤ ∑ j, |samples i j| := Finset.sum_le_sum fun j _ => by
        rw [abs_mul, abs_of_nonneg (ht.1 j)]
        exact mul_le_of_le_one_left (abs_nonneg _) (h1 j)
    _ ≤ _ := Finset.single_le_sum (f := fun i => ∑ j, |samples i j|)
        (fun k _ => Finset.sum_nonneg fun j _ => abs_nonneg _) (Finset.mem_univ i)

/-- the two pieces cannot both be very negative -/
theorem pieces_lower {eta alpha r tau t0 t1 s R : ℝ} (he : 0 ≤ eta) (ha : 0 < alpha) (ha1 : alpha ≤ 1) (hr : |r| ≤ R) (ht0 : 0 ≤ t0) (ht1 : 0 ≤ t1)
    (h0 : pfB eta alpha 0 * tau + pfA eta alpha 0 * r + t0 ≤ s) (h1 : pfB eta alpha 1 * tau + pfA eta alpha 1 * r + t1 ≤ s) :
    -((1 + eta) * R) ≤ s := by
  have e : (1 - alpha) * (pfB eta alpha 0 * tau + pfA eta alpha 0 * r) + alpha * (pfB eta alpha 1 * tau + pfA eta alpha 1 * r) = -((1 + eta) * r) := by
    simp only [pfA, pfB]
    simp
    field_simp
    ring
  have h2 := mul_le_mul_of_nonneg_left (show pfB eta alpha 0 * tau + pfA eta alpha 0 * r ≤ s by linarith) (sub_nonneg.2 ha1)
  have h3 := mul_le_mul_of_nonneg_left (show pfB eta alpha 1 * tau + pfA eta alpha 1 * r ≤ s by linarith) ha.le
  have h4 := mul_le_mul_of_nonneg_left ((le_abs_self r).trans hr) (show 0 ≤ 1 + eta by linarith)
  linarith

/-- every feasible point can be replaced by one no worse with threshold at least `-R`, and zero threshold when `eta` is zero -/
theorem clamp_point {q : XNum ℝ} (hq : NormOrder q) {C : Fin J → Fin m → ℝ} {d : Fin J → ℝ} {eta alpha rho : ℝ} (he : 0 ≤ eta) (ha : 0 < alpha)
    (ha1 : alpha ≤ 1) {samples : Fin N → Fin m → ℝ} (hx : ∀ i l, ∑ j, C l j * samples i j ≤ d l) {v : PfVars N m J}
    (hv : (portfolioProgram C d q eta alpha rho samples).Feasible v) :
    ∃ v' : PfVars N m J, (portfolioProgram C d q eta alpha rho samples).Feasible v' ∧
      (portfolioProgram C d q eta alpha rho samples).objective v' = (portfolioProgram C d q eta alpha rho samples).objective v ∧
      -(∑ i, ∑ j, |samples i j|) ≤ v'.tau ∧ (eta = 0 → v'.tau = 0) := by
  set R := ∑ i, ∑ j, |samples i j| with hR
  have hR0 : 0 ≤ R := Finset.sum_nonneg fun i _ => Finset.sum_nonneg fun j _ => abs_nonneg _
  have hs : 0 ≤ eta / alpha := by positivity
  rw [portfolio_feasible hq] at hv
  obtain ⟨hsx, hl, hp⟩ := hv
  by_cases h0 : eta = 0
  · refine ⟨{ v with tau := 0 }, ?_, rfl, by simpa using hR0, fun _ => rfl⟩
    rw [portfolio_feasible hq]
    refine ⟨hsx, hl, fun i k => ⟨?_, (hp i k).2⟩⟩
    have := (hp i k).1
    have hB : pfB eta alpha k = 0 := by simp [pfB, h0]
    simp only [hB, zero_mul] at this ⊢
    exact this
  · rcases le_or_gt (-R) v.tau with h | h
    · exact ⟨v, (portfolio_feasible hq v).2 ⟨hsx, hl, hp⟩, rfl, h, fun h => absurd h h0⟩
    · set a := 1 + eta / alpha with ha'
      have ha1' : 1 ≤ a := by rw [ha']; linarith
      obtain ⟨g, hg⟩ := pfIx_unpair fun i k l => if k = 0 then 1 / a * v.gamma (pfIx i 1) l else v.gamma (pfIx i k) l
      refine ⟨{ v with tau := -R, gamma := g }, ?_, rfl, le_rfl, fun h => absurd h h0⟩
      rw [portfolio_feasible hq]
      refine ⟨hsx, hl, fun i k => ?_⟩
      have hr := simplex_return hsx samples i
      rw [← hR] at hr
      obtain ⟨k1, k2, k3⟩ := hp i 1
      simp only [hg]
      have hsl : eta * (1 - 1 / alpha) ≤ 0 := mul_nonpos_of_nonneg_of_nonpos he (by
        have := (one_le_div ha).2 ha1
        linarith)
      have hB1 : pfB eta alpha 1 * -R ≤ pfB eta alpha 1 * v.tau := by
        simp only [pfB, one_ne_zero, if_false]
        exact mul_le_mul_of_nonpos_left h.le hsl
      have ht1 : 0 ≤ ∑ l, v.gamma (pfIx i 1) l * (d l - ∑ j, C l j * samples i j) :=
        Finset.sum_nonneg fun l _ => mul_nonneg (k3 l) (sub_nonneg.2 (hx i l))
      rcases (show k = 0 ∨ k = 1 by fin_cases k <;> simp) with rfl | rfl
      · simp only [if_true]
        refine ⟨?_, ?_, fun l => mul_nonneg (by positivity) (k3 l)⟩
        · refine le_trans ?_ (le_trans (add_le_add_left (add_le_add_left hB1 _) _) k1)
          have e1 : ∑ l, 1 / a * v.gamma (pfIx i 1) l * (d l - ∑ j, C l j * samples i j) =
              1 / a * ∑ l, v.gamma (pfIx i 1) l * (d l - ∑ j, C l j * samples i j) := by
            rw [Finset.mul_sum]
            exact Finset.sum_congr rfl fun l _ => by ring
          rw [e1]
          have e2 : 1 / a * ∑ l, v.gamma (pfIx i 1) l * (d l - ∑ j, C l j * samples i j) ≤
              ∑ l, v.gamma (pfIx i 1) l * (d l - ∑ j, C l j * samples i j) :=
            mul_le_of_le_one_left ht1 (by rw [div_le_one (by linarith)]; exact ha1')
          refine add_le_add ?_ e2
          simp only [pfA, pfB, if_true, one_ne_zero, if_false]
          have : 0 ≤ eta / alpha * (R - ∑ j, v.theta j * samples i j) := mul_nonneg hs (by have := (abs_le.1 hr).2; linarith)
          have e3 : eta * (1 - 1 / alpha) * -R = -(eta * R) + eta / alpha * R := by field_simp; ring
          rw [e3]
          nlinarith
        · have e1 : (fun j => ∑ l, C l j * (1 / a * v.gamma (pfIx i 1) l) - pfA eta alpha 0 * v.theta j) =
              fun j => 1 / a * (∑ l, C l j * v.gamma (pfIx i 1) l - pfA eta alpha 1 * v.theta j) := by
            funext j
            rw [mul_sub, Finset.mul_sum]
            congr 1
            · exact Finset.sum_congr rfl fun l _ => by ring
            · have hA : pfA eta alpha 1 = -a := by simp [pfA, ha']; ring
              have hA0 : pfA eta alpha 0 = -1 := by simp [pfA]
              rw [hA, hA0]
              field_simp
          rw [e1, pnorm_scale hq (by positivity)]
          exact (mul_le_of_le_one_left (pnorm_nonneg _ _) (by rw [div_le_one (by linarith)]; exact ha1')).trans k2
      · simp only [one_ne_zero, if_false]
        exact ⟨(add_le_add_left (add_le_add_left hB1 _) _).trans k1, k2, k3⟩

/-- when the multipliers of one piece are replaced by others with the same effect, the constraints still hold -/
theorem piece_same {C : Fin J → Fin m → ℝ} {e : Fin J → ℝ} {g g' : Fin J → ℝ}
    (h : ∑ l, g' l • ((fun j => C l j, e l) : (Fin m → ℝ) × ℝ) = ∑ l, g l • ((fun j => C l j, e l) : (Fin m → ℝ) × ℝ)) :
    (∀ j, ∑ l, C l j * g' l = ∑ l, C l j * g l) ∧ ∑ l, g' l * e l = ∑ l, g l * e l := by
  have h1 := congrArg Prod.fst h
  have h2 := congrArg Prod.snd h
  simp only [Prod.fst_sum, Prod.snd_sum, Prod.smul_fst, Prod.smul_snd, smul_eq_mul] at h1 h2
  refine ⟨fun j => ?_, h2⟩
  have := congrFun h1 j
  simp only [Finset.sum_apply, Pi.smul_apply, smul_eq_mul] at this
  rw [Finset.sum_congr rfl fun l _ => mul_comm (C l j) (g' l), Finset.sum_congr rfl fun l _ => mul_comm (C l j) (g l)]
  exact this

theorem cone_norm {C : Fin J → Fin m → ℝ} {e : Fin J → ℝ} {g : Fin J → ℝ} {D : ℝ} (hD : 0 ≤ D) (h1 : ∀ j, |∑ l, C l j * g l| ≤ D)
    (h2 : |∑ l, g l * e l| ≤ D) : ‖∑ l, g l • ((fun j => C l j, e l) : (Fin m → ℝ) × ℝ)‖ ≤ D := by
  rw [Prod.norm_def]
  refine max_le ?_ ?_
  · rw [Prod.fst_sum, pi_norm_le_iff_of_nonneg hD]
    intro j
    simp only [Finset.sum_apply, Prod.smul_fst, Pi.smul_apply, smul_eq_mul, Real.norm_eq_abs]
    rw [Finset.sum_congr rfl fun l _ => mul_comm (g l) (C l j)]
    exact h1 j
  · simp only [Prod.snd_sum, Prod.smul_snd, smul_eq_mul, Real.norm_eq_abs]
    exact h2

/-- feasible points no worse than a reference value can be brought into a box -/
theorem bounded_point {p q : XNum ℝ} (hpq : Conj p q) (hN : 0 < N) {C : Fin J → Fin m → ℝ} {d : Fin J → ℝ} {eta alpha rho : ℝ}
    (he : 0 ≤ eta) (ha : 0 < alpha) (ha1 : alpha ≤ 1) (hr : 0 < rho) {samples : Fin N → Fin m → ℝ}
    (hx : ∀ i l, ∑ j, C l j * samples i j ≤ d l) (R0 : ℝ) :
    ∃ b : ℝ, ∀ v, (portfolioProgram C d q eta alpha rho samples).Feasible v →
      (portfolioProgram C d q eta alpha rho samples).objective v ≤ R0 →
      ∃ v' : PfVars N m J, (portfolioProgram C d q eta alpha rho samples).Feasible v' ∧
        (portfolioProgram C d q eta alpha rho samples).objective v' = (portfolioProgram C d q eta alpha rho samples).objective v ∧
        |v'.lam| ≤ b ∧ |v'.tau| ≤ b ∧ (∀ j, |v'.theta j| ≤ b) ∧ (∀ i, |v'.s i| ≤ b) ∧ ∀ t l, |v'.gamma t l| ≤ b := by
  classical
  have hq := hpq.normOrder_right
  have hN' : (0 : ℝ) < N := by exact_mod_cast hN
  obtain ⟨Bq, hBq, hcoord⟩ := coord_le (m := m) hpq.symm
  have hcone := fun i => cone_bounded (E := (Fin m → ℝ) × ℝ) fun l : Fin J => (fun j => C l j, d l - ∑ j, C l j * samples i j)
  choose B hB0 hB using hcone
  set R := ∑ i, ∑ j, |samples i j| with hR
  have hR0 : 0 ≤ R := Finset.sum_nonneg fun i _ => Finset.sum_nonneg fun j _ => abs_nonneg _
  set T := R + |(R0 + R) / eta| with hT
  set L := |(R0 + (1 + eta) * R) / rho| with hL
  set Sm := (1 + eta) * R + N * |R0 + (1 + eta) * R| with hSm
  set A1 := |pfA eta alpha 0| + |pfA eta alpha 1| with hA1
  set B1 := |pfB eta alpha 0| + |pfB eta alpha 1| with hB1
  set D := (Bq * L + A1) + (Sm + (B1 * T + A1 * R)) with hD
  have hT0 : 0 ≤ T := by positivity
  have hSm0 : 0 ≤ Sm := by positivity
  have hD0 : 0 ≤ D := by positivity
  have hAk : ∀ k, |pfA eta alpha k| ≤ A1 := by
    intro k
    fin_cases k
    · exact le_add_of_nonneg_right (abs_nonneg _)
    · exact le_add_of_nonneg_left (abs_nonneg _)
  have hBk : ∀ k, |pfB eta alpha k| ≤ B1 := by
    intro k
    fin_cases k
    · exact le_add_of_nonneg_right (abs_nonneg _)
    · exact le_add_of_nonneg_left (abs_nonneg _)
  refine ⟨L + T + 1 + Sm + (∑ i, B i) * D, fun v0 hv0 hobj0 => ?_⟩
  obtain ⟨v, hv, hobj, htau, htau0⟩ := clamp_point hq he ha ha1 hx hv0
  rw [← hR] at htau
  rw [← hobj] at hobj0
  obtain ⟨hsx, hl, hp⟩ := (portfolio_feasible hq v).1 hv
  have hobj1 : v.lam * rho + 1 / (N : ℝ) * ∑ i, v.s i ≤ R0 := hobj0
  have hret := fun i => simplex_return hsx samples i
  rw [← hR] at hret
  have ht : ∀ i k, 0 ≤ ∑ l, v.gamma (pfIx i k) l * (d l - ∑ j, C l j * samples i j) := fun i k =>
    Finset.sum_nonneg fun l _ => mul_nonneg ((hp i k).2.2 l) (sub_nonneg.2 (hx i l))
  have hs : ∀ i, -((1 + eta) * R) ≤ v.s i := fun i =>
    pieces_lower he ha ha1 (hret i) (ht i 0) (ht i 1) (hp i 0).1 (hp i 1).1
  have hlr : 0 ≤ v.lam * rho := by positivity
  have havg : ∀ c : ℝ, (∀ i, c ≤ v.s i) → c ≤ 1 / (N : ℝ) * ∑ i, v.s i := by
    intro c hc
    have := Finset.card_nsmul_le_sum Finset.univ v.s c fun i _ => hc i
    rw [Finset.card_univ, Fintype.card_fin, nsmul_eq_mul] at this
    rw [one_div, inv_mul_eq_div, le_div_iff₀ hN']
    linarith
  have hlam : v.lam ≤ L := by
    refine le_trans ?_ (le_abs_self _)
    rw [le_div_iff₀ hr]
    have := havg _ hs
    linarith
  have hsu : ∀ i, |v.s i| ≤ Sm := by
    intro i
    rw [abs_le]
    refine ⟨by have := hs i; have : 0 ≤ (N : ℝ) * |R0 + (1 + eta) * R| := by positivity
               rw [hSm]; linarith, ?_⟩
    have h1 : v.s i + (1 + eta) * R ≤ ∑ i, (v.s i + (1 + eta) * R) :=
      Finset.single_le_sum (f := fun i => v.s i + (1 + eta) * R) (fun i _ => by have := hs i; linarith) (Finset.mem_univ i)
    rw [Finset.sum_add_distrib, Finset.sum_const, Finset.card_univ, Fintype.card_fin, nsmul_eq_mul] at h1
    have h2 : ∑ i, v.s i ≤ N * R0 := by
      have : 1 / (N : ℝ) * ∑ i, v.s i ≤ R0 := by linarith
      rw [one_div, inv_mul_eq_div, div_le_iff₀ hN'] at this
      linarith
    have h3 : (N : ℝ) * (R0 + (1 + eta) * R) ≤ N * |R0 + (1 + eta) * R| := mul_le_mul_of_nonneg_left (le_abs_self _) hN'.le
    have h4 : 0 ≤ (1 + eta) * R := by positivity
    rw [hSm]
    nlinarith
  have htauT : |v.tau| ≤ T := by
    rcases he.eq_or_lt with h | h
    · rw [htau0 h.symm, abs_zero]
      exact hT0
    · rw [abs_le]
      refine ⟨by have := abs_nonneg ((R0 + R) / eta); rw [hT]; linarith, ?_⟩
      have h1 : ∀ i, eta * v.tau - R ≤ v.s i := by
        intro i
        have h1 := (hp i 0).1
        have h2 := ht i 0
        have h3 := (abs_le.1 (hret i)).2
        have hA0 : pfA eta alpha 0 = -1 := by simp [pfA]
        have hB0 : pfB eta alpha 0 = eta := by simp [pfB]
        rw [hA0, hB0] at h1
        linarith
      have h2 := havg _ h1
      have h3 : v.tau ≤ (R0 + R) / eta := by
        rw [le_div_iff₀ h]
        linarith
      have := le_abs_self ((R0 + R) / eta)
      rw [hT]
      linarith
  have hth : ∀ j, |v.theta j| ≤ 1 := fun j => by
    rw [abs_of_nonneg (hsx.1 j), ← hsx.2]
    exact Finset.single_le_sum (f := v.theta) (fun k _ => hsx.1 k) (Finset.mem_univ j)
  have hcol : ∀ i k j, |∑ l, C l j * v.gamma (pfIx i k) l| ≤ D := by
    intro i k j
    have h1 := (hcoord _ j).trans (mul_le_mul_of_nonneg_left ((hp i k).2.1.trans hlam) hBq)
    have h2 : |pfA eta alpha k * v.theta j| ≤ A1 := by
      rw [abs_mul]
      calc _ ≤ A1 * 1 := mul_le_mul (hAk k) (hth j) (abs_nonneg _) (by positivity)
        _ = A1 := mul_one _
    have h3 : |∑ l, C l j * v.gamma (pfIx i k) l| ≤
        |∑ l, C l j * v.gamma (pfIx i k) l - pfA eta alpha k * v.theta j| + |pfA eta alpha k * v.theta j| := by
      have := abs_add_le (∑ l, C l j * v.gamma (pfIx i k) l - pfA eta alpha k * v.theta j) (pfA eta alpha k * v.theta j)
      rwa [sub_add_cancel] at this
    have h4 : 0 ≤ Sm + (B1 * T + A1 * R) := by positivity
    rw [hD]
    linarith
  have hrow : ∀ i k, |∑ l, v.gamma (pfIx i k) l * (d l - ∑ j, C l j * samples i j)| ≤ D := by
    intro i k
    rw [abs_of_nonneg (ht i k)]
    have h1 := (hp i k).1
    have h2 : |pfB eta alpha k * v.tau| ≤ B1 * T := by
      rw [abs_mul]
      exact mul_le_mul (hBk k) htauT (abs_nonneg _) (by positivity)
    have h3 : |pfA eta alpha k * ∑ j, v.theta j * samples i j| ≤ A1 * R := by
      rw [abs_mul]
      exact mul_le_mul (hAk k) (hret i) (abs_nonneg _) (by positivity)
    have h4 := (abs_le.1 h2).1
    have h5 := (abs_le.1 h3).1
    have h6 := (abs_le.1 (hsu i)).2
    have h7 : 0 ≤ Bq * L + A1 := by positivity
    rw [hD]
    linarith
  have hnew := fun i k => hB i (v.gamma (pfIx i k)) (hp i k).2.2
  choose g hg0 hg1 hg2 using hnew
  have hgb : ∀ i k l, g i k l ≤ (∑ i, B i) * D := by
    intro i k l
    refine (hg2 i k l).trans (mul_le_mul ?_ (cone_norm hD0 (hcol i k) (hrow i k)) (norm_nonneg _) (Finset.sum_nonneg fun i _ => hB0 i))
    exact Finset.single_le_sum (fun i _ => hB0 i) (Finset.mem_univ i)
  have hBD : 0 ≤ (∑ i, B i) * D := mul_nonneg (Finset.sum_nonneg fun i _ => hB0 i) hD0
  have hL0 : 0 ≤ L := abs_nonneg _
  set g' : Fin (N * 2) → Fin J → ℝ := fun t => g ⟨t.1 / 2, by omega⟩ ⟨t.1 % 2, by omega⟩ with hg'
  have hg'e : ∀ i k, g' (pfIx i k) = g i k := by
    intro i k
    have h1 : (⟨(pfIx i k).1 / 2, by have := (pfIx i k).2; omega⟩ : Fin N) = i := Fin.ext (by simp only [pfIx]; omega)
    have h2 : (⟨(pfIx i k).1 % 2, by omega⟩ : Fin 2) = k := Fin.ext (by simp only [pfIx]; omega)
    show g _ _ = _
    rw [h1, h2]
  refine ⟨{ v with gamma := g' }, ?_, hobj, ?_, ?_, ?_, ?_, ?_⟩
  · rw [portfolio_feasible hq]
    refine ⟨hsx, hl, fun i k => ?_⟩
    obtain ⟨k1, k2⟩ := piece_same (hg1 i k)
    simp only [hg'e, k1, k2]
    exact ⟨(hp i k).1, (hp i k).2.1, hg0 i k⟩
  · rw [abs_of_nonneg hl]
    linarith
  · linarith
  · intro j
    have := hth j
    linarith
  · intro i
    have := hsu i
    linarith
  · intro t l
    simp only [hg']
    rw [abs_of_nonneg (hg0 _ _ _)]
    have := hgb ⟨t.1 / 2, by omega⟩ ⟨t.1 % 2, by omega⟩ l
    linarith

/-- the program has an optimal solution whenever the polytope contains the sample -/
theorem polytope_min_exists {p q : XNum ℝ} (hpq : Conj p q) (hN : 0 < N) (hm : 0 < m) {C : Fin J → Fin m → ℝ} {d : Fin J → ℝ}
    {eta alpha rho : ℝ} (he : 0 ≤ eta) (ha : 0 < alpha) (ha1 : alpha ≤ 1) (hr : 0 ≤ rho) {samples : Fin N → Fin m → ℝ}
    (hx : ∀ i l, ∑ j, C l j * samples i j ≤ d l) : ∃ v, (portfolioProgram C d q eta alpha rho samples).Optimal v := by
  classical
  have hq := hpq.normOrder_right
  have hN' : (0 : ℝ) < N := by exact_mod_cast hN
  rcases hr.eq_or_lt with h0 | hr
  · subst h0
    obtain ⟨theta0, tau0, ht0, hmin⟩ := pf_min_exists hq hm (rho := 0) he ha ha1 samples
    obtain ⟨h1, h2⟩ := pfPoint_feasible hq (C := C) (d := d) (rho := 0) he ha samples ht0 tau0
    refine ⟨_, h1, fun w hw => ?_⟩
    obtain ⟨hsx, hl, hp⟩ := (portfolio_feasible hq w).1 hw
    rw [h2]
    refine (hmin w.theta w.tau hsx).trans ?_
    simp only [pfValue, portfolioProgram, zero_mul, add_zero, mul_zero, zero_add, avg]
    rw [div_eq_inv_mul, one_div]
    refine mul_le_mul_of_nonneg_left (Finset.sum_le_sum fun i _ => ?_) (by positivity)
    rw [meanCVaR_eq]
    have ht : ∀ k, 0 ≤ ∑ l, w.gamma (pfIx i k) l * (d l - ∑ j, C l j * samples i j) := fun k =>
      Finset.sum_nonneg fun l _ => mul_nonneg ((hp i k).2.2 l) (sub_nonneg.2 (hx i l))
    refine max_le ?_ ?_
    · have := (hp i 0).1; have := ht 0; linarith
    · have := (hp i 1).1; have := ht 1; linarith
  · have ht0 : InSimplex (fun j : Fin m => if j = ⟨0, hm⟩ then (1 : ℝ) else 0) :=
      ⟨fun j => by beta_reduce; split_ifs <;> norm_num, by simp⟩
    obtain ⟨h1, -⟩ := pfPoint_feasible hq (C := C) (d := d) (rho := rho) he ha samples ht0 0
    set v0 : PfVars N m J := pfPoint q eta alpha samples (fun j : Fin m => if j = ⟨0, hm⟩ then (1 : ℝ) else 0) 0 with hv0
    obtain ⟨b, hb⟩ := bounded_point hpq hN he ha ha1 hr hx ((portfolioProgram C d q eta alpha rho samples).objective v0)
    let E := ℝ × ℝ × (Fin m → ℝ) × (Fin N → ℝ) × (Fin (N * 2) → Fin J → ℝ)
    let mk : E → PfVars N m J := fun x => ⟨x.1, x.2.2.2.1, x.2.2.1, x.2.1, x.2.2.2.2⟩
    let K : Set E := {x | (portfolioProgram C d q eta alpha rho samples).Feasible (mk x)} ∩
      Set.Icc ((-b, -b, fun _ => -b, fun _ => -b, fun _ _ => -b) : E) (b, b, fun _ => b, fun _ => b, fun _ _ => b)
    have hKc : IsCompact K := by
      refine isCompact_Icc.inter_left ?_
      have e : {x : E | (portfolioProgram C d q eta alpha rho samples).Feasible (mk x)} =
          {x | (∀ j, 0 ≤ x.2.2.1 j) ∧ ∑ j, x.2.2.1 j = 1} ∩ ({x | 0 ≤ x.1} ∩ ⋂ i, ⋂ k,
            ({x | pfB eta alpha k * x.2.1 + pfA eta alpha k * (∑ j, x.2.2.1 j * samples i j)
              + ∑ l, x.2.2.2.2 (pfIx i k) l * (d l - ∑ j, C l j * samples i j) ≤ x.2.2.2.1 i} ∩
            ({x | pnorm q (fun j => (∑ l, C l j * x.2.2.2.2 (pfIx i k) l) - pfA eta alpha k * x.2.2.1 j) ≤ x.1} ∩
              ⋂ l, {x | 0 ≤ x.2.2.2.2 (pfIx i k) l}))) := by
        ext x
        simp only [Set.mem_ofPred_eq, portfolio_feasible hq, Set.mem_inter_iff, Set.mem_iInter, mk]
        rfl
      rw [e]
      refine IsClosed.inter ?_ (IsClosed.inter (isClosed_le continuous_const (by fun_prop))
        (isClosed_iInter fun i => isClosed_iInter fun k => IsClosed.inter (isClosed_le (by fun_prop) (by fun_prop))
          (IsClosed.inter (isClosed_le ((pnorm_continuous hq).comp (by fun_prop)) (by fun_prop))
            (isClosed_iInter fun l => isClosed_le continuous_const (by fun_prop)))))
      have : {x : E | (∀ j, 0 ≤ x.2.2.1 j) ∧ ∑ j, x.2.2.1 j = 1} = (⋂ j, {x | 0 ≤ x.2.2.1 j}) ∩ {x | ∑ j, x.2.2.1 j = 1} := by
        ext x; simp
      rw [this]
      exact IsClosed.inter (isClosed_iInter fun j => isClosed_le continuous_const (by fun_prop)) (isClosed_eq (by fun_prop) continuous_const)
    have hin : ∀ v, (portfolioProgram C d q eta alpha rho samples).Feasible v →
        (portfolioProgram C d q eta alpha rho samples).objective v ≤ (portfolioProgram C d q eta alpha rho samples).objective v0 →
        ∃ x ∈ K, (portfolioProgram C d q eta alpha rho samples).objective (mk x) = (portfolioProgram C d q eta alpha rho samples).objective v := by
      intro v hv hle
      obtain ⟨v', h1, h2, h3, h4, h5, h6, h7⟩ := hb v hv hle
      refine ⟨(v'.lam, v'.tau, v'.theta, v'.s, v'.gamma), ⟨h1, ?_⟩, h2⟩
      simp only [abs_le] at h3 h4 h5 h6 h7
      exact ⟨⟨h3.1, h4.1, fun j => (h5 j).1, fun i => (h6 i).1, fun t l => (h7 t l).1⟩,
        ⟨h3.2, h4.2, fun j => (h5 j).2, fun i => (h6 i).2, fun t l => (h7 t l).2⟩⟩
    have hcont : Continuous fun x : E => (portfolioProgram C d q eta alpha rho samples).objective (mk x) := by
      simp only [portfolioProgram, mk]
      fun_prop
    obtain ⟨x0, hx0, hx0e⟩ := hin v0 h1 le_rfl
    obtain ⟨x, hxK, hmin⟩ := hKc.exists_isMinOn ⟨x0, hx0⟩ hcont.continuousOn
    refine ⟨mk x, hxK.1, fun w hw => ?_⟩
    rcases le_total ((portfolioProgram C d q eta alpha rho samples).objective w) ((portfolioProgram C d q eta alpha rho samples).objective v0) with h | h
    · obtain ⟨y, hy, hye⟩ := hin w hw h
      rw [← hye]
      exact hmin hy
    · have := hmin hx0
      simp only [Set.mem_ofPred_eq] at this
      rw [hx0e] at this
      exact this.trans h

/-- C63. For every polytope that contains the sample, whatever the dedicated portfolio solver returns with an exact external solver is a
portfolio and a threshold whose worst-case expected loss over the ball is the returned robust value, and no other portfolio and
threshold have a smaller worst-case expected loss. -/
theorem C63_optimal_polytope {solve : Oracle} (hs : ExactSolver solve) {p : XNum ℝ} (hp : NormOrder p) (hN : 0 < N) (hm : 0 < m)
    {C : Fin J → Fin m → ℝ} {d : Fin J → ℝ} {eta alpha rho : ℝ} (hr : 0 ≤ rho) {samples : Fin N → Fin m → ℝ}
    (hx : ∀ i l, ∑ j, C l j * samples i j ≤ d l) {r : SolverResult SVal} (h : portfolioDedicated solve C d p eta alpha rho samples = .ok r) :
    ∃ (theta : Fin m → ℝ) (tau lam V : ℝ),
      r.toList = .ok [some (.vec (List.ofFn theta)), some (.vec [tau]), some (.vec [lam]), some (.num V)] ∧ InSimplex theta ∧
      IsLUB {e | ∃ Q ∈ AssetBall C d p samples rho, e = cvarRisk eta alpha theta tau Q} V ∧
      ∀ theta' tau', InSimplex theta' → ∀ M, (∀ Q ∈ AssetBall C d p samples rho, cvarRisk eta alpha theta' tau' Q ≤ M) → V ≤ M := by
  obtain ⟨theta, tau, lam, V, hl, hsx, -, hub, q, hq, hmin⟩ := C63_solver hs hp h
  have hpq := pfQ_conj hp hq
  have hleast : ∀ theta' tau', InSimplex theta' → ∀ M, (∀ Q ∈ AssetBall C d p samples rho, cvarRisk eta alpha theta' tau' Q ≤ M) → V ≤ M :=
    fun theta' tau' ht' M hM => polytope_le hpq hN hm hr hx ht' tau' (fun v hv _ _ => hmin v hv) hM
  refine ⟨theta, tau, lam, V, hl, hsx, ⟨?_, fun M hM => hleast theta tau hsx M fun Q hQ => hM ⟨Q, hQ, rfl⟩⟩, hleast⟩
  rintro _ ⟨Q, hQ, rfl⟩
  exact hub Q hQ

/-- C63. For every polytope that contains the sample and valid risk parameters, the dedicated solver with an exact external solver
returns, so that `C63_optimal_polytope` describes what it returns. -/
theorem C63_polytope_returns {solve : Oracle} (hs : ExactSolver solve) {p q : XNum ℝ} (hp : NormOrder p) (hq : pfQ p = .ok q) (hN : 0 < N)
    (hm : 0 < m) {C : Fin J → Fin m → ℝ} {d : Fin J → ℝ} {eta alpha rho : ℝ} (he : 0 ≤ eta) (ha : 0 < alpha) (ha1 : alpha ≤ 1) (hr : 0 ≤ rho)
    {samples : Fin N → Fin m → ℝ} (hx : ∀ i l, ∑ j, C l j * samples i j ≤ d l) :
    ∃ r, portfolioDedicated solve C d p eta alpha rho samples = .ok r := by
  have hpq := pfQ_conj hp hq
  obtain ⟨v, hv⟩ := (hs _ _).2 (polytope_min_exists hpq hN hm (rho := rho) he ha ha1 hr hx)
  unfold portfolioDedicated
  rw [if_neg ha.ne', if_neg (by omega), hq]
  simp only [ok_bind, if_pos (cpOrder_of hpq.normOrder_right), hv]
  exact ⟨_, rfl⟩

/-- the hypotheses are met: two assets whose returns sum to a number between -1 and 1, sup-norm cost -/
example : ∃ solve : Oracle, ExactSolver solve ∧ ∃ r, portfolioDedicated (N := 2) (m := 2) (J := 2) solve (fun l _ => if l = 0 then 1 else -1) (fun _ => 1)
    .pinf 1 (1 / 2) (1 / 10) (fun i j => if i = j then 1 / 2 else -1 / 4) = .ok r := by
  obtain ⟨solve, hs⟩ := exactSolver_exists
  refine ⟨solve, hs, C63_polytope_returns hs (q := .fin 1) (.inr rfl) rfl (by norm_num) (by norm_num) (by norm_num) (by norm_num) (by norm_num)
    (by norm_num) fun i l => ?_⟩
  fin_cases i <;> fin_cases l <;> simp [Fin.sum_univ_two] <;> norm_num

end Skwdro
