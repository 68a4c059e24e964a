import Verif.Props.EqualWeights
import Verif.Props.OneSolution
import Mathlib.Analysis.Convex.SpecificFunctions.Basic

/-!
# The dedicated portfolio has one solution (C144)
-/

namespace Skwdro
open Spec Tensor

variable {n d m : ℕ}

/-- the norms of finite order above one are strictly convex on directions of non-negative entries -/
theorem pnorm_strict {q : ℝ} (hq : 1 < q) {v w : Fin m → ℝ} (hv : ∀ j, 0 ≤ v j) (hw : ∀ j, 0 ≤ w j) (ha : 0 < pnorm (.fin q) v)
    (hb : 0 < pnorm (.fin q) w) (h : (pnorm (.fin q) v + pnorm (.fin q) w) / 2 ≤ pnorm (.fin q) (mid v w)) :
    ∀ j, pnorm (.fin q) w * v j = pnorm (.fin q) v * w j := by
  have hq0 : 0 < q := by linarith
  have hS : ∀ u : Fin m → ℝ, (∀ j, 0 ≤ u j) → pnorm (.fin q) u ^ q = ∑ j, u j ^ q := by
    intro u hu
    simp only [pnorm]
    rw [← Real.rpow_mul (Finset.sum_nonneg fun j _ => Real.rpow_nonneg (abs_nonneg _) _), one_div_mul_cancel hq0.ne', Real.rpow_one]
    exact Finset.sum_congr rfl fun j _ => by rw [abs_of_nonneg (hu j)]
  have eS := hS v hv
  have eT := hS w hw
  have eM := hS (mid v w) fun j => by have := hv j; have := hw j; simp only [mid]; linarith
  set a := pnorm (.fin q) v
  set b := pnorm (.fin q) w
  by_contra hne
  push Not at hne
  obtain ⟨j0, hj0⟩ := hne
  have hab : 0 < a + b := by linarith
  have hsc := strictConvexOn_rpow hq
  have ht : a / (a + b) + b / (a + b) = 1 := by field_simp
  have ha0 : 0 < a / (a + b) := by positivity
  have hb0 : 0 < b / (a + b) := by positivity
  have hmid : ∀ j, mid v w j = (a + b) / 2 * (a / (a + b) * (v j / a) + b / (a + b) * (w j / b)) := by
    intro j
    simp only [mid]
    field_simp
  have hu0 : ∀ j, 0 ≤ a / (a + b) * (v j / a) + b / (a + b) * (w j / b) := by
    intro j
    have := hv j
    have := hw j
    positivity
  have hle : ∀ j, (a / (a + b) * (v j / a) + b / (a + b) * (w j / b)) ^ q ≤ a / (a + b) * (v j / a) ^ q + b / (a + b) * (w j / b) ^ q := by
    intro j
    have := hsc.convexOn.2 (x := v j / a) (y := w j / b) (div_nonneg (hv j) ha.le) (div_nonneg (hw j) hb.le) ha0.le hb0.le ht
    simpa only [smul_eq_mul] using this
  have hlt : (a / (a + b) * (v j0 / a) + b / (a + b) * (w j0 / b)) ^ q < a / (a + b) * (v j0 / a) ^ q + b / (a + b) * (w j0 / b) ^ q := by
    have := hsc.2 (x := v j0 / a) (y := w j0 / b) (div_nonneg (hv j0) ha.le) (div_nonneg (hw j0) hb.le) (fun e => hj0 (by
      field_simp at e
      linarith)) ha0 hb0 ht
    simpa only [smul_eq_mul] using this
  have hone : ∀ (u : Fin m → ℝ) (c : ℝ), (∀ j, 0 ≤ u j) → 0 < c → c ^ q = ∑ j, u j ^ q → ∑ j, (u j / c) ^ q = 1 := by
    intro u c hu hc e
    simp only [Real.div_rpow (hu _) hc.le]
    rw [← Finset.sum_div, ← e, div_self (Real.rpow_pos_of_pos hc q).ne']
  have hsum : ∑ j, (a / (a + b) * (v j / a) + b / (a + b) * (w j / b)) ^ q < 1 := by
    refine (Finset.sum_lt_sum (fun j _ => hle j) ⟨j0, Finset.mem_univ _, hlt⟩).trans_eq ?_
    rw [Finset.sum_add_distrib, ← Finset.mul_sum, ← Finset.mul_sum, hone v a hv ha eS, hone w b hw hb eT]
    simpa using ht
  have hpos : 0 < (a + b) / 2 := by linarith
  have hfin : pnorm (.fin q) (mid v w) ^ q < ((a + b) / 2) ^ q := by
    rw [eM]
    simp only [hmid, Real.mul_rpow hpos.le (hu0 _)]
    rw [← Finset.mul_sum]
    exact mul_lt_of_lt_one_right (Real.rpow_pos_of_pos hpos q) hsum
  exact absurd (Real.rpow_le_rpow hpos.le h hq0.le) (not_le.2 hfin)

theorem simplex_pnorm_pos {q : ℝ} (hq : 1 < q) {w : Fin m → ℝ} (hw : InSimplex w) : 0 < pnorm (.fin q) w := by
  have h : ∃ j ∈ (Finset.univ : Finset (Fin m)), 0 < w j := by
    by_contra h
    push Not at h
    have : ∑ j, w j ≤ 0 := Finset.sum_nonpos fun j hj => h j hj
    rw [hw.2] at this
    linarith
  obtain ⟨j, hj, h⟩ := h
  simp only [pnorm]
  refine Real.rpow_pos_of_pos ?_ _
  refine Finset.sum_pos' (fun j _ => Real.rpow_nonneg (abs_nonneg _) _) ⟨j, hj, Real.rpow_pos_of_pos (abs_pos.2 h.ne') _⟩

theorem mid_simplex {v w : Fin m → ℝ} (hv : InSimplex v) (hw : InSimplex w) : InSimplex (mid v w) := by
  refine ⟨fun j => ?_, ?_⟩
  · have := hv.1 j
    have := hw.1 j
    simp only [mid]
    linarith
  · simp only [mid]
    rw [← Finset.sum_div, Finset.sum_add_distrib, hv.2, hw.2]
    norm_num

theorem meanCVaR_mid (eta alpha r r' t t' : ℝ) :
    meanCVaR eta alpha ((r + r') / 2) ((t + t') / 2) ≤ (meanCVaR eta alpha r t + meanCVaR eta alpha r' t') / 2 := by
  unfold meanCVaR
  have h1 := le_max_left (-r + eta * t) ((-1 - eta / alpha) * r + eta * (1 - 1 / alpha) * t)
  have h2 := le_max_right (-r + eta * t) ((-1 - eta / alpha) * r + eta * (1 - 1 / alpha) * t)
  have h3 := le_max_left (-r' + eta * t') ((-1 - eta / alpha) * r' + eta * (1 - 1 / alpha) * t')
  have h4 := le_max_right (-r' + eta * t') ((-1 - eta / alpha) * r' + eta * (1 - 1 / alpha) * t')
  refine max_le ?_ ?_ <;> linarith

/-- risk plus radius times a strictly convex norm has one minimiser among weights -/
theorem portfolio_unique {q : ℝ} (hq : 1 < q) {eta alpha rho : ℝ} (he : 0 ≤ eta) (ha : 0 < alpha) (hr : 0 < rho) {X : Fin n → Fin m → ℝ}
    {v w : Fin m → ℝ} {t s : ℝ} (hv : InSimplex v) (hw : InSimplex w)
    (ov : ∀ w' tau', InSimplex w' → pfValue (.fin q) eta alpha rho X v t ≤ pfValue (.fin q) eta alpha rho X w' tau')
    (ow : ∀ w' tau', InSimplex w' → pfValue (.fin q) eta alpha rho X w s ≤ pfValue (.fin q) eta alpha rho X w' tau') : v = w := by
  have h1 := ov (mid v w) ((t + s) / 2) (mid_simplex hv hw)
  have h2 := ow (mid v w) ((t + s) / 2) (mid_simplex hv hw)
  have hA : 0 < rho * (1 + eta / alpha) := by positivity
  have havg : avg (fun i => meanCVaR eta alpha (∑ j, mid v w j * X i j) ((t + s) / 2)) ≤
      (avg (fun i => meanCVaR eta alpha (∑ j, v j * X i j) t) + avg (fun i => meanCVaR eta alpha (∑ j, w j * X i j) s)) / 2 := by
    unfold avg
    rw [← add_div, ← Finset.sum_add_distrib, div_right_comm, Finset.sum_div (a := (2 : ℝ))]
    refine div_le_div_of_nonneg_right (Finset.sum_le_sum fun i _ => ?_) (Nat.cast_nonneg (α := ℝ) n)
    refine le_trans (le_of_eq ?_) (meanCVaR_mid eta alpha (∑ j, v j * X i j) (∑ j, w j * X i j) t s)
    congr 1
    rw [← Finset.sum_add_distrib, Finset.sum_div]
    exact Finset.sum_congr rfl fun j _ => by simp only [mid]; ring
  have hn : (pnorm (.fin q) v + pnorm (.fin q) w) / 2 ≤ pnorm (.fin q) (mid v w) := by
    unfold pfValue at h1 h2
    simp only [← mul_assoc] at h1 h2
    refine le_of_mul_le_mul_left ?_ hA
    linarith
  have hp := pnorm_strict hq hv.1 hw.1 (simplex_pnorm_pos hq hv) (simplex_pnorm_pos hq hw) hn
  have hs : pnorm (.fin q) w = pnorm (.fin q) v := by
    have := Finset.sum_congr (rfl : (Finset.univ : Finset (Fin m)) = _) fun j _ => hp j
    rwa [← Finset.mul_sum, ← Finset.mul_sum, hv.2, hw.2, mul_one, mul_one] at this
  funext j
  have := hp j
  rw [hs] at this
  exact mul_left_cancel₀ (simplex_pnorm_pos hq hv).ne' this

section

variable {G : Type} {ext : TorchExt G} {solve solve' : Oracle} {P : EstParams} {g g' : G}

/-- **C144** With a cost of power two or more, a positive radius and no bounds on the returns, the dedicated portfolio has one solution: the weights
stored do not depend on the external solver, as long as it is exact, nor on the state of the random generator. -/
theorem C144_one_portfolio {q p : ℕ} (hq : 2 ≤ q) (hs : ExactSolver solve) (hs' : ExactSolver solve') {grads grads' : Autograd d}
    {train train' : Trainer d} {p0 p0' : Portfolio} (hP : P.solver = "dedicated".toList)
    (hc : P.cost = joinDash ["t".toList, "NC".toList, decimal q, decimal p]) {rho : ℝ} (hR : P.rho = .num rho) (hr : 0 < rho) (he : 0 ≤ P.eta)
    (ha : 0 < P.alpha) (ha1 : P.alpha ≤ 1) (hg : P.solver_reg ≠ none) (hn : 0 < n) (hd : 0 < d) (X : Fin n → Fin d → ℝ) :
    ∃ (f f' : Fitted d) (wT wT' : Tensor ℝ) (w : Fin d → ℝ), portfolioFit ext grads solve train p0 P (zeroC d) zeroD X g = .ok f ∧
      portfolioFit ext grads' solve' train' p0' P (zeroC d) zeroD X g' = .ok f' ∧ f.coef = some wT ∧ f'.coef = some wT' ∧
      IsVec wT w ∧ IsVec wT' w := by
  have hq2 : (2 : ℝ) ≤ q := by exact_mod_cast hq
  have hq' : pfQ (.fin (q : ℝ)) = .ok (.fin (1 / (1 - 1 / (q : ℝ)))) := by
    simp only [pfQ]
    rw [if_neg (by linarith), if_neg (by linarith)]
  have h1q : 1 < 1 / (1 - 1 / (q : ℝ)) := by
    have h0 : 0 < 1 / (q : ℝ) := by positivity
    have h1 : 1 / (q : ℝ) < 1 := by rw [div_lt_one] <;> linarith
    rw [lt_div_iff₀] <;> linarith
  obtain ⟨f, wT, w, tau, h1, h2, h3, h4, h5⟩ := portfolio_closed (ext := ext) (g := g) (by omega) hq' hs (grads := grads) (train := train)
    (p0 := p0) hP hc hR hr.le he ha ha1 hg hn hd X
  obtain ⟨f', wT', w', tau', h1', h2', h3', h4', h5'⟩ := portfolio_closed (ext := ext) (g := g') (by omega) hq' hs' (grads := grads')
    (train := train') (p0 := p0') hP hc hR hr.le he ha ha1 hg hn hd X
  have := portfolio_unique h1q he ha hr h4 h4' h5 h5'
  subst this
  exact ⟨f, f', wT, wT', w, h1, h1', h2, h2', h3, h3'⟩

/-- some exact solver returns a given solution of a given program -/
theorem exactSolver_pick {V0 : Type} {Q0 : Program V0} {v0 : V0} (h0 : Q0.Optimal v0) : ∃ solve : Oracle, ExactSolver solve ∧ solve V0 Q0 = some v0 := by
  classical
  obtain ⟨base, hb⟩ := exactSolver_exists
  refine ⟨fun V Q => if h : ∃ e : V0 = V, e ▸ Q0 = Q then some (h.choose ▸ v0) else base V Q, fun V Q => ⟨fun v hv => ?_, fun hex => ?_⟩, ?_⟩
  · dsimp only at hv
    split_ifs at hv with h
    · obtain ⟨e, he⟩ := h
      subst e
      simp only at he
      subst he
      cases hv
      exact h0
    · exact (hb V Q).1 v hv
  · dsimp only
    split_ifs with h
    · exact ⟨_, rfl⟩
    · exact (hb V Q).2 hex
  · dsimp only
    rw [dif_pos ⟨rfl, rfl⟩]

/-- returns of two assets, one sample -/
def oneGain : Fin 1 → Fin 2 → ℝ := fun _ j => if j = 0 then 1 else 0

/-- **C144** With the default cost, of power one, this fails: with a radius equal to the gap between the returns of two assets, every split of the
wealth that favours the better one is a solution, and exact solvers may store any of them. -/
theorem C144_one_portfolio_false {p : ℕ} {grads : Autograd 2} {train : Trainer 2} {p0 : Portfolio} (hP : P.solver = "dedicated".toList)
    (hc : P.cost = joinDash ["t".toList, "NC".toList, decimal 1, decimal p]) (hR : P.rho = .num 1) (he : P.eta = 0) (ha : 0 < P.alpha)
    (hg : P.solver_reg ≠ none) {a : ℝ} (h0 : 1 / 2 ≤ a) (h1 : a ≤ 1) :
    ∃ (solve : Oracle) (f : Fitted 2) (wT : Tensor ℝ), ExactSolver solve ∧
      portfolioFit ext grads solve train p0 P (zeroC 2) zeroD oneGain g = .ok f ∧ f.coef = some wT ∧
      IsVec wT (fun j : Fin 2 => if j = 0 then a else 1 - a) := by
  have hr' : route .portfolio P.solver = .ok .dedicated := by rw [(C66_route_partial .portfolio P.solver).2.1 hP]; rfl
  have hp : NormOrder (.fin ((1 : ℕ) : ℝ)) := Or.inl ⟨1, by norm_num, by norm_num⟩
  have hq' : pfQ (.fin ((1 : ℕ) : ℝ)) = .ok .pinf := by simp [pfQ]
  set w : Fin 2 → ℝ := fun j => if j = 0 then a else 1 - a with hw
  have hS : InSimplex w := by
    refine ⟨fun j => ?_, ?_⟩
    · simp only [hw]; split_ifs <;> linarith
    · simp [hw, Fin.sum_univ_two]
  have hval : ∀ (v : Fin 2 → ℝ) (t : ℝ), pfValue .pinf P.eta P.alpha 1 oneGain v t = -v 0 + pnorm .pinf v := by
    intro v t
    simp [pfValue, avg, meanCVaR, he, oneGain]
  have hpn : pnorm .pinf w = a := by
    refine le_antisymm (ciSup_le fun j => ?_) (le_ciSup_of_le (Set.finite_range fun j => |w j|).bddAbove 0 (by simpa [hw] using le_abs_self a))
    simp only [hw]
    split_ifs
    · rw [abs_of_nonneg (by linarith)]
    · rw [abs_of_nonneg (by linarith)]; linarith
  set Q := portfolioProgram (zeroC 2) zeroD .pinf P.eta P.alpha 1 oneGain with hQ
  obtain ⟨k1, k2⟩ := pfPoint_feasible (q := .pinf) (Or.inr rfl) (C := zeroC 2) (d := zeroD) (rho := 1) he.ge ha oneGain hS 0
  have hopt : Q.Optimal (pfPoint .pinf P.eta P.alpha oneGain w 0) := by
    refine ⟨k1, fun v hv => ?_⟩
    have hsv := ((portfolio_feasible (Or.inr rfl) v).1 hv).1
    have hl := (C63_exact hp hq' Nat.one_pos Nat.two_pos (C := zeroC 2) (d := zeroD) (fun _ _ => rfl) (fun _ => le_rfl) he.ge ha zero_le_one
      oneGain hsv v.tau).2.2 ⟨v, hv, rfl, rfl, rfl⟩
    have e : pfValue .pinf P.eta P.alpha 1 oneGain v.theta v.tau ≤ Q.objective v := hl
    rw [hval] at e
    rw [hQ, k2, hval, hpn]
    have h3 : |v.theta 0| ≤ pnorm .pinf v.theta := le_ciSup (Set.finite_range fun j => |v.theta j|).bddAbove 0
    have h4 := le_abs_self (v.theta 0)
    have h5 : w 0 = a := by simp [hw]
    rw [h5]
    linarith
  obtain ⟨solve, hs, hv⟩ := exactSolver_pick hopt
  refine ⟨solve,
    { coef := some (listT (List.ofFn w)), tau := some (listT [0]), dual_var := some (listT [(1 + P.eta / P.alpha) * pnorm .pinf w]) },
    listT (List.ofFn w), hs, ?_, rfl, listT_ofFn w⟩
  unfold portfolioFit
  rw [if_neg (by omega), regAsFloat_ok hg, hc, code_cost, hr', hR]
  simp only [ok_bind, Radius.toNum, XNum.map, Rat.cast_natCast, portfolioDedicated, hq', if_neg ha.ne']
  rw [if_neg (by norm_num), if_pos (show cpOrder .pinf from trivial), ← hQ, hv]
  rfl

end

/-- non-vacuity: the default parameters of the estimator, with a cost of power two, or one (the default) -/
example : EstKind.portfolio.defaults.cost = joinDash ["t".toList, "NC".toList, decimal 1, decimal 1] ∧
    "t-NC-2-1".toList = joinDash ["t".toList, "NC".toList, decimal 2, decimal 1] ∧
    EstKind.portfolio.defaults.solver = "dedicated".toList ∧ EstKind.portfolio.defaults.eta = 0 ∧ 0 < EstKind.portfolio.defaults.alpha ∧
    EstKind.portfolio.defaults.alpha ≤ 1 ∧ EstKind.portfolio.defaults.solver_reg ≠ none := by
  refine ⟨by decide, by decide, rfl, ?_, ?_, ?_, ?_⟩
  · simp [EstKind.defaults]
  · simp only [EstKind.defaults]; norm_num
  · simp only [EstKind.defaults]; norm_num
  · simp [EstKind.defaults]

end Skwdro
