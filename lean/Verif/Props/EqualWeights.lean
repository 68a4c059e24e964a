import Verif.Props.Dedicated
import Verif.Props.Threshold

/-! C134: with a large radius the dedicated portfolio spreads the wealth equally. -/

namespace Skwdro.Spec

/-- gap between the largest and the smallest return -/
noncomputable def spread {m : ℕ} (x : Fin m → ℝ) : ℝ := (⨆ j, x j) - ⨅ j, x j

end Skwdro.Spec

namespace Skwdro
open Spec

variable {n d m : ℕ}

theorem meanCVaR_lipschitz {eta alpha : ℝ} (he : 0 ≤ eta) (ha : 0 < alpha) (r r' tau : ℝ) :
    meanCVaR eta alpha r tau - meanCVaR eta alpha r' tau ≤ (1 + eta / alpha) * |r - r'| := by
  have hs : 0 ≤ eta / alpha := by positivity
  have h0 : ∀ k, pfB eta alpha k * tau + pfA eta alpha k * r - (pfB eta alpha k * tau + pfA eta alpha k * r') ≤ (1 + eta / alpha) * |r - r'| := by
    intro k
    have hk : |pfA eta alpha k| ≤ 1 + eta / alpha := by
      unfold pfA
      split_ifs
      · simpa using hs
      · rw [abs_of_nonpos (by linarith)]; linarith
    have : pfB eta alpha k * tau + pfA eta alpha k * r - (pfB eta alpha k * tau + pfA eta alpha k * r') = pfA eta alpha k * (r - r') := by ring
    rw [this]
    refine (le_abs_self _).trans ?_
    rw [abs_mul]
    exact mul_le_mul_of_nonneg_right hk (abs_nonneg _)
  rw [meanCVaR_eq, meanCVaR_eq, sub_le_iff_le_add]
  refine max_le ?_ ?_
  · have := h0 0
    have := le_max_left (pfB eta alpha 0 * tau + pfA eta alpha 0 * r') (pfB eta alpha 1 * tau + pfA eta alpha 1 * r')
    linarith
  · have := h0 1
    have := le_max_right (pfB eta alpha 0 * tau + pfA eta alpha 0 * r') (pfB eta alpha 1 * tau + pfA eta alpha 1 * r')
    linarith

theorem uniform_simplex (hm : 0 < m) : InSimplex (fun _ : Fin m => 1 / (m : ℝ)) := by
  have : (m : ℝ) ≠ 0 := by exact_mod_cast hm.ne'
  refine ⟨fun _ => by positivity, ?_⟩
  simp [this]

/-- changing the weights by `e`, which sums to zero and is at most `D`, changes the return by at most `(m - 1) D` times the spread -/
theorem return_change {e x : Fin m → ℝ} {D : ℝ} (he : ∑ j, e j = 0) (hD : ∀ j, e j ≤ D) : |∑ j, e j * x j| ≤ (m - 1) * D * spread x := by
  rcases Nat.eq_zero_or_pos m with rfl | hm
  · have : spread x = 0 := by simp [spread]
    simp [this]
  haveI : Nonempty (Fin m) := ⟨⟨0, hm⟩⟩
  have hb : BddAbove (Set.range x) := (Set.finite_range x).bddAbove
  have hb' : BddBelow (Set.range x) := (Set.finite_range x).bddBelow
  obtain ⟨j1, -, hj1⟩ : ∃ j ∈ Finset.univ, e j ≤ 0 := by
    by_contra h
    push Not at h
    have := Finset.sum_pos (fun j hj => h j hj) Finset.univ_nonempty
    linarith
  have hs : ∀ j, 0 ≤ x j - (⨅ j, x j) ∧ x j - (⨅ j, x j) ≤ spread x := fun j =>
    ⟨sub_nonneg.2 (ciInf_le hb' j), by unfold spread; linarith [le_ciSup hb j]⟩
  have hsp : 0 ≤ spread x := (hs j1).1.trans (hs j1).2
  have hP : ∑ j, max (e j) 0 ≤ (m - 1) * D := by
    have hD0 : 0 ≤ D := by
      by_contra h
      push Not at h
      have := Finset.sum_lt_sum_of_nonempty (s := (Finset.univ : Finset (Fin m))) Finset.univ_nonempty (f := e) (g := fun _ => 0)
        (fun j _ => (hD j).trans_lt h)
      simp [he] at this
    rw [← Finset.add_sum_erase _ _ (Finset.mem_univ j1), max_eq_right hj1, zero_add]
    refine (Finset.sum_le_card_nsmul _ _ D fun j _ => max_le (hD j) hD0).trans (le_of_eq ?_)
    rw [Finset.card_erase_of_mem (Finset.mem_univ _), Finset.card_univ, Fintype.card_fin, nsmul_eq_mul, Nat.cast_sub hm]
    simp
  have hN : ∑ j, max (-(e j)) 0 = ∑ j, max (e j) 0 := by
    have : ∑ j, max (e j) 0 - ∑ j, max (-(e j)) 0 = 0 := by
      rw [← Finset.sum_sub_distrib]
      refine Eq.trans (Finset.sum_congr rfl fun j _ => ?_) he
      rcases le_total (e j) 0 with h | h
      · rw [max_eq_right h, max_eq_left (by linarith)]; ring
      · rw [max_eq_left h, max_eq_right (by linarith)]; ring
    linarith
  have key : ∀ f : Fin m → ℝ, ∑ j, f j = 0 → ∑ j, f j * x j ≤ (∑ j, max (f j) 0) * spread x := by
    intro f hf
    have : ∑ j, f j * x j = ∑ j, f j * (x j - ⨅ j, x j) := by
      simp only [mul_sub, Finset.sum_sub_distrib, ← Finset.sum_mul, hf]
      ring
    rw [this, Finset.sum_mul]
    refine Finset.sum_le_sum fun j _ => ?_
    refine (mul_le_mul_of_nonneg_right (le_max_left (f j) 0) (hs j).1).trans ?_
    exact mul_le_mul_of_nonneg_left (hs j).2 (le_max_right _ _)
  have hfin := mul_le_mul_of_nonneg_right hP hsp
  rw [abs_le]
  constructor
  · have := key (fun j => -e j) (by simp [he])
    simp only [hN, neg_mul, Finset.sum_neg_distrib] at this
    linarith
  · exact (key e he).trans hfin

theorem pfValue_change {q : XNum ℝ} {eta alpha rho : ℝ} (he : 0 ≤ eta) (ha : 0 < alpha) (X : Fin n → Fin m → ℝ) (w w' : Fin m → ℝ) (tau : ℝ) :
    pfValue q eta alpha rho X w' tau - pfValue q eta alpha rho X w tau ≤
      (1 + eta / alpha) * (avg (fun i => |∑ j, (w j - w' j) * X i j|) - rho * (pnorm q w - pnorm q w')) := by
  unfold pfValue
  have h : avg (fun i => meanCVaR eta alpha (∑ j, w' j * X i j) tau) - avg (fun i => meanCVaR eta alpha (∑ j, w j * X i j) tau) ≤
      (1 + eta / alpha) * avg (fun i => |∑ j, (w j - w' j) * X i j|) := by
    unfold avg
    rw [← sub_div, ← Finset.sum_sub_distrib, ← mul_div_assoc, Finset.mul_sum]
    refine div_le_div_of_nonneg_right (Finset.sum_le_sum fun i _ => ?_) (Nat.cast_nonneg n)
    refine (meanCVaR_lipschitz he ha _ _ tau).trans (le_of_eq ?_)
    congr 1
    rw [abs_sub_comm, ← Finset.sum_sub_distrib]
    congr 1
    exact Finset.sum_congr rfl fun j _ => by ring
  linarith [h]

variable {G : Type} {ext : TorchExt G} {solve : Oracle} {P : EstParams} {g : G}

/-- a fit without bounds on the returns stores weights, and a threshold, of least worst-case risk, in closed form -/
theorem portfolio_closed {q p : ℕ} (hq : 1 ≤ q) {q' : XNum ℝ} (hq' : pfQ (.fin (q : ℝ)) = .ok q') (hs : ExactSolver solve) {grads : Autograd d}
    {train : Trainer d} {p0 : Portfolio} (hP : P.solver = "dedicated".toList)
    (hc : P.cost = joinDash ["t".toList, "NC".toList, decimal q, decimal p]) {rho : ℝ} (hR : P.rho = .num rho) (hr : 0 ≤ rho) (he : 0 ≤ P.eta)
    (ha : 0 < P.alpha) (ha1 : P.alpha ≤ 1) (hg : P.solver_reg ≠ none) (hn : 0 < n) (hd : 0 < d) (X : Fin n → Fin d → ℝ) :
    ∃ (f : Fitted d) (wT : Tensor ℝ) (w : Fin d → ℝ) (tau : ℝ), portfolioFit ext grads solve train p0 P (zeroC d) zeroD X g = .ok f ∧
      f.coef = some wT ∧ IsVec wT w ∧ InSimplex w ∧
      ∀ w' tau', InSimplex w' → pfValue q' P.eta P.alpha rho X w tau ≤ pfValue q' P.eta P.alpha rho X w' tau' := by
  obtain ⟨f, wT, tT, lT, w, tau, lam, V, h1, h2, h3, -, -, -, -, h4, h5, h6⟩ := C94_portfolio (ext := ext) (g := g) hq hs (grads := grads)
    (train := train) (p0 := p0) hP hc hR hr he ha ha1 hg hn hd (C := zeroC d) (D := zeroD) (X := X) (by simp [zeroC, zeroD])
  have hp : NormOrder (.fin (q : ℝ)) := Or.inl ⟨q, by exact_mod_cast hq, rfl⟩
  have hex := fun w (hw : InSimplex w) tau => (C63_exact hp hq' hn hd (C := zeroC d) (d := zeroD) (fun _ _ => rfl) (fun _ => le_rfl) he ha hr X hw tau).1
  refine ⟨f, wT, w, tau, h1, h2, h3, h4, fun w' tau' hw' => ?_⟩
  rw [show pfValue q' P.eta P.alpha rho X w tau = V from (hex w h4 tau).unique h5]
  exact h6 w' tau' hw' _ fun Q hQ => (hex w' hw' tau').1 ⟨Q, hQ, rfl⟩

/-- **C134** The dedicated portfolio with a cost of power one (as by default) and no bounds on the returns: as soon as the radius exceeds the number of
assets minus one times the average over the samples of the gap between the best and the worst return, the weights stored are exactly equal,
whatever the risk aversion and the level. -/
theorem C134_equal {p : ℕ} (hs : ExactSolver solve) {grads : Autograd d} {train : Trainer d} {p0 : Portfolio} (hP : P.solver = "dedicated".toList)
    (hc : P.cost = joinDash ["t".toList, "NC".toList, decimal 1, decimal p]) {rho : ℝ} (hR : P.rho = .num rho) (hr : 0 ≤ rho) (he : 0 ≤ P.eta)
    (ha : 0 < P.alpha) (ha1 : P.alpha ≤ 1) (hg : P.solver_reg ≠ none) (hn : 0 < n) (hd : 0 < d) (X : Fin n → Fin d → ℝ)
    (hbig : (d - 1) * avg (fun i => spread (X i)) < rho) :
    ∃ (f : Fitted d) (wT : Tensor ℝ), portfolioFit ext grads solve train p0 P (zeroC d) zeroD X g = .ok f ∧ f.coef = some wT ∧
      IsVec wT (fun _ : Fin d => 1 / (d : ℝ)) := by
  obtain ⟨f, wT, w, tau, h1, h2, h3, h4, h5⟩ := portfolio_closed (ext := ext) (g := g) (q := 1) le_rfl (q' := .pinf) (by simp [pfQ]) hs
    (grads := grads) (train := train) (p0 := p0) hP hc hR hr he ha ha1 hg hn hd X
  refine ⟨f, wT, h1, h2, ?_⟩
  suffices h : w = fun _ => 1 / (d : ℝ) by rw [← h]; exact h3
  haveI : Nonempty (Fin d) := ⟨⟨0, hd⟩⟩
  have hd0 : (d : ℝ) ≠ 0 := by exact_mod_cast hd.ne'
  have hA : 0 < 1 + P.eta / P.alpha := by positivity
  have hle : ∀ j, w j ≤ pnorm .pinf w := fun j =>
    (le_abs_self _).trans (le_ciSup (f := fun j => |w j|) (Set.finite_range _).bddAbove j)
  have hu : pnorm .pinf (fun _ : Fin d => 1 / (d : ℝ)) = 1 / d := by
    simp only [pnorm, ciSup_const]
    exact abs_of_nonneg (by positivity)
  set D := pnorm .pinf w - 1 / (d : ℝ) with hD
  have hsum : ∑ j, (w j - 1 / (d : ℝ)) = 0 := by
    rw [Finset.sum_sub_distrib, h4.2, (uniform_simplex hd).2, sub_self]
  have hch := pfValue_change (q := .pinf) (rho := rho) he ha X w (fun _ => 1 / (d : ℝ)) tau
  have hopt := h5 (fun _ => 1 / (d : ℝ)) tau (uniform_simplex hd)
  rw [hu, ← hD] at hch
  have hret : avg (fun i => |∑ j, (w j - 1 / (d : ℝ)) * X i j|) ≤ (d - 1) * D * avg (fun i => spread (X i)) := by
    unfold avg
    rw [← mul_div_assoc, Finset.mul_sum]
    exact div_le_div_of_nonneg_right (Finset.sum_le_sum fun i _ => return_change hsum fun j => by have := hle j; linarith) (Nat.cast_nonneg n)
  have hD0 : D ≤ 0 := by
    by_contra hpos
    push Not at hpos
    have h6 : 0 ≤ (1 + P.eta / P.alpha) * (avg (fun i => |∑ j, (w j - 1 / (d : ℝ)) * X i j|) - rho * D) := by linarith
    have h7 := nonneg_of_mul_nonneg_right h6 hA
    have h8 : ((d - 1) * avg (fun i => spread (X i)) - rho) * D < 0 := mul_neg_of_neg_of_pos (by linarith) hpos
    nlinarith
  have hle' : ∀ j, w j - 1 / (d : ℝ) ≤ 0 := fun j => by have := hle j; linarith
  funext j
  have := (Finset.sum_eq_zero_iff_of_nonpos fun j _ => hle' j).1 hsum j (Finset.mem_univ j)
  linarith

/-- **C134** The radius above cannot be lowered: for any number of assets there are data for which no smaller radius gives equal weights. -/
theorem C134_sharp {p : ℕ} (hs : ExactSolver solve) {grads : Autograd d} {train : Trainer d} {p0 : Portfolio} (hP : P.solver = "dedicated".toList)
    (hc : P.cost = joinDash ["t".toList, "NC".toList, decimal 1, decimal p]) {rho : ℝ} (hR : P.rho = .num rho) (hr : 0 ≤ rho) (he : P.eta = 0)
    (ha : 0 < P.alpha) (ha1 : P.alpha ≤ 1) (hg : P.solver_reg ≠ none) (hd : 2 ≤ d) {s : ℝ} (hsmall : rho < (d - 1) * s) :
    ∃ (X : Fin 1 → Fin d → ℝ) (f : Fitted d) (wT : Tensor ℝ), avg (fun i => spread (X i)) = s ∧
      portfolioFit ext grads solve train p0 P (zeroC d) zeroD X g = .ok f ∧ f.coef = some wT ∧ ¬ IsVec wT (fun _ : Fin d => 1 / (d : ℝ)) := by
  have hd2 : (2 : ℝ) ≤ d := by exact_mod_cast hd
  have hs0 : 0 < s := by nlinarith
  let j0 : Fin d := ⟨0, by omega⟩
  let j1 : Fin d := ⟨1, by omega⟩
  have h01 : j1 ≠ j0 := by simp [j0, j1]
  set X : Fin 1 → Fin d → ℝ := fun _ j => if j = j0 then 0 else s with hX
  obtain ⟨f, wT, w, tau, h1, h2, h3, h4, h5⟩ := portfolio_closed (ext := ext) (g := g) (q := 1) le_rfl (q' := .pinf) (by simp [pfQ]) hs
    (grads := grads) (train := train) (p0 := p0) hP hc hR hr he.ge ha ha1 hg Nat.one_pos (by omega) X
  haveI : Nonempty (Fin d) := ⟨j0⟩
  refine ⟨X, f, wT, ?_, h1, h2, fun h => ?_⟩
  · have hsup : (⨆ j, X 0 j) = s := by
      refine le_antisymm (ciSup_le fun j => ?_) ?_
      · simp only [hX]; split_ifs <;> linarith
      · refine le_ciSup_of_le (Set.finite_range _).bddAbove j1 ?_
        simp [hX, h01]
    have hinf : (⨅ j, X 0 j) = 0 := by
      refine le_antisymm (ciInf_le_of_le (Set.finite_range _).bddBelow j0 (by simp [hX])) (le_ciInf fun j => ?_)
      simp only [hX]; split_ifs <;> linarith
    simp [avg, spread, hsup, hinf]
  · have hw : w = fun _ => 1 / (d : ℝ) := by
      funext j
      rw [← h3.2 j, h.2 j]
    have hm1 : (0 : ℝ) < d - 1 := by linarith
    set w' : Fin d → ℝ := fun j => if j = j0 then 0 else 1 / ((d : ℝ) - 1) with hw'
    have hsum : ∀ c : ℝ, ∑ j : Fin d, (if j = j0 then 0 else c) = (d - 1) * c := by
      intro c
      rw [← Finset.add_sum_erase _ _ (Finset.mem_univ j0), if_pos rfl, zero_add, Finset.sum_congr rfl (g := fun _ => c)
        (fun j hj => if_neg (Finset.ne_of_mem_erase hj)), Finset.sum_const, Finset.card_erase_of_mem (Finset.mem_univ _), Finset.card_univ,
        Fintype.card_fin, nsmul_eq_mul, Nat.cast_sub (by omega)]
      simp
    have hS : InSimplex w' := by
      refine ⟨fun j => ?_, ?_⟩
      · simp only [hw']; split_ifs <;> positivity
      · rw [hw', hsum]; field_simp
    have hval : ∀ v : Fin d → ℝ, pfValue .pinf P.eta P.alpha rho X v tau = -(∑ j, v j * X 0 j) + rho * pnorm .pinf v := by
      intro v
      simp [pfValue, avg, meanCVaR, he]
    have hn1 : pnorm .pinf w' = 1 / ((d : ℝ) - 1) := by
      refine le_antisymm (ciSup_le fun j => ?_) ?_
      · simp only [hw']
        split_ifs
        · simp; linarith
        · rw [abs_of_nonneg (by positivity)]
      · refine le_ciSup_of_le (Set.finite_range fun j => |w' j|).bddAbove j1 ?_
        simp only [hw', if_neg h01]
        exact le_abs_self _
    have hn2 : pnorm .pinf (fun _ : Fin d => 1 / (d : ℝ)) = 1 / d := by
      simp only [pnorm, ciSup_const]
      exact abs_of_nonneg (by positivity)
    have hr1 : ∑ j, w' j * X 0 j = s := by
      have : ∀ j, w' j * X 0 j = if j = j0 then 0 else 1 / ((d : ℝ) - 1) * s := fun j => by
        simp only [hw', hX]; split_ifs <;> simp
      simp only [this]
      rw [hsum]; field_simp
    have hr2 : ∑ j, (1 / (d : ℝ)) * X 0 j = (d - 1) / d * s := by
      have : ∀ j, (1 / (d : ℝ)) * X 0 j = if j = j0 then 0 else 1 / (d : ℝ) * s := fun j => by
        simp only [hX]; split_ifs <;> simp
      simp only [this]
      rw [hsum]; ring
    have hopt := h5 w' tau hS
    rw [hval, hval, hw, hn1, hn2, hr1, hr2] at hopt
    have hd0 : (0 : ℝ) < d := by linarith
    have e1 : -((d - 1) / d * s) + rho * (1 / d) - (-s + rho * (1 / (d - 1))) = ((d - 1) * s - rho) / (d * (d - 1) : ℝ) := by
      field_simp
      ring
    have : 0 < ((d - 1) * s - rho) / (d * (d - 1) : ℝ) := by
      have : 0 < (d - 1) * s - rho := by linarith
      positivity
    linarith

theorem pnorm_fin_two (v : Fin m → ℝ) : pnorm (.fin 2) v = norm2 v := by
  simp only [pnorm, norm2, Real.sqrt_eq_rpow]
  congr 1
  exact Finset.sum_congr rfl fun j _ => by rw [show (2 : ℝ) = ((2 : ℕ) : ℝ) by norm_num, Real.rpow_natCast, sq_abs]

/-- **C134** With a cost of power two the weights come near equality at a rate: their Euclidean distance to equal weights is at most twice the average
over the samples of the norm of the returns, centred across assets, divided by the radius. -/
theorem C134_rate {p : ℕ} (hs : ExactSolver solve) {grads : Autograd d} {train : Trainer d} {p0 : Portfolio} (hP : P.solver = "dedicated".toList)
    (hc : P.cost = joinDash ["t".toList, "NC".toList, decimal 2, decimal p]) {rho : ℝ} (hR : P.rho = .num rho) (hr : 0 < rho) (he : 0 ≤ P.eta)
    (ha : 0 < P.alpha) (ha1 : P.alpha ≤ 1) (hg : P.solver_reg ≠ none) (hn : 0 < n) (hd : 0 < d) (X : Fin n → Fin d → ℝ) :
    ∃ (f : Fitted d) (wT : Tensor ℝ) (w : Fin d → ℝ), portfolioFit ext grads solve train p0 P (zeroC d) zeroD X g = .ok f ∧ f.coef = some wT ∧
      IsVec wT w ∧ norm2 (fun j => w j - 1 / d) ≤ 2 * avg (fun i => norm2 fun j => X i j - avg (X i)) / rho := by
  obtain ⟨f, wT, w, tau, h1, h2, h3, h4, h5⟩ := portfolio_closed (ext := ext) (g := g) (q := 2) (by norm_num) (q' := .fin 2)
    (by simp only [pfQ]; norm_num) hs (grads := grads) (train := train) (p0 := p0) hP hc hR hr.le he ha ha1 hg hn hd X
  refine ⟨f, wT, w, h1, h2, h3, ?_⟩
  have hd0 : (0 : ℝ) < d := by exact_mod_cast hd
  have hA : 0 < 1 + P.eta / P.alpha := by positivity
  have hU := uniform_simplex hd
  set e : Fin d → ℝ := fun j => w j - 1 / d with hedef
  have hsum : ∑ j, e j = 0 := by
    simp only [hedef]
    rw [Finset.sum_sub_distrib, h4.2, hU.2, sub_self]
  have hch := pfValue_change (q := .fin 2) (rho := rho) he ha X w (fun _ => 1 / (d : ℝ)) tau
  have hopt := h5 (fun _ => 1 / (d : ℝ)) tau hU
  rw [pnorm_fin_two, pnorm_fin_two] at hch
  have hsq : ∀ v : Fin d → ℝ, norm2 v ^ 2 = ∑ j, v j ^ 2 := fun v => Real.sq_sqrt (Finset.sum_nonneg fun j _ => sq_nonneg _)
  have h0 : ∀ v : Fin d → ℝ, 0 ≤ norm2 v := fun v => Real.sqrt_nonneg _
  have hone : ∀ v : Fin d → ℝ, InSimplex v → norm2 v ≤ 1 := by
    intro v hv
    refine Real.sqrt_le_one.2 ?_
    refine (Finset.sum_le_sum fun j _ => ?_).trans hv.2.le
    have hj : v j ≤ 1 := (Finset.single_le_sum (fun j _ => hv.1 j) (Finset.mem_univ j)).trans hv.2.le
    have := hv.1 j
    nlinarith
  have hpyth : norm2 w ^ 2 = norm2 (fun _ : Fin d => 1 / (d : ℝ)) ^ 2 + norm2 e ^ 2 := by
    rw [hsq, hsq, hsq, ← Finset.sum_add_distrib]
    have : ∀ j, w j ^ 2 = ((1 / (d : ℝ)) ^ 2 + e j ^ 2) + 2 / d * e j := fun j => by simp only [hedef]; ring
    simp only [this]
    rw [Finset.sum_add_distrib, ← Finset.mul_sum, hsum]
    ring
  have hw1 := hone w h4
  have hu1 := hone _ hU
  set a := norm2 w
  set b := norm2 (fun _ : Fin d => 1 / (d : ℝ))
  have ha0 : 0 ≤ a := h0 _
  have hb0 : 0 ≤ b := h0 _
  have hδ0 := h0 e
  have hab : b ≤ a := by
    by_contra h
    push Not at h
    nlinarith [sq_nonneg (norm2 e)]
  have hgap : norm2 e ^ 2 ≤ 2 * (a - b) := by nlinarith
  have hret : avg (fun i => |∑ j, (w j - 1 / (d : ℝ)) * X i j|) ≤ norm2 e * avg (fun i => norm2 fun j => X i j - avg (X i)) := by
    unfold avg
    rw [← mul_div_assoc, Finset.mul_sum]
    refine div_le_div_of_nonneg_right (Finset.sum_le_sum fun i _ => ?_) (Nat.cast_nonneg n)
    have hcen : ∀ c : ℝ, ∑ j, (w j - 1 / (d : ℝ)) * X i j = ∑ j, e j * (X i j - c) := by
      intro c
      simp only [mul_sub, Finset.sum_sub_distrib, ← Finset.sum_mul, hsum]
      simp [hedef]
    rw [hcen ((∑ j, X i j) / d)]
    refine abs_le.2 ⟨?_, dot_le_norm2 _ _⟩
    have := dot_le_norm2 (fun j => -e j) (fun j => X i j - (∑ j, X i j) / d)
    have hneg : norm2 (fun j => -e j) = norm2 e := by simp [norm2]
    rw [hneg] at this
    simp only [neg_mul, Finset.sum_neg_distrib] at this
    linarith
  have h6 : 0 ≤ (1 + P.eta / P.alpha) * (avg (fun i => |∑ j, (w j - 1 / (d : ℝ)) * X i j|) - rho * (a - b)) := by linarith
  have h7 := nonneg_of_mul_nonneg_right h6 hA
  set S := avg (fun i => norm2 fun j => X i j - avg (X i))
  rw [le_div_iff₀ hr]
  have hS0 : 0 ≤ S := avg_nonneg fun i => h0 _
  rcases hδ0.eq_or_lt with h | h
  · rw [← h]; linarith
  · have : norm2 e * (norm2 e * rho) ≤ norm2 e * (2 * S) := by nlinarith
    exact le_of_mul_le_mul_left this h

/-- non-vacuity: with the default cost, solver, risk aversion and level; one sample of two assets of returns 1 and 0, any radius above 1 -/
example : EstKind.portfolio.defaults.cost = joinDash ["t".toList, "NC".toList, decimal 1, decimal 1] ∧
    EstKind.portfolio.defaults.solver = "dedicated".toList ∧ 0 ≤ EstKind.portfolio.defaults.eta ∧ 0 < EstKind.portfolio.defaults.alpha ∧
    EstKind.portfolio.defaults.alpha ≤ 1 ∧ EstKind.portfolio.defaults.solver_reg ≠ none ∧
    (((2 : ℕ) : ℝ) - 1) * avg (fun i : Fin 1 => spread ((fun _ j => if j = 0 then 1 else 0 : Fin 1 → Fin 2 → ℝ) i)) ≤ 1 := by
  refine ⟨by decide, rfl, ?_, ?_, ?_, ?_, ?_⟩
  · simp [EstKind.defaults]
  · simp only [EstKind.defaults]; norm_num
  · simp only [EstKind.defaults]; norm_num
  · simp [EstKind.defaults]
  · have h1 : (⨆ j : Fin 2, (if j = 0 then 1 else 0 : ℝ)) ≤ 1 := ciSup_le fun j => by split_ifs <;> norm_num
    have h2 : 0 ≤ (⨅ j : Fin 2, (if j = 0 then 1 else 0 : ℝ)) := le_ciInf fun j => by split_ifs <;> norm_num
    simp only [avg, spread, Finset.univ_unique, Finset.sum_singleton]
    norm_num
    linarith

end Skwdro
