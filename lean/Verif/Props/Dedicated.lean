import Verif.Props.Estimators
import Verif.Props.NewsvendorExact
import Verif.Props.Logistic
import Verif.Props.Polytope

/-! # C94: what a whole fit with the dedicated solver returns, in terms of the arguments given to the estimator -/

namespace Skwdro
open Spec Tensor MeasureTheory

section
variable {G : Type} {n d : ℕ} {ext : TorchExt G} {solve : Oracle} {P : EstParams} {g : G}

/-- **C94** Linear regression with `solver="dedicated"`, a positive radius and a decodable cost: for every data set the fit returns, and the
coefficients and intercept it stores have the smallest worst-case RMSE when the inputs move by a mean square of at most `rho^2`, among all
the linear models (without intercept if `fit_intercept=False`). -/
theorem C94_linreg (hs : ExactSolver solve) {grads : Autograd d} {train : Trainer d} {init : LinInit d} (hP : P.solver = "dedicated".toList)
    (hc : ∃ c, cost_from_str P.cost = .ok c) {rho : ℝ} (hR : P.rho = .num rho) (hr : 0 < rho) (hn : 0 < n) (hd : 0 < d)
    (X : Fin n → Fin d → ℝ) (y : Fin n → ℝ) :
    ∃ f wT bT w b, linregFit ext grads solve train init P X y g = .ok f ∧ f.coef = some wT ∧ IsVec wT w ∧
      f.intercept = some bT ∧ IsVec bT (fun _ : Fin 1 => b) ∧ (P.fit_intercept = false → b = 0) ∧
      ∀ (w' : Fin d → ℝ) (b' : ℝ), (P.fit_intercept = false → b' = 0) → ∀ M, (∀ Q ∈ InputBall X y rho, rmseUnder Q w' b' ≤ M) →
        ∀ Q ∈ InputBall X y rho, rmseUnder Q w b ≤ M := by
  obtain ⟨c, hc⟩ := hc
  have hr' : route .linreg P.solver = .ok .dedicated := by rw [(C66_route_partial .linreg P.solver).2.1 hP]; rfl
  obtain ⟨v, hv⟩ := (hs _ (linregProgram rho X y P.fit_intercept)).2 (linreg_exists hn hr X y P.fit_intercept)
  have hopt := (hs _ _).1 v hv
  obtain ⟨r, hw, hu⟩ := wrap3 (some (.vec (List.ofFn v.1))) (some (.vec [v.2])) none
  refine ⟨{ coef := some (listT (List.ofFn v.1)), intercept := some (listT [v.2]) }, listT (List.ofFn v.1), listT [v.2], v.1, v.2, ?_, rfl,
    listT_ofFn v.1, rfl, listT_ofFn (fun _ : Fin 1 => v.2), (linreg_feasible ..).1 hopt.1, ?_⟩
  · unfold linregFit
    rw [if_neg (by omega), hc, hr', hR]
    simp only [ok_bind, linregAt, linregDedicated, if_pos hr, hv, hw, hu]
    rfl
  · intro w' b' hb' M hM Q hQ
    have h1 := (C61_worst_case hn hr.le X y P.fit_intercept v.1 v.2).1.2 ⟨Q, hQ, rfl⟩
    have h2 := hopt.2 (w', b') ((linreg_feasible ..).2 hb')
    obtain ⟨Q', hQ', h3⟩ := (C61_worst_case hn hr.le X y P.fit_intercept w' b').1.1
    have := hM Q' hQ'
    rw [h3] at h2
    exact h1.trans (h2.trans this)

/-- **C94** Binary logistic regression with `solver="dedicated"`, a positive radius and a decodable cost: for every data set with two classes
`c0 < c1` the fit returns; the stored coefficients and intercept have the smallest worst-case logistic loss over the laws obtained from the
data, labelled `-1` for `c0` and `1` for `c1`, at an average cost of at most `rho`, where changing a label costs 1000; and the stored dual
variable bounds the norm of the coefficients. -/
theorem C94_logistic {L : Type} [LinearOrder L] (hs : ExactSolver solve) {grads : Autograd d} {train : Trainer d} {init : LinInit d}
    (hP : P.solver = "dedicated".toList) (hc : ∃ c, cost_from_str P.cost = .ok c) {rho : ℝ} (hR : P.rho = .num rho) (hr : 0 < rho)
    (hd : 0 < d) (X : Fin n → Fin d → ℝ) {y : Fin n → L} {c0 c1 : L} (hlt : c0 < c1) (hy : ∀ i, y i = c0 ∨ y i = c1)
    (h0 : ∃ i, y i = c0) (h1 : ∃ i, y i = c1) {s : Fin n → ℝ} (hs0 : ∀ i, y i = c0 → s i = -1) (hs1 : ∀ i, y i = c1 → s i = 1) :
    ∃ f wT bT lT w b lam V, logisticFit ext grads solve train init P X y g = .ok f ∧ f.classes = [c0, c1] ∧ f.coef = some wT ∧ IsVec wT w ∧
      f.intercept = some bT ∧ IsScalar bT b ∧ (P.fit_intercept = false → b = 0) ∧ f.dual_var = some lT ∧ IsScalar lT lam ∧ norm2 w ≤ lam ∧
      IsLUB {e | ∃ Q ∈ LabelBall X s 1000 rho, e = logRisk w b Q} V ∧
      ∀ w' b', (P.fit_intercept = false → b' = 0) → ∀ M, (∀ Q ∈ LabelBall X s 1000 rho, logRisk w' b' Q ≤ M) → V ≤ M := by
  obtain ⟨c, hc⟩ := hc
  have hn : 0 < n := h0.choose.pos
  have hr' : route .logistic P.solver = .ok .dedicated := by rw [(C66_route_partial .logistic P.solver).2.1 hP]; rfl
  have hcl : npUnique y = [c0, c1] := by
    have : Finset.univ.image y = {c0, c1} := by
      ext l
      simp only [Finset.mem_image, Finset.mem_univ, true_and, Finset.mem_insert, Finset.mem_singleton]
      constructor
      · rintro ⟨i, rfl⟩; exact hy i
      · rintro (rfl | rfl)
        · exact h0
        · exact h1
    unfold npUnique
    rw [this]
    apply List.Perm.eq_of_pairwise (le := (· ≤ ·)) (fun x y _ _ h1 h2 => le_antisymm h1 h2) (Finset.pairwise_sort _ _)
    · simp [hlt.le]
    · rw [List.perm_ext_iff_of_nodup (Finset.sort_nodup _ _) (by simp [hlt.ne])]
      simp
  have hse : (fun i => encodeBinary [c0, c1] (y i)) = s := by
    funext i
    rcases hy i with h | h
    · rw [hs0 i h, h]; simp [encodeBinary]
    · rw [hs1 i h, h]; simp [encodeBinary, hlt.ne]
  have hsv : ∀ i, s i = 1 ∨ s i = -1 := fun i => (hy i).elim (fun h => Or.inr (hs0 i h)) (fun h => Or.inl (hs1 i h))
  obtain ⟨w, b, lam, V, r, hret, hl, hb, hw, hV, hM⟩ := C62_solver hn (by norm_num : (0 : ℝ) ≤ 1000) hr hs (X := X) hsv P.fit_intercept
  have hu : unpack4 r = .ok (some (.vec (List.ofFn w)), some (.num b), some (.num lam), some (.num V)) := by unfold unpack4; rw [hl]; rfl
  refine ⟨{ coef := some (listT (List.ofFn w)), intercept := some (Tensor.scalar b), dual_var := some (Tensor.scalar lam), classes := [c0, c1] },
    listT (List.ofFn w), Tensor.scalar b, Tensor.scalar lam, w, b, lam, V, ?_, rfl, rfl, listT_ofFn w, rfl, ⟨rfl, rfl⟩, hb, rfl, ⟨rfl, rfl⟩, hw,
    hV, hM⟩
  unfold logisticFit
  rw [if_neg (by omega)]
  dsimp only
  rw [hcl, if_neg (by simp), hc, hr', hR]
  simp only [ok_bind, hse]
  rw [if_neg (by simp)]
  simp only [ok_bind, Radius.toNum, hret, hu]
  rfl

/-- the ball around a list is the ball around its elements -/
theorem demandBall_list (z : Fin n → ℝ) (rho : ℝ) :
    DemandBall (fun i : Fin (List.ofFn z).length => (List.ofFn z)[i]) rho = DemandBall z rho := by
  have key : ∀ (m : ℕ) (h : m = n) (z' : Fin m → ℝ), (∀ i, z' i = z (Fin.cast h i)) → DemandBall z' rho = DemandBall z rho := by
    intro m h z' hz
    subst h
    congr 1
    funext i
    exact hz i
  exact key _ (by simp) _ fun i => by simp [Fin.cast]

/-- **C94** Newsvendor with `solver="dedicated"`, prices `k, u >= 0`, a non-negative radius and non-negative demands: for every data set the
fit returns an order `theta >= 0`, which is either `0` or of least average cost, at the prices given to the estimator, on the demands (the
mean of each row).  The dual variable stored is `0` for the order `0`, and `u` otherwise.  For `k > 0` the order is of
least worst-case cost over the ball exactly when it is `0` and no order has an average cost below `-u * rho`, or is positive with an average
cost of at most `-u * rho`.  Missing: the remaining cases, where it is not (`C94_newsvendor_false`). -/
theorem C94_newsvendor_partial (hs : ExactSolver solve) {grads : Autograd 1} {train : Trainer 1} {theta0 : ℝ} (hP : P.solver = "dedicated".toList)
    (hc : ∃ c, cost_from_str P.cost = .ok c) {rho : ℝ} (hR : P.rho = .num rho) (hr : 0 ≤ rho) (hk : 0 ≤ P.k) (hu : 0 ≤ P.u) (hn : 0 < n)
    (hd : 0 < d) (X : Fin n → Fin d → ℝ) (hX : ∀ i, 0 ≤ avg (X i)) :
    ∃ f cT lT theta lam, newsvendorFit ext grads solve train theta0 P X g = .ok f ∧ f.coef = some cT ∧ IsScalar cT theta ∧ 0 ≤ theta ∧
      f.dual_var = some lT ∧ IsScalar lT lam ∧ (theta = 0 → lam = 0) ∧
      (theta ≠ 0 → lam = P.u ∧
        ∀ t, 0 ≤ t → avg (fun i => newsvendor P.k P.u theta (avg (X i))) ≤ avg (fun i => newsvendor P.k P.u t (avg (X i)))) ∧
      (0 < P.k → (Minimax (DemandBall (fun i => avg (X i)) rho) (newsvendor P.k P.u) (fun t => 0 ≤ t) theta ↔
        (theta = 0 ∧ ∀ t, 0 ≤ t → 0 ≤ avg (fun i => newsvendor P.k P.u t (avg (X i))) + P.u * rho) ∨
        (0 < theta ∧ avg (fun i => newsvendor P.k P.u theta (avg (X i))) + P.u * rho ≤ 0))) := by
  classical
  obtain ⟨c, hc⟩ := hc
  have hr' : route .newsvendor P.solver = .ok .dedicated := by rw [(C66_route_partial .newsvendor P.solver).2.1 hP]; rfl
  set z : Fin n → ℝ := fun i => avg (X i) with hz
  have hne : List.ofFn z ≠ [] := by
    intro h
    have := congrArg List.length h
    simp at this
    omega
  have hpos : ∀ x ∈ List.ofFn z, 0 ≤ x := by
    intro x hx
    obtain ⟨i, rfl⟩ := List.mem_ofFn.1 hx
    exact hX i
  have havg : ∀ t, avgCost P.k P.u (List.ofFn z) t = avg (fun i => newsvendor P.k P.u t (z i)) := by
    intro t
    unfold avgCost avg
    rw [List.map_ofFn, List.sum_ofFn, List.length_ofFn]
    rfl
  have hrow : rowMeans X = z := rfl
  -- what the solver returns
  have hsol : ∃ r theta, newsvendorDedicated solve P.k P.u rho (some (List.ofFn z)) = .ok r ∧ 0 ≤ theta ∧
      r.toList = .ok [some (.num theta), some (.num 0)] ∧ r.attrs .coef = some (some (.num theta)) ∧
      (theta ≠ 0 → ∀ t, 0 ≤ t → avgCost P.k P.u (List.ofFn z) theta ≤ avgCost P.k P.u (List.ofFn z) t) := by
    rcases nv_cases solve P.k P.u hr (List.ofFn z) hpos with ⟨-, h⟩ | h
    · obtain ⟨r, theta, h1, h2, h3, h4, h5⟩ := C60_solver2 hs hk hu (List.ofFn z) hne
      exact ⟨r, theta, h.trans h1, h4, h2, h3, fun _ => h5⟩
    · exact ⟨_, 0, h, le_refl _, rfl, rfl, fun h => absurd rfl h⟩
  obtain ⟨r, theta, hret, hth, hl, hcoef, hbest⟩ := hsol
  have hun : unpack2 r = .ok (some (.num theta), some (.num 0)) := by unfold unpack2; rw [hl]; rfl
  refine ⟨{ coef := some (Tensor.scalar theta), dual_var := some (Tensor.scalar (if theta = 0 then 0 else P.u)) }, Tensor.scalar theta,
    Tensor.scalar (if theta = 0 then 0 else P.u), theta, if theta = 0 then 0 else P.u, ?_, rfl, ⟨rfl, rfl⟩, hth, rfl, ⟨rfl, rfl⟩,
    fun h => if_pos h, fun h => ⟨if_neg h, ?_⟩, fun hk' => ?_⟩
  · unfold newsvendorFit
    rw [if_neg (by omega), hc, hr', hR]
    simp only [ok_bind, newsvendorAt, hrow, hret, hun]
    rfl
  · intro t ht
    rw [← havg, ← havg]
    exact hbest h t ht
  · rw [← demandBall_list z rho, C59_exact_partial hs hk' hu hr hne hpos hret hcoef]
    simp only [havg]
    exact Iff.rfl

/-- **C94** (violated) The newsvendor fit is not always of least worst-case cost: for some prices, radius and non-negative demands the
order it stores is not, whatever the other arguments and the external solver. -/
theorem C94_newsvendor_false (hP : P.solver = "dedicated".toList) (hc : ∃ c, cost_from_str P.cost = .ok c) :
    ∃ (k u rho : ℝ) (n : ℕ) (X : Fin n → Fin 1 → ℝ), 0 ≤ k ∧ k ≤ u ∧ 0 ≤ rho ∧ 0 < n ∧ (∀ i j, 0 ≤ X i j) ∧
      ∀ (solve : Oracle) (ext : TorchExt G) (grads : Autograd 1) (train : Trainer 1) (theta0 : ℝ) (g : G), ∃ f cT theta,
        newsvendorFit ext grads solve train theta0 { P with k := k, u := u, rho := .num rho } X g = .ok f ∧ f.coef = some cT ∧
        IsScalar cT theta ∧ ¬ Minimax (DemandBall (fun i => X i 0) rho) (newsvendor k u) (fun t => 0 ≤ t) theta := by
  obtain ⟨k, u, rho, samples, hk, hku, hr, hpos, hne, h⟩ := C59_zero_false
  obtain ⟨c, hc⟩ := hc
  have hr' : route .newsvendor P.solver = .ok .dedicated := by rw [(C66_route_partial .newsvendor P.solver).2.1 hP]; rfl
  refine ⟨k, u, rho, samples.length, fun i _ => samples[i], hk, hku, hr, List.length_pos_iff.2 hne, fun i _ => hpos _ (List.getElem_mem _), ?_⟩
  intro solve ext grads train theta0 g
  obtain ⟨r, theta, h1, -, h2, h3⟩ := h solve
  have hrow : List.ofFn (rowMeans fun (i : Fin samples.length) (_ : Fin 1) => samples[i]) = samples := by
    have : (rowMeans fun (i : Fin samples.length) (_ : Fin 1) => samples[i]) = fun i => samples[i] := by
      funext i; simp [rowMeans]
    rw [this]
    simp
  have hl0 : samples.length ≠ 0 := by simpa using hne
  have hun : unpack2 r = .ok (some (.num theta), some (.num 0)) := by unfold unpack2; rw [h2]; rfl
  classical
  refine ⟨{ coef := some (Tensor.scalar theta), dual_var := some (Tensor.scalar (if theta = 0 then 0 else u)) }, _, theta, ?_, rfl, ⟨rfl, rfl⟩, h3⟩
  unfold newsvendorFit
  rw [if_neg (by omega)]
  simp only [hc, hr', ok_bind, newsvendorAt, hrow, h1, hun]
  congr 6

/-- **C94** Portfolio with `solver="dedicated"`, `eta >= 0`, `0 < alpha <= 1`, a non-negative radius and a cost code naming the norm order `q`
in its third field: for every polytope containing the sample the fit returns; the stored weights are non-negative, sum to one and, with the
stored threshold, have the smallest worst-case mean-CVaR loss, with the estimator's `eta` and `alpha`, over the laws within `rho` of the sample
for the norm of order `q`; the stored dual variable is non-negative. -/
theorem C94_portfolio {J q p : ℕ} (hq : 1 ≤ q) (hs : ExactSolver solve) {grads : Autograd d} {train : Trainer d} {p0 : Portfolio}
    (hP : P.solver = "dedicated".toList) (hc : P.cost = joinDash ["t".toList, "NC".toList, decimal q, decimal p]) {rho : ℝ}
    (hR : P.rho = .num rho) (hr : 0 ≤ rho) (he : 0 ≤ P.eta) (ha : 0 < P.alpha) (ha1 : P.alpha ≤ 1) (hg : P.solver_reg ≠ none)
    (hn : 0 < n) (hd : 0 < d) {C : Fin J → Fin d → ℝ} {D : Fin J → ℝ} {X : Fin n → Fin d → ℝ} (hx : ∀ i l, ∑ j, C l j * X i j ≤ D l) :
    ∃ f wT tT lT theta tau lam V, portfolioFit ext grads solve train p0 P C D X g = .ok f ∧ f.coef = some wT ∧ IsVec wT theta ∧
      f.tau = some tT ∧ IsVec tT (fun _ : Fin 1 => tau) ∧ f.dual_var = some lT ∧ IsVec lT (fun _ : Fin 1 => lam) ∧ InSimplex theta ∧
      IsLUB {e | ∃ Q ∈ AssetBall C D (.fin q) X rho, e = cvarRisk P.eta P.alpha theta tau Q} V ∧
      ∀ theta' tau', InSimplex theta' → ∀ M, (∀ Q ∈ AssetBall C D (.fin q) X rho, cvarRisk P.eta P.alpha theta' tau' Q ≤ M) → V ≤ M := by
  have hr' : route .portfolio P.solver = .ok .dedicated := by rw [(C66_route_partial .portfolio P.solver).2.1 hP]; rfl
  have hp : NormOrder (.fin (q : ℝ)) := Or.inl ⟨q, by exact_mod_cast hq, rfl⟩
  obtain ⟨q', hq'⟩ : ∃ q', pfQ (.fin (q : ℝ)) = .ok q' := by
    simp only [pfQ]
    split_ifs with h1 h2
    · exact ⟨_, rfl⟩
    · have : (1 : ℝ) ≤ q := by exact_mod_cast hq
      linarith
    · exact ⟨_, rfl⟩
  obtain ⟨r, hret⟩ := C63_polytope_returns hs hp hq' hn hd he ha ha1 hr hx
  obtain ⟨theta, tau, lam, V, hl, hS, hV, hM⟩ := C63_optimal_polytope hs hp hn hd hr hx hret
  have hu : unpack4 r = .ok (some (.vec (List.ofFn theta)), some (.vec [tau]), some (.vec [lam]), some (.num V)) := by
    unfold unpack4; rw [hl]; rfl
  refine ⟨{ coef := some (listT (List.ofFn theta)), tau := some (listT [tau]), dual_var := some (listT [lam]) }, listT (List.ofFn theta),
    listT [tau], listT [lam], theta, tau, lam, V, ?_, rfl, listT_ofFn theta, rfl, listT_ofFn (fun _ : Fin 1 => tau), rfl,
    listT_ofFn (fun _ : Fin 1 => lam), hS, hV, hM⟩
  unfold portfolioFit
  rw [if_neg (by omega), regAsFloat_ok hg, hc, code_cost, hr', hR]
  simp only [ok_bind, Radius.toNum, XNum.map, Rat.cast_natCast, hret, hu]
  rfl

end

/-- non-vacuity: an exact solver exists, the default costs are decodable (and see the end of
NewsvendorExact for the condition on the radius) -/
example : (∃ solve, ExactSolver solve) ∧ (∃ c, cost_from_str EstKind.logistic.defaults.cost = .ok c) ∧
    (∃ c, cost_from_str EstKind.newsvendor.defaults.cost = .ok c) ∧
    EstKind.portfolio.defaults.cost = joinDash ["t".toList, "NC".toList, decimal 1, decimal 1] := by
  refine ⟨exactSolver_exists, ⟨_, rfl⟩, ⟨_, rfl⟩, by decide⟩

end Skwdro
