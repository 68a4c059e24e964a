import Verif.Props.PresentationFits

/-! # C129: portfolio, newsvendor, and cases where the hypotheses hold -/

namespace Skwdro
open Spec MeasureTheory Tensor

section
variable {d : ℕ}

theorem reorder_measurable (e : Equiv.Perm (Fin d)) : Measurable fun (x : Fin d → ℝ) j => x (e j) :=
  measurable_pi_lambda _ fun j => measurable_pi_apply (e j)

theorem pnorm_reorder (e : Equiv.Perm (Fin d)) (p : XNum ℝ) (v : Fin d → ℝ) : pnorm p (fun j => v (e j)) = pnorm p v := by
  unfold pnorm
  split
  · rw [Equiv.sum_comp e fun j => |v j| ^ _]
  · exact e.iSup_comp (g := fun j => |v j|)
  · rfl

theorem simplex_reorder (e : Equiv.Perm (Fin d)) {w : Fin d → ℝ} (h : InSimplex w) : InSimplex fun j => w (e j) :=
  ⟨fun k => h.1 _, by rw [Equiv.sum_comp e w]; exact h.2⟩

theorem assetBall_reorder {n J : ℕ} (e : Equiv.Perm (Fin d)) {C : Fin J → Fin d → ℝ} {D : Fin J → ℝ} {p : XNum ℝ} (hp : NormOrder p) {X : Fin n → Fin d → ℝ}
    {rho : ℝ} {Q : Measure (Fin d → ℝ)} (h : Q ∈ AssetBall C D p X rho) :
    Q.map (fun x j => x (e j)) ∈ AssetBall (fun l j => C l (e j)) D p (fun i j => X i (e j)) rho := by
  have hb := inBall_map (z := X) (cost := fun a b => pnorm p fun j => a j - b j) (cost' := fun a b => pnorm p fun j => a j - b j) (reorder_measurable e)
    (fun a b => pnorm_reorder e p fun j => a j - b j) (fun i => ((pnorm_continuous hp).comp (by fun_prop)).measurable) h.1
  refine ⟨hb, ?_⟩
  have hm : MeasurableSet {x : Fin d → ℝ | ∀ l, ∑ j, C l (e j) * x j ≤ D l} := by
    rw [Set.setOf_forall]
    exact MeasurableSet.iInter fun l => measurableSet_le (by fun_prop) measurable_const
  rw [ae_map_iff (reorder_measurable e).aemeasurable hm]
  filter_upwards [h.2] with x hx l
  rw [Equiv.sum_comp e fun j => C l j * x j]
  exact hx l

theorem cvar_reorder (e : Equiv.Perm (Fin d)) (eta alpha : ℝ) (theta : Fin d → ℝ) (tau : ℝ) (Q : Measure (Fin d → ℝ)) :
    cvarRisk eta alpha (fun j => theta (e j)) tau (Q.map fun x j => x (e j)) = cvarRisk eta alpha theta tau Q := by
  unfold cvarRisk
  rw [integral_map (reorder_measurable e).aemeasurable (Measurable.aestronglyMeasurable (by unfold meanCVaR; fun_prop))]
  refine integral_congr_ae (ae_of_all _ fun x => ?_)
  simp only
  rw [Equiv.sum_comp e fun j => theta j * x j]

end

section
variable {G : Type} {n n' d : ℕ} {ext : TorchExt G} {solve : Oracle} {P : EstParams} {g : G}

/-- **C129** Portfolio with `solver="dedicated"`: fitting the returns in another order, all of them repeated equally often, with the assets in
another order (in the columns of the data and of the constraints), returns the weights, in this order, of a portfolio that is optimal for
the original data. -/
theorem C129_portfolio {J q p : ℕ} (hq : 1 ≤ q) (hs : ExactSolver solve) {grads : Autograd d} {train : Trainer d} {p0 : Portfolio}
    (hP : P.solver = "dedicated".toList) (hc : P.cost = joinDash ["t".toList, "NC".toList, decimal q, decimal p]) {rho : ℝ}
    (hR : P.rho = .num rho) (hr : 0 ≤ rho) (he : 0 ≤ P.eta) (ha : 0 < P.alpha) (ha1 : P.alpha ≤ 1) (hg : P.solver_reg ≠ none)
    (hn : 0 < n') (hd : 0 < d) {C : Fin J → Fin d → ℝ} {D : Fin J → ℝ} {X : Fin n → Fin d → ℝ} (hx : ∀ i l, ∑ j, C l j * X i j ≤ D l)
    {σ : Fin n' → Fin n} (hσ : ListsEqually σ) (e : Equiv.Perm (Fin d)) :
    ∃ f wT tT theta tau V, portfolioFit ext grads solve train p0 P (fun l j => C l (e j)) D (fun i j => X (σ i) (e j)) g = .ok f ∧
      f.coef = some wT ∧ IsVec wT (fun j => theta (e j)) ∧ f.tau = some tT ∧ IsVec tT (fun _ : Fin 1 => tau) ∧ InSimplex theta ∧
      IsLUB {v | ∃ Q ∈ AssetBall C D (.fin q) X rho, v = cvarRisk P.eta P.alpha theta tau Q} V ∧
      ∀ theta' tau', InSimplex theta' → ∀ M, (∀ Q ∈ AssetBall C D (.fin q) X rho, cvarRisk P.eta P.alpha theta' tau' Q ≤ M) → V ≤ M := by
  have hp : NormOrder (.fin (q : ℝ)) := Or.inl ⟨q, by exact_mod_cast hq, rfl⟩
  have hx' : ∀ i l, ∑ j, C l (e j) * X (σ i) (e j) ≤ D l := fun i l => by
    rw [Equiv.sum_comp e fun j => C l j * X (σ i) j]
    exact hx _ l
  obtain ⟨f, wT, tT, lT, v, tau, lam, V, h1, h2, h3, h4, h5, -, -, h6, h7, h8⟩ :=
    C94_portfolio (ext := ext) (g := g) hq hs (grads := grads) (train := train) (p0 := p0) hP hc hR hr he ha ha1 hg hn hd
      (C := fun l j => C l (e j)) (X := fun i j => X (σ i) (e j)) hx'
  have hball : ∀ Q, Q ∈ AssetBall (fun l j => C l (e j)) D (.fin (q : ℝ)) (fun i j => X (σ i) (e j)) rho ↔
      Q ∈ AssetBall (fun l j => C l (e j)) D (.fin (q : ℝ)) (fun i j => X i (e j)) rho := fun Q =>
    and_congr_left' (C129_same_ball hσ hn (fun i j => X i (e j)) (cost := fun a b => pnorm (.fin (q : ℝ)) fun j => a j - b j)
      (fun i => ((pnorm_continuous hp).comp (by fun_prop)).measurable) rho Q)
  simp only [hball] at h7 h8
  have hback : ∀ Q ∈ AssetBall (fun l j => C l (e j)) D (.fin (q : ℝ)) (fun i j => X i (e j)) rho,
      Q.map (fun x j => x (e.symm j)) ∈ AssetBall C D (.fin (q : ℝ)) X rho := by
    intro Q hQ
    have := assetBall_reorder e.symm hp hQ
    simpa only [Equiv.apply_symm_apply] using this
  have hv : (fun j => (fun k => v (e.symm k)) (e j)) = v := by funext j; simp
  have hr1 : ∀ Q, cvarRisk P.eta P.alpha v tau (Q.map fun x j => x (e j)) = cvarRisk P.eta P.alpha (fun k => v (e.symm k)) tau Q := by
    intro Q
    have := cvar_reorder e P.eta P.alpha (fun k => v (e.symm k)) tau Q
    rwa [hv] at this
  refine ⟨f, wT, tT, fun k => v (e.symm k), tau, V, h1, h2, by rwa [hv], h4, h5, simplex_reorder e.symm h6, ?_, ?_⟩
  · convert h7 using 1
    ext r
    constructor
    · rintro ⟨Q, hQ, rfl⟩
      exact ⟨_, assetBall_reorder e hp hQ, (hr1 Q).symm⟩
    · rintro ⟨Q, hQ, rfl⟩
      exact ⟨_, hback Q hQ, (cvar_reorder e.symm P.eta P.alpha v tau Q).symm⟩
  · intro theta' tau' ht' M hM
    refine h8 (fun j => theta' (e j)) tau' (simplex_reorder e ht') M fun Q hQ => ?_
    have h := hM _ (hback Q hQ)
    rw [← cvar_reorder e, Measure.map_map (reorder_measurable _) (reorder_measurable _)] at h
    have hid : (fun (x : Fin d → ℝ) j => x (e j)) ∘ (fun x j => x (e.symm j)) = id := by
      funext x j
      simp
    rwa [hid, Measure.map_id] at h

/-! ### News vendor -/

theorem npSort_congr {l l' : List ℝ} (h : l.Perm l') : npSort l = npSort l' :=
  List.Perm.eq_of_pairwise (le := (· ≤ ·)) (fun _ _ _ _ h1 h2 => le_antisymm h1 h2) (npSort_sorted l) (npSort_sorted l')
    (((npSort_perm l).trans h).trans (npSort_perm l').symm)

theorem saa2_congr (k u : ℝ) {l l' : List ℝ} (h : l.Perm l') : saaNewsvendor2 solve k u (some l) = saaNewsvendor2 solve k u (some l') := by
  have hz := npSort_congr h
  unfold saaNewsvendor2
  dsimp only
  generalize npSort l = z at hz ⊢
  subst hz
  rfl

theorem dedicated_congr (k u r : ℝ) {l l' : List ℝ} (h : l.Perm l') : newsvendorDedicated solve k u r (some l) = newsvendorDedicated solve k u r (some l') := by
  have hz := npSort_congr h
  unfold newsvendorDedicated
  simp only [saa2_congr k u h]
  generalize npSort l = z at hz ⊢
  subst hz
  rfl

/-- **C129** News vendor with `solver="dedicated"`: the order of the samples and of the columns has no influence at all on the outcome of the fit. -/
theorem C129_newsvendor_order {grads : Autograd 1} {train : Trainer 1} {theta0 : ℝ} (hP : P.solver = "dedicated".toList)
    (X : Fin n → Fin d → ℝ) (σ : Equiv.Perm (Fin n)) (e : Equiv.Perm (Fin d)) :
    newsvendorFit ext grads solve train theta0 P (fun i j => X (σ i) (e j)) g = newsvendorFit ext grads solve train theta0 P X g := by
  have hr' : route .newsvendor P.solver = .ok .dedicated := by rw [(C66_route_partial .newsvendor P.solver).2.1 hP]; rfl
  have hrow : rowMeans (fun i j => X (σ i) (e j)) = fun i => rowMeans X (σ i) := by
    funext i
    unfold rowMeans
    rw [Equiv.sum_comp e fun j => X (σ i) j]
  have hperm : (List.ofFn fun i => rowMeans X (σ i)).Perm (List.ofFn (rowMeans X)) := σ.ofFn_comp_perm (rowMeans X)
  have hat : newsvendorAt solve P.k P.u P.rho (some (List.ofFn fun i => rowMeans X (σ i))) =
      newsvendorAt solve P.k P.u P.rho (some (List.ofFn (rowMeans X))) := by
    unfold newsvendorAt
    cases P.rho with
    | num r => exact dedicated_congr P.k P.u r hperm
    | nan => simp only [saa2_congr P.k P.u hperm]
  unfold newsvendorFit
  rw [hr']
  simp only [ok_bind, hrow, hat]

/-- C129 is false for the news vendor when the samples are repeated: with the demand 1 (prices 0.7 and 1, radius 0.4) the fit orders 1, but with the
same demand given twice it orders nothing. -/
theorem C129_newsvendor_repeated_false (hP : P.solver = "dedicated".toList) (hc : ∃ c, cost_from_str P.cost = .ok c) :
    ∃ (k u rho : ℝ) (X : Fin 1 → Fin 1 → ℝ) (σ : Fin 2 → Fin 1), 0 ≤ k ∧ k ≤ u ∧ 0 < rho ∧ (∀ i j, 0 ≤ X i j) ∧ ListsEqually σ ∧
      ∀ (solve : Oracle) (ext : TorchExt G) (grads : Autograd 1) (train : Trainer 1) (theta0 : ℝ) (g : G), ExactSolver solve →
        ∃ f cT f' cT', newsvendorFit ext grads solve train theta0 { P with k := k, u := u, rho := .num rho } X g = .ok f ∧
          f.coef = some cT ∧ IsScalar cT 1 ∧
          newsvendorFit ext grads solve train theta0 { P with k := k, u := u, rho := .num rho } (fun i => X (σ i)) g = .ok f' ∧
          f'.coef = some cT' ∧ IsScalar cT' 0 := by
  classical
  obtain ⟨c, hc⟩ := hc
  have hr' : route .newsvendor P.solver = .ok .dedicated := by rw [(C66_route_partial .newsvendor P.solver).2.1 hP]; rfl
  refine ⟨7 / 10, 1, 4 / 10, fun _ _ => 1, fun _ => 0, by norm_num, by norm_num, by norm_num, fun _ _ => by norm_num, ?_, ?_⟩
  · intro i
    fin_cases i
    simp
  intro solve ext grads train theta0 g hs
  obtain ⟨r, theta, h1, h2, -, h4, h5⟩ := C60_solver2 hs (k := 7 / 10) (u := 1) (by norm_num) (by norm_num) [1] (by simp)
  have hth : theta = 1 := by
    have := h5 1 (by norm_num)
    unfold avgCost newsvendor at this
    simp at this
    rcases le_total theta 1 with h | h
    · rw [min_eq_left h] at this
      linarith
    · rw [min_eq_right h] at this
      linarith
  subst hth
  have hrow1 : List.ofFn (rowMeans fun (_ : Fin 1) (_ : Fin 1) => (1 : ℝ)) = [1] := by
    simp [rowMeans]
  have hrow2 : List.ofFn (rowMeans fun (_ : Fin 2) (_ : Fin 1) => (1 : ℝ)) = [1, 1] := by
    simp [rowMeans, List.ofFn_succ]
  have hret1 : newsvendorDedicated solve (7 / 10) 1 (4 / 10) (some [1]) = .ok r := by
    unfold newsvendorDedicated
    have hr : List.range ((npSort [1]).length - 1) = [] := rfl
    simp only [hr]
    rw [if_pos (by simp), h1]
    rfl
  have hsort : npSort [1, 1] = [1, 1] := by
    unfold npSort
    apply List.Pairwise.insertionSort_eq
    simp
  obtain ⟨r2, hw2, hr2⟩ : ∃ r2, wrapResult (.tuple [some (SVal.num 0), some (.num 0)]) = .ok r2 ∧ r2.toList = .ok [some (SVal.num 0), some (.num 0)] :=
    ⟨_, rfl, rfl⟩
  have hret2 : newsvendorDedicated solve (7 / 10) 1 (4 / 10) (some [1, 1]) = .ok r2 := by
    rw [← hw2]
    unfold newsvendorDedicated
    simp only [hsort]
    have hl0 : nvLower (4 / 10) ([1, 1] : List ℝ) 0 := by unfold nvLower nvA; norm_num
    have hu0 : nvUpper (4 / 10) ([1, 1] : List ℝ) 0 := by unfold nvUpper nvA; norm_num
    rw [if_neg (not_not.2 ⟨0, by simp, hl0⟩), if_neg (not_not.2 ⟨0, by simp, hu0⟩)]
    have hr : List.range (([1, 1] : List ℝ).length - 1) = [0] := rfl
    rw [hr, List.find?_cons_of_pos (by simp [hl0, hu0])]
    simp only
    rw [if_neg (by norm_num), if_pos (by unfold nvT; norm_num)]
  have hun : unpack2 r = .ok (some (.num 1), some (.num 0)) := by unfold unpack2; rw [h2]; rfl
  refine ⟨{ coef := some (Tensor.scalar 1), dual_var := some (Tensor.scalar 1) }, _,
    { coef := some (Tensor.scalar 0), dual_var := some (Tensor.scalar 0) }, _, ?_, rfl, ⟨rfl, rfl⟩, ?_, rfl, ⟨rfl, rfl⟩⟩
  · unfold newsvendorFit
    rw [if_neg (by omega)]
    simp only [hc, hr', ok_bind, newsvendorAt, hrow1, hret1, hun]
    simp [SVal.toNum, SVal.toTensor]
  · unfold newsvendorFit
    rw [if_neg (by omega)]
    have hun2 : unpack2 r2 = .ok (some (.num 0), some (.num 0)) := by unfold unpack2; rw [hr2]; rfl
    simp only [hc, hr', ok_bind, newsvendorAt, hrow2, hret2, hun2]
    simp [SVal.toNum, SVal.toTensor]

end

/-! ### The hypotheses can hold -/

/-- two samples, each listed twice -/
def exTwice (j : Fin 4) : Fin 2 := if j.val % 2 = 0 then 0 else 1

theorem exTwice_lists : ListsEqually exTwice := by
  unfold ListsEqually exTwice
  decide

/-- a quarter turn -/
def exTurn : Matrix (Fin 2) (Fin 2) ℝ := !![0, -1; 1, 0]

theorem exTurn_orthogonal : exTurn ∈ Matrix.orthogonalGroup (Fin 2) ℝ := by
  rw [Matrix.mem_orthogonalGroup_iff]
  ext i j
  fin_cases i <;> fin_cases j <;> simp [exTurn, Matrix.mul_apply, Fin.sum_univ_two]

/-- `C129_logistic` applies to two points of opposite classes repeated twice, turned by a quarter turn, with classes renamed `false` and `true` in
the other order -/
theorem presentation_applies {G : Type} (ext : TorchExt G) (grads : Autograd 2) (train : Trainer 2) (init : LinInit 2) (g : G) :
    ∃ solve, ExactSolver solve ∧ ∃ f wT bT w b V,
      logisticFit ext grads solve train init { EstKind.logistic.defaults with solver := "dedicated".toList, rho := .num 1 }
        (fun j => rotated exTurn ((fun i k => if i = k then 1 else 0) (exTwice j))) (fun j => decide (exTwice j = 1)) g = .ok f ∧
      f.classes = [false, true] ∧ f.coef = some wT ∧ IsVec wT (fun k => -1 * rotated exTurn w k) ∧ f.intercept = some bT ∧ IsScalar bT (-1 * b) ∧
      IsLUB {e | ∃ Q ∈ LabelBall (fun i k => if i = k then 1 else 0) (fun i : Fin 2 => if i = 0 then 1 else -1) 1000 1, e = logRisk w b Q} V := by
  obtain ⟨solve, hs⟩ := exactSolver_exists
  refine ⟨solve, hs, ?_⟩
  obtain ⟨f, wT, bT, w, b, V, h1, h2, h3, h4, h5, h6, -, h8, -⟩ := C129_logistic (ext := ext) (g := g) (grads := grads) (train := train) (init := init)
    (P := { EstKind.logistic.defaults with solver := "dedicated".toList, rho := .num 1 }) hs rfl ⟨_, rfl⟩ rfl one_pos (by norm_num)
    (fun i k => if i = k then 1 else 0) (s := fun i => if i = 0 then 1 else -1) exTwice_lists exTurn_orthogonal (t := -1) (Or.inr rfl)
    (y := fun j => decide (exTwice j = 1)) (c0 := false) (c1 := true) (by decide) (by decide) (by decide) (by decide)
    (fun j hj => by
      have : exTwice j = 0 := by revert hj; revert j; decide
      simp [this])
    (fun j hj => by
      have : exTwice j = 1 := by simpa using hj
      simp [this])
  exact ⟨f, wT, bT, w, b, V, h1, h2, h3, h4, h5, h6, h8⟩

end Skwdro
