import Verif.Props.Dedicated
import Verif.Props.StrongDuality

/-!
# C109: comparing fits for several radii

The dedicated programs and the robust loss are affine in (a power of) the radius, with the multiplier as slope.
-/

namespace Skwdro
open Spec Tensor MeasureTheory

/-- minimisers of `f + r * g` for two values of `r` -/
theorem sweep_minimisers {V : Type} {S : V → Prop} {f g : V → ℝ} {r1 r2 : ℝ} (hr : r1 < r2) {v1 v2 : V} (h1 : S v1) (h2 : S v2)
    (o1 : ∀ v, S v → f v1 + r1 * g v1 ≤ f v + r1 * g v) (o2 : ∀ v, S v → f v2 + r2 * g v2 ≤ f v + r2 * g v) :
    g v2 ≤ g v1 ∧ (0 ≤ r1 → f v1 ≤ f v2) ∧ g v2 * (r2 - r1) ≤ (f v2 + r2 * g v2) - (f v1 + r1 * g v1) ∧
      (f v2 + r2 * g v2) - (f v1 + r1 * g v1) ≤ g v1 * (r2 - r1) := by
  have a := o1 v2 h2
  have b := o2 v1 h1
  have hg : g v2 ≤ g v1 := by
    by_contra hc
    rw [not_le] at hc
    nlinarith
  refine ⟨hg, fun h0 => ?_, by linarith, by linarith⟩
  nlinarith

section
variable {n d : ℕ} {solve : Oracle}

/-- **C109** Dedicated linear regression for two radii `r1 < r2` on the same data: the larger radius gives coefficients of
smaller or equal norm and a larger or equal training error, and the smallest worst-case error grows between `|w2|` and `|w1|`
times the difference of the radii. -/
theorem C109_linreg_program {r1 r2 : ℝ} (h1 : 0 ≤ r1) (hr : r1 < r2) (X : Fin n → Fin d → ℝ) (y : Fin n → ℝ) (fi : Bool)
    {v1 v2 : (Fin d → ℝ) × ℝ} (o1 : (linregProgram r1 X y fi).Optimal v1) (o2 : (linregProgram r2 X y fi).Optimal v2) :
    norm2 v2.1 ≤ norm2 v1.1 ∧ rmse X y v1.1 v1.2 ≤ rmse X y v2.1 v2.2 ∧
    norm2 v2.1 * (r2 - r1) ≤ (linregProgram r2 X y fi).objective v2 - (linregProgram r1 X y fi).objective v1 ∧
    (linregProgram r2 X y fi).objective v2 - (linregProgram r1 X y fi).objective v1 ≤ norm2 v1.1 * (r2 - r1) := by
  obtain ⟨w1, b1⟩ := v1
  obtain ⟨w2, b2⟩ := v2
  have k1 : ∀ v, linAllowed fi v → rmse X y w1 b1 + r1 * norm2 w1 ≤ rmse X y v.1 v.2 + r1 * norm2 v.1 := fun v hv => by
    have := o1.2 v ((linreg_feasible ..).2 hv)
    rwa [linreg_objective, linreg_objective] at this
  have k2 : ∀ v, linAllowed fi v → rmse X y w2 b2 + r2 * norm2 w2 ≤ rmse X y v.1 v.2 + r2 * norm2 v.1 := fun v hv => by
    have := o2.2 v ((linreg_feasible ..).2 hv)
    rwa [linreg_objective, linreg_objective] at this
  obtain ⟨a, b, c, e⟩ := sweep_minimisers (f := fun v : (Fin d → ℝ) × ℝ => rmse X y v.1 v.2) (g := fun v => norm2 v.1) hr
    ((linreg_feasible ..).1 o1.1) ((linreg_feasible ..).1 o2.1) k1 k2
  rw [linreg_objective, linreg_objective]
  exact ⟨a, b h1, c, e⟩

variable {G : Type} {ext : TorchExt G} {P : EstParams} {g g' : G}

/-- **C109** The same for two fits of the estimator with `solver="dedicated"`, equal but for the radius: both return, the larger
radius stores coefficients of smaller or equal norm, and has the larger or equal training error. -/
theorem C109_linreg (hs : ExactSolver solve) {grads : Autograd d} {train : Trainer d} {init : LinInit d} (hP : P.solver = "dedicated".toList)
    (hc : ∃ c, cost_from_str P.cost = .ok c) {r1 r2 : ℝ} (h1 : 0 < r1) (hr : r1 < r2) (hn : 0 < n) (hd : 0 < d)
    (X : Fin n → Fin d → ℝ) (y : Fin n → ℝ) :
    ∃ f1 f2 wT1 wT2 bT1 bT2 w1 w2 b1 b2, linregFit ext grads solve train init { P with rho := .num r1 } X y g = .ok f1 ∧
      linregFit ext grads solve train init { P with rho := .num r2 } X y g' = .ok f2 ∧
      f1.coef = some wT1 ∧ IsVec wT1 w1 ∧ f1.intercept = some bT1 ∧ IsVec bT1 (fun _ : Fin 1 => b1) ∧
      f2.coef = some wT2 ∧ IsVec wT2 w2 ∧ f2.intercept = some bT2 ∧ IsVec bT2 (fun _ : Fin 1 => b2) ∧
      norm2 w2 ≤ norm2 w1 ∧ rmse X y w1 b1 ≤ rmse X y w2 b2 := by
  obtain ⟨c, hc⟩ := hc
  have hr' : route .linreg P.solver = .ok .dedicated := by rw [(C66_route_partial .linreg P.solver).2.1 hP]; rfl
  have key : ∀ (r : ℝ) (_ : 0 < r) (g : G), ∃ v, (linregProgram r X y P.fit_intercept).Optimal v ∧
      linregFit ext grads solve train init { P with rho := .num r } X y g =
        .ok { coef := some (listT (List.ofFn v.1)), intercept := some (listT [v.2]) } := by
    intro r h g
    obtain ⟨v, hv⟩ := (hs _ (linregProgram r X y P.fit_intercept)).2 (linreg_exists hn h X y P.fit_intercept)
    refine ⟨v, (hs _ _).1 v hv, ?_⟩
    obtain ⟨r', hw, hu⟩ := wrap3 (some (.vec (List.ofFn v.1))) (some (.vec [v.2])) none
    unfold linregFit
    rw [if_neg (by omega), hc, hr']
    simp only [ok_bind, linregAt, linregDedicated, if_pos h, hv, hw, hu]
    rfl
  obtain ⟨v1, o1, e1⟩ := key r1 h1 g
  obtain ⟨v2, o2, e2⟩ := key r2 (h1.trans hr) g'
  obtain ⟨a, b, -, -⟩ := C109_linreg_program h1.le hr X y _ o1 o2
  exact ⟨_, _, _, _, _, _, v1.1, v2.1, v1.2, v2.2, e1, e2, rfl, listT_ofFn v1.1, rfl, listT_ofFn (fun _ : Fin 1 => v1.2), rfl,
    listT_ofFn v2.1, rfl, listT_ofFn (fun _ : Fin 1 => v2.2), a, b⟩

/-- the multiplier and the value of two dedicated fits -/
structure Price (r1 r2 lam1 lam2 V1 V2 : ℝ) : Prop where
  multiplier : lam2 ≤ lam1
  above : lam2 * (r2 - r1) ≤ V2 - V1
  below : V2 - V1 ≤ lam1 * (r2 - r1)

/-- a program of objective `lam * rho + a`, whose constraints do not depend on `rho` -/
theorem sweep_program {V : Type} {F : ℝ → Program V} {lam a : V → ℝ} (ho : ∀ r v, (F r).objective v = lam v * r + a v)
    (hf : ∀ r r' v, (F r).Feasible v → (F r').Feasible v) {r1 r2 : ℝ} (hr : r1 < r2) {v1 v2 : V} (o1 : (F r1).Optimal v1)
    (o2 : (F r2).Optimal v2) : Price r1 r2 (lam v1) (lam v2) ((F r1).objective v1) ((F r2).objective v2) := by
  have e : ∀ r v, (F r).objective v = a v + r * lam v := fun r v => by rw [ho]; ring
  obtain ⟨x, -, y, z⟩ := sweep_minimisers (S := (F r1).Feasible) (f := a) (g := lam) hr o1.1 (hf _ _ _ o2.1)
    (fun v hv => by rw [← e, ← e]; exact o1.2 v hv) (fun v hv => by rw [← e, ← e]; exact o2.2 v (hf _ _ _ hv))
  rw [← e, ← e] at y z
  exact ⟨x, y, z⟩

/-- **C109** Dedicated logistic regression for two radii `r1 < r2`: the multiplier returned for the larger radius is smaller or
equal, and the robust value grows at a rate between the two multipliers: the multiplier is the price of the radius. -/
theorem C109_logistic_solver (hs : ExactSolver solve) {kappa r1 r2 : ℝ} (hr : r1 < r2) {X : Fin n → Fin d → ℝ} {y : Fin n → ℝ} {fi : Bool}
    {R1 R2 : SolverResult SVal} (h1 : logisticDedicated solve r1 kappa X y fi = .ok R1)
    (h2 : logisticDedicated solve r2 kappa X y fi = .ok R2) :
    ∃ w1 w2 b1 b2 lam1 lam2 V1 V2, R1.toList = .ok [some (.vec w1), some (.num b1), some (.num lam1), some (.num V1)] ∧
      R2.toList = .ok [some (.vec w2), some (.num b2), some (.num lam2), some (.num V2)] ∧ Price r1 r2 lam1 lam2 V1 V2 := by
  unfold logisticDedicated at h1 h2
  split_ifs at h1 h2 with h0 hfi
  · cases e1 : solve _ (logisticProgram r1 kappa X y) with
    | none => rw [e1] at h1; simp at h1
    | some v1 =>
      cases e2 : solve _ (logisticProgram r2 kappa X y) with
      | none => rw [e2] at h2; simp at h2
      | some v2 =>
        rw [e1] at h1
        rw [e2] at h2
        cases h1
        cases h2
        exact ⟨_, _, _, _, _, _, _, _, rfl, rfl, sweep_program (F := fun r => logisticProgram r kappa X y)
          (lam := fun v => v ⟨d, by omega⟩) (fun _ _ => rfl) (fun _ _ _ h => h) hr ((hs _ _).1 _ e1) ((hs _ _).1 _ e2)⟩
  · cases e1 : solve _ (logisticProgram0 r1 kappa X y) with
    | none => rw [e1] at h1; simp at h1
    | some v1 =>
      cases e2 : solve _ (logisticProgram0 r2 kappa X y) with
      | none => rw [e2] at h2; simp at h2
      | some v2 =>
        rw [e1] at h1
        rw [e2] at h2
        cases h1
        cases h2
        exact ⟨_, _, _, _, _, _, _, _, rfl, rfl, sweep_program (F := fun r => logisticProgram0 r kappa X y)
          (lam := fun v => v ⟨d, by omega⟩) (fun _ _ => rfl) (fun _ _ _ h => h) hr ((hs _ _).1 _ e1) ((hs _ _).1 _ e2)⟩

/-- **C109** The same for the dedicated portfolio solver. -/
theorem C109_portfolio_solver {N m J : ℕ} (hs : ExactSolver solve) {p : XNum ℝ} {C : Fin J → Fin m → ℝ} {D : Fin J → ℝ} {eta alpha r1 r2 : ℝ}
    (hr : r1 < r2) {X : Fin N → Fin m → ℝ} {R1 R2 : SolverResult SVal} (h1 : portfolioDedicated solve C D p eta alpha r1 X = .ok R1)
    (h2 : portfolioDedicated solve C D p eta alpha r2 X = .ok R2) :
    ∃ w1 w2 t1 t2 lam1 lam2 V1 V2, R1.toList = .ok [some (.vec w1), some (.vec t1), some (.vec [lam1]), some (.num V1)] ∧
      R2.toList = .ok [some (.vec w2), some (.vec t2), some (.vec [lam2]), some (.num V2)] ∧ Price r1 r2 lam1 lam2 V1 V2 := by
  unfold portfolioDedicated at h1 h2
  split_ifs at h1 h2 with h0 h0'
  cases hq : pfQ p with
  | error e => rw [hq] at h1; simp at h1
  | ok q =>
    rw [hq] at h1 h2
    simp only [ok_bind] at h1 h2
    split_ifs at h1 h2 with hcp
    cases e1 : solve _ (portfolioProgram C D q eta alpha r1 X) with
    | none => rw [e1] at h1; simp at h1
    | some v1 =>
      cases e2 : solve _ (portfolioProgram C D q eta alpha r2 X) with
      | none => rw [e2] at h2; simp at h2
      | some v2 =>
        rw [e1] at h1
        rw [e2] at h2
        cases h1
        cases h2
        exact ⟨_, _, _, _, _, _, _, _, rfl, rfl, sweep_program (F := fun r => portfolioProgram C D q eta alpha r X)
          (lam := fun v => v.lam) (fun _ _ => rfl) (fun _ _ _ h => h) hr ((hs _ _).1 _ e1) ((hs _ _).1 _ e2)⟩

/-- what a dedicated logistic fit stores, from what the solver returns -/
theorem logisticFit_of_solver {L : Type} [LinearOrder L] {grads : Autograd d} {train : Trainer d} {init : LinInit d}
    (hP : P.solver = "dedicated".toList) (hc : ∃ c, cost_from_str P.cost = .ok c) {rho : ℝ} (hR : P.rho = .num rho)
    (hd : 0 < d) {X : Fin n → Fin d → ℝ} {y : Fin n → L} {c0 c1 : L} (hcl : npUnique y = [c0, c1]) (hn : 0 < n)
    {r : SolverResult SVal} (hret : logisticDedicated solve rho 1000 X (fun i => encodeBinary [c0, c1] (y i)) P.fit_intercept = .ok r)
    {w : List ℝ} {b lam V : ℝ} (hl : r.toList = .ok [some (.vec w), some (.num b), some (.num lam), some (.num V)]) :
    logisticFit ext grads solve train init P X y g = .ok
      { coef := some (listT w), intercept := some (Tensor.scalar b), dual_var := some (Tensor.scalar lam), classes := [c0, c1] } := by
  obtain ⟨c, hc⟩ := hc
  have hr' : route .logistic P.solver = .ok .dedicated := by rw [(C66_route_partial .logistic P.solver).2.1 hP]; rfl
  have hu : unpack4 r = .ok (some (.vec w), some (.num b), some (.num lam), some (.num V)) := by unfold unpack4; rw [hl]; rfl
  unfold logisticFit
  rw [if_neg (by omega)]
  dsimp only
  rw [hcl, if_neg (by simp), hc, hr', hR]
  simp only [ok_bind]
  rw [if_neg (by simp)]
  simp only [ok_bind, Radius.toNum, hret, hu]
  rfl

theorem npUnique_pair {L : Type} [LinearOrder L] {y : Fin n → L} {c0 c1 : L} (hlt : c0 < c1) (hy : ∀ i, y i = c0 ∨ y i = c1)
    (h0 : ∃ i, y i = c0) (h1 : ∃ i, y i = c1) : npUnique y = [c0, c1] := by
  have : Finset.univ.image y = {c0, c1} := by
    ext l
    simp only [Finset.mem_image, Finset.mem_univ, true_and, Finset.mem_insert, Finset.mem_singleton]
    constructor
    · rintro ⟨i, rfl⟩; exact hy i
    · rintro (rfl | rfl)
      · exact h0
      · exact h1
  unfold npUnique
  rw [this]
  apply List.Perm.eq_of_pairwise (le := (· ≤ ·)) (fun x y _ _ h1 h2 => le_antisymm h1 h2) (Finset.pairwise_sort _ _)
  · simp [hlt.le]
  · rw [List.perm_ext_iff_of_nodup (Finset.sort_nodup _ _) (by simp [hlt.ne])]
    simp

/-- **C109** Two fits of a binary logistic regression with `solver="dedicated"`, equal but for the radius: both return, and the
dual variable stored for the larger radius is smaller or equal. -/
theorem C109_logistic {L : Type} [LinearOrder L] (hs : ExactSolver solve) {grads : Autograd d} {train : Trainer d} {init : LinInit d}
    (hP : P.solver = "dedicated".toList) (hc : ∃ c, cost_from_str P.cost = .ok c) {r1 r2 : ℝ} (h1 : 0 < r1) (hr : r1 < r2)
    (hd : 0 < d) (X : Fin n → Fin d → ℝ) {y : Fin n → L} {c0 c1 : L} (hlt : c0 < c1) (hy : ∀ i, y i = c0 ∨ y i = c1)
    (y0 : ∃ i, y i = c0) (y1 : ∃ i, y i = c1) :
    ∃ f1 f2 l1 l2 lam1 lam2, logisticFit ext grads solve train init { P with rho := .num r1 } X y g = .ok f1 ∧
      logisticFit ext grads solve train init { P with rho := .num r2 } X y g' = .ok f2 ∧
      f1.dual_var = some l1 ∧ IsScalar l1 lam1 ∧ f2.dual_var = some l2 ∧ IsScalar l2 lam2 ∧ lam2 ≤ lam1 := by
  have hn : 0 < n := y0.choose.pos
  have hcl := npUnique_pair hlt hy y0 y1
  have hsv : ∀ i, encodeBinary [c0, c1] (y i) = 1 ∨ encodeBinary [c0, c1] (y i) = -1 := by
    intro i
    rcases hy i with h | h
    · rw [h]; simp [encodeBinary]
    · rw [h]; simp [encodeBinary, hlt.ne]
  obtain ⟨-, -, -, -, R1, e1, -⟩ := C62_solver hn (by norm_num : (0 : ℝ) ≤ 1000) h1 hs (X := X) hsv P.fit_intercept
  obtain ⟨-, -, -, -, R2, e2, -⟩ := C62_solver hn (by norm_num : (0 : ℝ) ≤ 1000) (h1.trans hr) hs (X := X) hsv P.fit_intercept
  obtain ⟨w1, w2, b1, b2, lam1, lam2, V1, V2, l1, l2, hp⟩ := C109_logistic_solver hs hr e1 e2
  exact ⟨_, _, _, _, lam1, lam2, logisticFit_of_solver (P := { P with rho := .num r1 }) hP hc rfl hd hcl hn e1 l1,
    logisticFit_of_solver (P := { P with rho := .num r2 }) hP hc rfl hd hcl hn e2 l2, rfl, ⟨rfl, rfl⟩, rfl, ⟨rfl, rfl⟩, hp.multiplier⟩

/-- **C109** Two fits of a portfolio with `solver="dedicated"`, equal but for the radius: both return, and the dual variable
stored for the larger radius is smaller or equal. -/
theorem C109_portfolio {J q p : ℕ} (hq : 1 ≤ q) (hs : ExactSolver solve) {grads : Autograd d} {train : Trainer d} {p0 : Portfolio}
    (hP : P.solver = "dedicated".toList) (hc : P.cost = joinDash ["t".toList, "NC".toList, decimal q, decimal p]) {r1 r2 : ℝ}
    (h1 : 0 ≤ r1) (hr : r1 < r2) (he : 0 ≤ P.eta) (ha : 0 < P.alpha) (ha1 : P.alpha ≤ 1) (hg : P.solver_reg ≠ none)
    (hn : 0 < n) (hd : 0 < d) {C : Fin J → Fin d → ℝ} {D : Fin J → ℝ} {X : Fin n → Fin d → ℝ} (hx : ∀ i l, ∑ j, C l j * X i j ≤ D l) :
    ∃ f1 f2 l1 l2 lam1 lam2, portfolioFit ext grads solve train p0 { P with rho := .num r1 } C D X g = .ok f1 ∧
      portfolioFit ext grads solve train p0 { P with rho := .num r2 } C D X g' = .ok f2 ∧
      f1.dual_var = some l1 ∧ IsVec l1 (fun _ : Fin 1 => lam1) ∧ f2.dual_var = some l2 ∧ IsVec l2 (fun _ : Fin 1 => lam2) ∧
      lam2 ≤ lam1 := by
  have hr' : route .portfolio P.solver = .ok .dedicated := by rw [(C66_route_partial .portfolio P.solver).2.1 hP]; rfl
  have hp : NormOrder (.fin (q : ℝ)) := Or.inl ⟨q, by exact_mod_cast hq, rfl⟩
  obtain ⟨q', hq'⟩ : ∃ q', pfQ (.fin (q : ℝ)) = .ok q' := by
    simp only [pfQ]
    split_ifs with h1 h2
    · exact ⟨_, rfl⟩
    · have : (1 : ℝ) ≤ q := by exact_mod_cast hq
      linarith
    · exact ⟨_, rfl⟩
  obtain ⟨R1, e1⟩ := C63_polytope_returns hs hp hq' hn hd he ha ha1 h1 hx
  obtain ⟨R2, e2⟩ := C63_polytope_returns hs hp hq' hn hd he ha ha1 (h1.trans hr.le) hx
  obtain ⟨w1, w2, t1, t2, lam1, lam2, V1, V2, k1, k2, hpr⟩ := C109_portfolio_solver hs hr e1 e2
  have key : ∀ (r : ℝ) (R : SolverResult SVal) (w t : List ℝ) (lam V : ℝ) (g : G),
      portfolioDedicated solve C D (.fin (q : ℝ)) P.eta P.alpha r X = .ok R →
      R.toList = .ok [some (.vec w), some (.vec t), some (.vec [lam]), some (.num V)] →
      portfolioFit ext grads solve train p0 { P with rho := .num r } C D X g =
        .ok { coef := some (listT w), tau := some (listT t), dual_var := some (listT [lam]) } := by
    intro r R w t lam V g hret hl
    have hu : unpack4 R = .ok (some (.vec w), some (.vec t), some (.vec [lam]), some (.num V)) := by unfold unpack4; rw [hl]; rfl
    unfold portfolioFit
    rw [if_neg (by omega), regAsFloat_ok (P := { P with rho := .num r }) hg, hc, code_cost, hr']
    simp only [ok_bind, Radius.toNum, XNum.map, Rat.cast_natCast, hret, hu]
    rfl
  exact ⟨_, _, _, _, lam1, lam2, key _ _ _ _ _ _ g e1 k1, key _ _ _ _ _ _ g' e2 k2, rfl, listT_ofFn (fun _ : Fin 1 => lam1), rfl,
    listT_ofFn (fun _ : Fin 1 => lam2), hpr.multiplier⟩

end

/-! ## The robust loss -/

section
variable {G : Type} (ext : TorchExt G) {n m : ℕ} {D : DualLoss} {xi zeta : Tensor ℝ} {xl zl : Option (Tensor ℝ)} {r1 r2 : ℝ}
  {L C : Fin n → Fin m → ℝ}

theorem Plain.withRho (h : Plain D xi xl zeta zl r1 L C) (h2 : 0 < r2) : Plain { D with rho := .num r2 } xi xl zeta zl r2 L C :=
  ⟨rfl, h2, h.eps_pos, h.erm, h.imp, h.n_pos, h.m_pos, h.samples, h.loss, h.cost⟩

/-- **C109** Between two positive radii, at a given model, multiplier and samples, the robust loss grows by exactly the multiplier
times the growth of `rho^p`; in particular a larger radius never gives a smaller robust loss. -/
theorem C109_value (h : Plain D xi xl zeta zl r1 L C) (hr : D.reduction = .mean) (h2 : r1 ≤ r2) :
    num (computeDual ext { D with rho := .num r2 } xi xl zeta zl) =
      num (computeDual ext D xi xl zeta zl) + D.lam * (r2 ^ D.cost.power - r1 ^ D.cost.power) ∧
    (0 ≤ D.lam → 0 ≤ D.cost.power →
      num (computeDual ext D xi xl zeta zl) ≤ num (computeDual ext { D with rho := .num r2 } xi xl zeta zl)) := by
  have e : num (computeDual ext { D with rho := .num r2 } xi xl zeta zl) =
      num (computeDual ext D xi xl zeta zl) + D.lam * (r2 ^ D.cost.power - r1 ^ D.cost.power) := by
    rw [num_plain ext h hr, num_plain ext (Plain.withRho h (h.rho_pos.trans_le h2)) hr, robust, robust]
    ring
  refine ⟨e, fun hl hp => ?_⟩
  rw [e]
  have := Real.rpow_le_rpow h.rho_pos.le h2 hp
  nlinarith

/-- **C109** Exact training for two positive radii: if a model and a multiplier minimise the robust loss for each radius, over the
same models (`D`, with losses `L` on the same samples) and all non-negative multipliers, then the multiplier of the larger radius
is smaller or equal, and the optimal robust loss grows at a rate (in `rho^p`) between the two multipliers.  Partial: positive radii (see `C109_zero_radius_false`). -/
theorem C109_training_partial {Θ : Type} {D : Θ → DualLoss} {L : Θ → Fin n → Fin m → ℝ} {p : ℝ} (hp : 0 < p)
    (h : ∀ t, Plain (D t) xi xl zeta zl r1 (L t) C) (hred : ∀ t, (D t).reduction = .mean) (hpow : ∀ t, (D t).cost.power = p)
    (hr : r1 < r2) {t1 t2 : Θ} {lam1 lam2 : ℝ} (h1 : 0 ≤ lam1) (h2 : 0 ≤ lam2)
    (o1 : ∀ t lam, 0 ≤ lam → num (computeDual ext { D t1 with rho := .num r1, lam := lam1 } xi xl zeta zl) ≤
      num (computeDual ext { D t with rho := .num r1, lam := lam } xi xl zeta zl))
    (o2 : ∀ t lam, 0 ≤ lam → num (computeDual ext { D t2 with rho := .num r2, lam := lam2 } xi xl zeta zl) ≤
      num (computeDual ext { D t with rho := .num r2, lam := lam } xi xl zeta zl)) :
    Price (r1 ^ p) (r2 ^ p) lam1 lam2 (num (computeDual ext { D t1 with rho := .num r1, lam := lam1 } xi xl zeta zl))
      (num (computeDual ext { D t2 with rho := .num r2, lam := lam2 } xi xl zeta zl)) := by
  have hpos := (h t1).rho_pos
  have e : ∀ t r lam, 0 < r → num (computeDual ext { D t with rho := .num r, lam := lam } xi xl zeta zl) =
      avg (fun i => softmax (D t).epsilon (fun j => L t j i - lam * C j i)) + r ^ p * lam := by
    intro t r lam hr
    rw [num_plain ext (L := L t) (C := C) ((Plain.withRho (h t) hr).withLam lam) (hred t), robust, hpow]
    ring
  have hlt : r1 ^ p < r2 ^ p := Real.rpow_lt_rpow hpos.le hr hp
  have e1 := fun t lam => e t r1 lam hpos
  have e2 := fun t lam => e t r2 lam (hpos.trans hr)
  simp only [e1] at o1 ⊢
  simp only [e2] at o2 ⊢
  obtain ⟨x, -, y, z⟩ := sweep_minimisers (S := fun v : Θ × ℝ => 0 ≤ v.2)
    (f := fun v => avg (fun i => softmax (D v.1).epsilon (fun j => L v.1 j i - v.2 * C j i))) (g := fun v => v.2) hlt
    (v1 := (t1, lam1)) (v2 := (t2, lam2)) h1 h2 (fun v hv => o1 v.1 v.2 hv) (fun v hv => o2 v.1 v.2 hv)
  exact ⟨x, y, z⟩

end

/-- **C109** (violated at radius 0) Passing from the radius 0 to a positive radius can lower the loss: radius 0 evaluates the
data, a positive radius the samples alone, at the price of their cost.  (Here already for the multiplier 1, hence for the best one.) -/
theorem C109_zero_radius_false {G : Type} (ext : TorchExt G) : ∃ (D : DualLoss) (xi y zeta zl : Tensor ℝ) (L C : Fin 3 → Fin 2 → ℝ),
    Plain D xi (some y) zeta (some zl) 1 L C ∧ D.reduction = .mean ∧ 0 < D.lam ∧
    num (computeDual ext D xi (some y) zeta (some zl)) < num (computeDual ext { D with rho := .num 0 } xi (some y) zeta (some zl)) := by
  have h : Plain exD (mat exX) (some (mat exX)) (ten exFar) (some (ten exFar)) 1 _ _ :=
    plain_of_labelled (n := 3) (m := 2) exD_labelled (by norm_num) (by norm_num) (isMat_mat exX) (isTen_ten exFar) (isMat_mat exX)
      (isTen_ten exFar)
  refine ⟨exD, _, _, _, _, _, _, h, rfl, by norm_num [exD], ?_⟩
  rw [num_plain ext h rfl, num_of_scalar (C30_zero_radius ext (zeta := ten exFar) (zl := some (ten exFar)) rfl rfl exD_zero)]
  have hl : ∀ x : Fin 1 → ℝ, lossAt exW (fun (x y : Fin 1 → ℝ) (c : Fin 1) => (x c - y c) ^ 2) x x = 0 := by
    intro x; simp [lossAt, ridge, exW, avg]
  have h0 : avg (fun _ : Fin 2 => (0 : ℝ)) = 0 := by simp [avg]
  have hle : avg (fun i : Fin 2 => softmax exD.epsilon (fun j : Fin 3 => (0 : ℝ) - exD.lam * (exX i 0 - exFar j i 0) ^ 2)) ≤
      avg (fun _ : Fin 2 => (-100 : ℝ)) := by
    refine avg_mono fun i => ?_
    refine softmax_le_max (by norm_num) (by norm_num [exD]) _ fun j => ?_
    have : (0 : ℝ) ≤ (j : ℝ) := by positivity
    simp only [exD, exX, exFar]
    nlinarith
  simp only [hl, exCost_eq, h0, robust]
  have h1 : avg (fun _ : Fin 2 => (-100 : ℝ)) = -100 := by norm_num [avg]
  have h2 : exD.lam * 1 ^ exD.cost.power = 1 := by norm_num [exD]
  rw [h2]
  linarith

/-! ## Examples -/

section
variable {G : Type} (ext : TorchExt G) (solve : Oracle) (hs : ExactSolver solve)
include hs

example (grads : Autograd 2) (train : Trainer 2) (init : LinInit 2) (X : Fin 3 → Fin 2 → ℝ) (y : Fin 3 → ℝ) (g g' : G) :=
  C109_linreg (ext := ext) (g := g) (g' := g') (P := { EstKind.linreg.defaults with solver := "dedicated".toList }) hs (grads := grads)
    (train := train) (init := init) rfl ⟨_, rfl⟩ (r1 := 1 / 10) (r2 := 1) (by norm_num) (by norm_num) (by norm_num) (by norm_num) X y

example (grads : Autograd 2) (train : Trainer 2) (init : LinInit 2) (X : Fin 3 → Fin 2 → ℝ) (g g' : G) :=
  C109_logistic (ext := ext) (g := g) (g' := g') (P := { EstKind.logistic.defaults with solver := "dedicated".toList }) hs (grads := grads)
    (train := train) (init := init) rfl ⟨_, rfl⟩ (r1 := 1 / 10) (r2 := 1) (by norm_num) (by norm_num) (by norm_num) X
    (y := fun i => if i = 0 then (3 : ℕ) else 7) (c0 := 3) (c1 := 7) (by norm_num) (fun i => by split_ifs <;> simp) ⟨0, by simp⟩
    ⟨1, by simp⟩

example (grads : Autograd 2) (train : Trainer 2) (p0 : Portfolio) (X : Fin 3 → Fin 2 → ℝ) (g g' : G) :=
  C109_portfolio (ext := ext) (g := g) (g' := g') (J := 0) (q := 1) (p := 1) (P := { EstKind.portfolio.defaults with solver := "dedicated".toList })
    (by norm_num) hs (grads := grads) (train := train) (p0 := p0) rfl (by decide) (r1 := 0) (r2 := 1) (le_refl _) (by norm_num)
    (by norm_num [EstKind.defaults]) (by norm_num [EstKind.defaults]) (by norm_num [EstKind.defaults]) (by simp [EstKind.defaults]) (by norm_num) (by norm_num)
    (C := fun l => l.elim0) (D := fun l => l.elim0) (X := X) (fun _ l => l.elim0)

end

example {G : Type} (ext : TorchExt G) := C109_value ext exD_plain rfl (r2 := 2) (by norm_num)

/-- best multipliers exist for the radii 1 and 2, so that `C109_training_partial` applies (to a single model) -/
example {G : Type} (ext : TorchExt G) : ∃ lam1 lam2 V1 V2, Price (1 ^ (2 : ℝ)) (2 ^ (2 : ℝ)) lam1 lam2 V1 V2 ∧
    IsLeast {v | ∃ lam, 0 ≤ lam ∧ v = num (computeDual ext { exD with rho := .num 1, lam := lam } (mat exX) (some (mat exX)) (ten exZ) (some (ten exZ)))} V1 ∧
    IsLeast {v | ∃ lam, 0 ≤ lam ∧ v = num (computeDual ext { exD with rho := .num 2, lam := lam } (mat exX) (some (mat exX)) (ten exZ) (some (ten exZ)))} V2 := by
  have hz : avg (fun i : Fin 2 => costAt exD.cost (exX i) (exZ 0 i) (exX i) (exZ 0 i)) = 0 := by simp [exCost_eq, exZ, exX, avg]
  obtain ⟨V1, k1, -⟩ := C95_strong_duality ext exD_plain rfl (fun _ => 0) (by rw [hz]; norm_num [exD])
  obtain ⟨V2, k2, -⟩ := C95_strong_duality ext (Plain.withRho exD_plain (r2 := 2) (by norm_num)) rfl (fun _ => 0)
    (by rw [hz]; exact Real.rpow_pos_of_pos (by norm_num) _)
  obtain ⟨lam1, p1, rfl⟩ := k1.1
  obtain ⟨lam2, p2, rfl⟩ := k2.1
  exact ⟨lam1, lam2, _, _, C109_training_partial ext (Θ := Unit) (D := fun _ => exD) (L := fun _ => _) (p := 2) (by norm_num) (fun _ => exD_plain) (fun _ => rfl)
    (fun _ => rfl) (by norm_num) (t1 := ()) (t2 := ()) p1 p2 (fun _ lam hl => k1.2 ⟨lam, hl, rfl⟩) (fun _ lam hl => k2.2 ⟨lam, hl, rfl⟩),
    k1, k2⟩

end Skwdro
