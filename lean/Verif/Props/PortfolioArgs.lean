import Verif.Model.PortfolioArgs
import Verif.Props.Dedicated
import Verif.Props.Scores

/-! # C127: bounds on the returns given to `Portfolio` -/

namespace Skwdro
open Spec Tensor MeasureTheory

variable {G : Type} {n m : ℕ} {ext : TorchExt G} {grads : Autograd m} {solve : Oracle} {train : Trainer m} {p0 : Portfolio} {P : EstParams} {g : G}

/-- with one constraint, bounds of shape `(1,)` and `(1, 1)` give the same program -/
theorem portfolioProgramCol_one {N : ℕ} (C : Fin 1 → Fin m → ℝ) (d : Fin 1 → ℝ) (q : XNum ℝ) (eta alpha rho : ℝ) (samples : Fin N → Fin m → ℝ) :
    portfolioProgramCol C d q eta alpha rho samples = portfolioProgram C d q eta alpha rho samples := by
  simp [portfolioProgramCol, portfolioProgram]

/-- without constraints the whole fit is the one studied elsewhere -/
theorem fitArgs_none (X : Fin n → Fin m → ℝ) :
    portfolioFitArgs ext grads solve train p0 P none none X g = portfolioFit ext grads solve train p0 P (zeroC m) zeroD X g := by
  unfold portfolioFitArgs
  split
  · rw [portfolioFit, if_pos ‹_›]
  · rename_i h
    cases h1 : regAsFloat P with
    | error e => rw [error_bind, portfolioFit, if_neg h, h1, error_bind]
    | ok _ =>
      rw [ok_bind]
      cases h2 : cost_from_str P.cost with
      | error e => rw [error_bind, portfolioFit, if_neg h, h1, ok_bind, h2, error_bind]
      | ok c => rw [ok_bind]

/-- **C127** (violated) If only the matrix or only the vector is given, it is ignored without a word: for all data and settings, the
outcome is that of an estimator built without constraints. -/
theorem C127_half_given_false (C : UserMat) (d : UserVec) (X : Fin n → Fin m → ℝ) :
    portfolioFitArgs ext grads solve train p0 P (some C) none X g = portfolioFitArgs ext grads solve train p0 P none none X g ∧
    portfolioFitArgs ext grads solve train p0 P none (some d) X g = portfolioFitArgs ext grads solve train p0 P none none X g :=
  ⟨rfl, rfl⟩

/-- **C127** (violated) The torch solvers ignore the constraints: for all data and settings and all constraints with the right number of
columns, whatever their bounds, the outcome is that of an estimator built without constraints. -/
theorem C127_torch_false {post : Bool} (hP : route .portfolio P.solver = .ok (.torch post)) {C : UserMat} (hC : C.cols = m) (d : UserVec)
    (X : Fin n → Fin m → ℝ) :
    portfolioFitArgs ext grads solve train p0 P (some C) (some d) X g = portfolioFitArgs ext grads solve train p0 P none none X g := by
  unfold portfolioFitArgs
  simp only [dif_pos hC, hP, ok_bind]

/-- **C127** (partial: a missing argument is not refused, see `C127_half_given_false`) Constraints on another number of assets than the data
are refused with a `ValueError`, whatever the solver, the bounds and the data. -/
theorem C127_columns_partial (hg : P.solver_reg ≠ none) (hc : ∃ c, cost_from_str P.cost = .ok c) {C : UserMat} (hC : C.cols ≠ m) (d : UserVec)
    (X : Fin n → Fin m → ℝ) : portfolioFitArgs ext grads solve train p0 P (some C) (some d) X g = .error .valueError := by
  obtain ⟨c, hc⟩ := hc
  unfold portfolioFitArgs
  rw [regAsFloat_ok hg, hc]
  simp only [ok_bind, dif_neg hC, ite_self]

/-- **C127** (partial: dedicated solver only) A number of bounds different from the number of constraints is refused with a `ValueError`. -/
theorem C127_lengths_partial {k p : ℕ} (hk : 1 ≤ k) (hP : P.solver = "dedicated".toList)
    (hc : P.cost = joinDash ["t".toList, "NC".toList, decimal k, decimal p]) {rho : ℝ} (hR : P.rho = .num rho) (ha : P.alpha ≠ 0)
    (hg : P.solver_reg ≠ none) {C : UserMat} {d : UserVec} (hd : d.len ≠ C.rows) (X : Fin n → Fin m → ℝ) :
    portfolioFitArgs ext grads solve train p0 P (some C) (some d) X g = .error .valueError := by
  have hr : route .portfolio P.solver = .ok .dedicated := by rw [(C66_route_partial .portfolio P.solver).2.1 hP]; rfl
  obtain ⟨q, hq⟩ : ∃ q', pfQ (.fin (k : ℝ)) = .ok q' := by
    have h1 : (1 : ℝ) ≤ k := by exact_mod_cast hk
    simp only [pfQ]
    split_ifs with h1 h2
    · exact ⟨_, rfl⟩
    · linarith
    · exact ⟨_, rfl⟩
  unfold portfolioFitArgs
  split
  · rfl
  rename_i hn
  rw [regAsFloat_ok hg, hc, code_cost]
  simp only [ok_bind]
  split
  · rw [hr, hR]
    simp only [ok_bind, Radius.toNum, portfolioDedicatedArgs, if_neg ha, if_neg (show ¬ n = 0 by tauto), XNum.map, Rat.cast_natCast, hq,
      dif_neg hd, error_bind]
  · rfl

/-- **C127** (partial: dedicated solver, both arguments given with the documented shapes) With bounds of the documented shapes and the
dedicated solver, for all data inside the polytope the fit returns, and the stored weights and threshold have the smallest worst-case
mean-CVaR loss over the laws of returns staying in the polytope `C x <= d` and within `rho` of the sample. -/
theorem C127_optimal_partial {q p : ℕ} (hq : 1 ≤ q) (hs : ExactSolver solve) (hP : P.solver = "dedicated".toList)
    (hc : P.cost = joinDash ["t".toList, "NC".toList, decimal q, decimal p]) {rho : ℝ} (hR : P.rho = .num rho) (hr : 0 ≤ rho) (he : 0 ≤ P.eta)
    (ha : 0 < P.alpha) (ha1 : P.alpha ≤ 1) (hg : P.solver_reg ≠ none) (hn : 0 < n) (hm : 0 < m) {J : ℕ} {C : Fin J → Fin m → ℝ}
    {D : Fin J → ℝ} {X : Fin n → Fin m → ℝ} (hx : ∀ i l, ∑ j, C l j * X i j ≤ D l) :
    ∃ f wT tT theta tau V, portfolioFitArgs ext grads solve train p0 P (some ⟨J, m, C⟩) (some ⟨J, false, D⟩) X g = .ok f ∧
      f.coef = some wT ∧ IsVec wT theta ∧ f.tau = some tT ∧ IsVec tT (fun _ : Fin 1 => tau) ∧ InSimplex theta ∧
      IsLUB {e | ∃ Q ∈ AssetBall C D (.fin q) X rho, e = cvarRisk P.eta P.alpha theta tau Q} V ∧
      ∀ theta' tau', InSimplex theta' → ∀ M, (∀ Q ∈ AssetBall C D (.fin q) X rho, cvarRisk P.eta P.alpha theta' tau' Q ≤ M) → V ≤ M := by
  obtain ⟨f, wT, tT, lT, theta, tau, lam, V, hf, h1, h2, h3, h4, -, -, h5, h6, h7⟩ := C94_portfolio (ext := ext) (grads := grads) (train := train)
    (p0 := p0) (g := g) hq hs hP hc hR hr he ha ha1 hg hn hm hx
  refine ⟨f, wT, tT, theta, tau, V, ?_, h1, h2, h3, h4, h5, h6, h7⟩
  have hr' : route .portfolio P.solver = .ok .dedicated := by rw [(C66_route_partial .portfolio P.solver).2.1 hP]; rfl
  have hq1 : (1 : ℝ) ≤ q := by exact_mod_cast hq
  obtain ⟨q', hq'⟩ : ∃ q', pfQ (.fin (q : ℝ)) = .ok q' := by
    simp only [pfQ]
    split_ifs with h1 h2
    · exact ⟨_, rfl⟩
    · linarith
    · exact ⟨_, rfl⟩
  rw [← hf]
  unfold portfolioFitArgs portfolioFit
  rw [regAsFloat_ok hg, hc, code_cost, hr', hR]
  simp only [ok_bind, Radius.toNum, portfolioDedicatedArgs, if_neg ha.ne', if_neg hn.ne', XNum.map, Rat.cast_natCast, hq']
  rfl

/-! ## Bounds given as a column -/

theorem portfolioCol_feasible {N J : ℕ} {C : Fin J → Fin m → ℝ} {d : Fin J → ℝ} {q : XNum ℝ} (hq : NormOrder q) {eta alpha rho : ℝ}
    {samples : Fin N → Fin m → ℝ} (v : PfVars N m J) :
    (portfolioProgramCol C d q eta alpha rho samples).Feasible v ↔
      InSimplex v.theta ∧ 0 ≤ v.lam ∧ ∀ i k,
        (∀ l, pfB eta alpha k * v.tau + pfA eta alpha k * (∑ j, v.theta j * samples i j)
          + ∑ k', v.gamma (pfIx i k) k' * (d k' - ∑ j, C l j * samples i j) ≤ v.s i) ∧
        pnorm q (fun j => (∑ l, C l j * v.gamma (pfIx i k) l) - pfA eta alpha k * v.theta j) ≤ v.lam ∧
        ∀ l, 0 ≤ v.gamma (pfIx i k) l := by
  unfold Program.Feasible portfolioProgramCol
  simp only [vnorm_ofFn hq]
  constructor
  · intro h
    refine ⟨⟨fun j => ?_, h (fun v => ∑ j, v.theta j = 1) (by simp)⟩, h (fun v => 0 ≤ v.lam) (by simp), fun i k => ?_⟩
    · exact h (fun v => 0 ≤ v.theta j) (List.mem_append_left _ (List.mem_append_right _ (List.mem_map.2 ⟨j, List.mem_finRange j, rfl⟩)))
    · have hmem : ∀ c ∈ [fun v : PfVars N m J => ∀ l, pfB eta alpha k * v.tau + pfA eta alpha k * (∑ j, v.theta j * samples i j)
          + ∑ k', v.gamma (pfIx i k) k' * (d k' - ∑ j, C l j * samples i j) ≤ v.s i,
          fun v => pnorm q (fun j => (∑ l, C l j * v.gamma (pfIx i k) l) - pfA eta alpha k * v.theta j) ≤ v.lam,
          fun v => ∀ l, 0 ≤ v.gamma (pfIx i k) l], c v := by
        intro c hc
        apply h
        refine List.mem_append_right _ (List.mem_flatMap.2 ⟨i, List.mem_finRange i, List.mem_flatMap.2 ⟨k, List.mem_finRange k, hc⟩⟩)
      exact ⟨hmem _ (List.mem_cons_self ..), hmem _ (List.mem_cons_of_mem _ (List.mem_cons_self ..)),
        hmem _ (List.mem_cons_of_mem _ (List.mem_cons_of_mem _ (List.mem_cons_self ..)))⟩
  · rintro ⟨⟨h1, h2⟩, h3, h4⟩ c hc
    rcases List.mem_append.1 hc with hc | hc
    · rcases List.mem_append.1 hc with hc | hc
      · rcases List.mem_cons.1 hc with rfl | hc
        · exact h2
        · rw [List.mem_singleton] at hc
          subst hc
          exact h3
      · obtain ⟨j, -, rfl⟩ := List.mem_map.1 hc
        exact h1 j
    · obtain ⟨i, -, hc⟩ := List.mem_flatMap.1 hc
      obtain ⟨k, -, hc⟩ := List.mem_flatMap.1 hc
      obtain ⟨k1, k2, k3⟩ := h4 i k
      simp only [List.mem_cons, List.not_mem_nil, or_false] at hc
      rcases hc with rfl | rfl | rfl
      exacts [k1, k2, k3]

/-- the program built from a column of bounds is a restriction of the intended one (when there is a constraint at all) -/
theorem portfolioCol_restricts {N J : ℕ} {C : Fin J → Fin m → ℝ} {d : Fin J → ℝ} (hJ : 0 < J) {q : XNum ℝ} (hq : NormOrder q)
    {eta alpha rho : ℝ} {samples : Fin N → Fin m → ℝ} {v : PfVars N m J} (hv : (portfolioProgramCol C d q eta alpha rho samples).Feasible v) :
    (portfolioProgram C d q eta alpha rho samples).Feasible v := by
  obtain ⟨h1, h2, h3⟩ := (portfolioCol_feasible hq v).1 hv
  refine (portfolio_feasible hq v).2 ⟨h1, h2, fun i k => ⟨?_, (h3 i k).2.1, (h3 i k).2.2⟩⟩
  obtain ⟨l0, -, hl0⟩ := Finset.exists_min_image Finset.univ (fun l => ∑ j, C l j * samples i j) ⟨⟨0, hJ⟩, Finset.mem_univ _⟩
  refine le_trans ?_ ((h3 i k).1 l0)
  have := Finset.sum_le_sum fun l (_ : l ∈ Finset.univ) => mul_le_mul_of_nonneg_left (sub_le_sub_left (hl0 l (Finset.mem_univ _)) (d l)) ((h3 i k).2.2 l)
  linarith

/-- **C127** (partial: not optimal, see `C127_column_false`) Bounds given as a column: if the fit returns, its weights are a portfolio
and, with the stored threshold, the value of the program still bounds their expected loss under every law in the polytope and within `rho` of the
sample. -/
theorem C127_column_partial {N J : ℕ} (hs : ExactSolver solve) {p : XNum ℝ} (hp : NormOrder p) (hJ : 0 < J) {C : Fin J → Fin m → ℝ}
    {D : Fin J → ℝ} {eta alpha rho : ℝ} {samples : Fin N → Fin m → ℝ} {r : SolverResult SVal}
    (h : portfolioDedicatedArgs solve C ⟨J, true, D⟩ p eta alpha rho samples = .ok r) :
    ∃ (theta : Fin m → ℝ) (tau lam V : ℝ), r.toList = .ok [some (.vec (List.ofFn theta)), some (.vec [tau]), some (.vec [lam]), some (.num V)] ∧
      InSimplex theta ∧ 0 ≤ lam ∧ ∀ Q ∈ AssetBall C D p samples rho, cvarRisk eta alpha theta tau Q ≤ V := by
  unfold portfolioDedicatedArgs at h
  split at h
  · cases h
  split at h
  · cases h
  cases hq : pfQ p with
  | error e => rw [hq] at h; simp at h
  | ok q =>
    rw [hq] at h
    have hqo := (pfQ_conj hp hq).normOrder_right
    simp only [ok_bind, dif_pos, if_pos (cpOrder_of hqo), Fin.cast_eq_self, if_true] at h
    cases hv : solve _ (portfolioProgramCol C D q eta alpha rho samples) with
    | none => rw [hv] at h; simp at h
    | some v =>
      rw [hv] at h
      have hf := ((hs _ _).1 v hv).1
      have hf' := portfolioCol_restricts hJ hqo hf
      obtain ⟨r', hr', hl⟩ : ∃ r', wrapResult (.tuple [some (SVal.vec (List.ofFn v.theta)), some (.vec [v.tau]), some (.vec [v.lam]),
          some (.num ((portfolioProgramCol C D q eta alpha rho samples).objective v))]) = .ok r' ∧
          r'.toList = .ok [some (SVal.vec (List.ofFn v.theta)), some (.vec [v.tau]), some (.vec [v.lam]),
          some (.num ((portfolioProgramCol C D q eta alpha rho samples).objective v))] := ⟨_, rfl, rfl⟩
      have : r' = r := by simp only at h; rw [hr'] at h; exact Except.ok.inj h
      subst this
      refine ⟨v.theta, v.tau, v.lam, _, hl, ((portfolio_feasible hqo v).1 hf').1, ((portfolio_feasible hqo v).1 hf').2.1, fun Q hQ => ?_⟩
      exact (C63_certificate hp hq hf' hQ).2.2

/-! ## A case where it matters -/

/-- two assets, both observed once at `-1` -/
def slumpX (_ : Fin 1) (_ : Fin 2) : ℝ := -1
/-- the first asset cannot return less than `-1` nor more than `0` -/
def slumpC : Fin 2 → Fin 2 → ℝ := ![![-1, 0], ![1, 0]]
def slumpD : Fin 2 → ℝ := ![1, 0]
/-- radius 1, dedicated solver -/
noncomputable def slumpP : EstParams := { EstKind.portfolio.defaults with rho := .num 1 }

theorem slumpP_cost : slumpP.cost = joinDash ["t".toList, "NC".toList, decimal 1, decimal 1] := by decide

theorem pnorm_two {v : Fin 2 → ℝ} {c : ℝ} : pnorm .pinf v ≤ c ↔ |v 0| ≤ c ∧ |v 1| ≤ c := by
  simp only [pnorm]
  constructor
  · intro h
    have hb := Finite.bddAbove_range fun i => |v i|
    exact ⟨(le_ciSup hb 0).trans h, (le_ciSup hb 1).trans h⟩
  · rintro ⟨h0, h1⟩
    exact ciSup_le fun i => by fin_cases i <;> assumption

/-- the candidate solutions -/
def slumpV {J : ℕ} (t lam s : ℝ) (gamma : Fin J → ℝ) : PfVars 1 2 J :=
  { lam := lam, s := fun _ => s, theta := ![t, 1 - t], tau := 0, gamma := fun _ => gamma }

/-- the intended program has the first asset alone as its only solution -/
theorem slump_vec : (∃ v, (portfolioProgram slumpC slumpD .pinf 0 (19 / 20) 1 slumpX).Optimal v) ∧
    ∀ v, (portfolioProgram slumpC slumpD .pinf 0 (19 / 20) 1 slumpX).Optimal v → v.theta = ![1, 0] := by
  have hc : (portfolioProgram slumpC slumpD .pinf 0 (19 / 20) 1 slumpX).Feasible (slumpV 1 0 1 ![1, 0]) := by
    refine (portfolio_feasible (.inr rfl) _).2 ⟨⟨fun j => ?_, ?_⟩, le_refl _, fun i k => ⟨?_, pnorm_two.2 ⟨?_, ?_⟩, fun l => ?_⟩⟩
    · fin_cases j <;> simp [slumpV]
    · simp [slumpV]
    · fin_cases k <;> simp [slumpV, slumpX, slumpC, slumpD, pfA, pfB, Fin.sum_univ_two]
    · fin_cases k <;> simp [slumpV, slumpX, slumpC, slumpD, pfA, pfB, Fin.sum_univ_two]
    · fin_cases k <;> simp [slumpV, slumpX, slumpC, slumpD, pfA, pfB, Fin.sum_univ_two]
    · fin_cases l <;> simp [slumpV]
  have key : ∀ v, (portfolioProgram slumpC slumpD .pinf 0 (19 / 20) 1 slumpX).Feasible v →
      1 + v.theta 1 ≤ (portfolioProgram slumpC slumpD .pinf 0 (19 / 20) 1 slumpX).objective v := by
    intro v hv
    obtain ⟨⟨h0, h1⟩, h2, h3⟩ := (portfolio_feasible (.inr rfl) v).1 hv
    obtain ⟨k1, k2, k3⟩ := h3 0 0
    have k2' := pnorm_two.1 k2
    have g0 := k3 0
    have g1 := k3 1
    simp [slumpX, slumpC, slumpD, pfA, pfB, Fin.sum_univ_two] at h1 k1 k2'
    have := le_abs_self (v.theta 1)
    simp [portfolioProgram]
    nlinarith [k2'.1, k2'.2]
  have ho : (portfolioProgram slumpC slumpD .pinf 0 (19 / 20) 1 slumpX).objective (slumpV 1 0 1 ![1, 0]) = 1 := by simp [portfolioProgram, slumpV]
  refine ⟨⟨_, hc, fun w hw => ?_⟩, fun v hv => ?_⟩
  · have := key w hw
    have := ((portfolio_feasible (.inr rfl) w).1 hw).1.1 1
    rw [ho]
    linarith
  · have h1 := key v hv.1
    have h2 := hv.2 _ hc
    obtain ⟨h3, h4⟩ := ((portfolio_feasible (.inr rfl) v).1 hv.1).1
    have h5 := h3 1
    rw [Fin.sum_univ_two] at h4
    funext j
    fin_cases j
    · show v.theta 0 = 1
      linarith
    · show v.theta 1 = 0
      linarith

/-- the program without constraints has the equal weights as its only solution -/
theorem slump_none : (∃ v, (portfolioProgram (zeroC 2) zeroD .pinf 0 (19 / 20) 1 slumpX).Optimal v) ∧
    ∀ v, (portfolioProgram (zeroC 2) zeroD .pinf 0 (19 / 20) 1 slumpX).Optimal v → v.theta = ![1 / 2, 1 / 2] := by
  have hc : (portfolioProgram (zeroC 2) zeroD .pinf 0 (19 / 20) 1 slumpX).Feasible (slumpV (1 / 2) (1 / 2) 1 ![0]) := by
    refine (portfolio_feasible (.inr rfl) _).2 ⟨⟨fun j => ?_, ?_⟩, by norm_num [slumpV], fun i k => ⟨?_, pnorm_two.2 ⟨?_, ?_⟩, fun l => ?_⟩⟩
    · fin_cases j <;> norm_num [slumpV]
    · norm_num [slumpV]
    · fin_cases k <;> norm_num [slumpV, slumpX, zeroC, zeroD, pfA, pfB, Fin.sum_univ_two]
    · fin_cases k <;> norm_num [slumpV, slumpX, zeroC, zeroD, pfA, pfB, Fin.sum_univ_two]
    · fin_cases k <;> norm_num [slumpV, slumpX, zeroC, zeroD, pfA, pfB, Fin.sum_univ_two]
    · fin_cases l; simp [slumpV]
  have key : ∀ v, (portfolioProgram (zeroC 2) zeroD .pinf 0 (19 / 20) 1 slumpX).Feasible v →
      1 + v.theta 0 ≤ (portfolioProgram (zeroC 2) zeroD .pinf 0 (19 / 20) 1 slumpX).objective v ∧
      1 + v.theta 1 ≤ (portfolioProgram (zeroC 2) zeroD .pinf 0 (19 / 20) 1 slumpX).objective v := by
    intro v hv
    obtain ⟨⟨h0, h1⟩, h2, h3⟩ := (portfolio_feasible (.inr rfl) v).1 hv
    obtain ⟨k1, k2, k3⟩ := h3 0 0
    have k2' := pnorm_two.1 k2
    simp [slumpX, zeroC, zeroD, pfA, pfB, Fin.sum_univ_two] at h1 k1 k2'
    have := le_abs_self (v.theta 0)
    have := le_abs_self (v.theta 1)
    simp [portfolioProgram]
    constructor <;> linarith [k2'.1, k2'.2]
  have ho : (portfolioProgram (zeroC 2) zeroD .pinf 0 (19 / 20) 1 slumpX).objective (slumpV (1 / 2) (1 / 2) 1 ![0]) = 3 / 2 := by
    norm_num [portfolioProgram, slumpV]
  refine ⟨⟨_, hc, fun w hw => ?_⟩, fun v hv => ?_⟩
  · have := key w hw
    have := ((portfolio_feasible (.inr rfl) w).1 hw).1.2
    rw [Fin.sum_univ_two] at this
    rw [ho]
    linarith
  · have h1 := key v hv.1
    have h2 := hv.2 _ hc
    obtain ⟨h3, h4⟩ := ((portfolio_feasible (.inr rfl) v).1 hv.1).1
    rw [Fin.sum_univ_two] at h4
    funext j
    fin_cases j
    · show v.theta 0 = 1 / 2
      linarith
    · show v.theta 1 = 1 / 2
      linarith

/-- so does the program built from the bounds given as a column -/
theorem slump_col : (∃ v, (portfolioProgramCol slumpC slumpD .pinf 0 (19 / 20) 1 slumpX).Optimal v) ∧
    ∀ v, (portfolioProgramCol slumpC slumpD .pinf 0 (19 / 20) 1 slumpX).Optimal v → v.theta = ![1 / 2, 1 / 2] := by
  have hc : (portfolioProgramCol slumpC slumpD .pinf 0 (19 / 20) 1 slumpX).Feasible (slumpV (1 / 2) (1 / 2) 1 ![0, 0]) := by
    refine (portfolioCol_feasible (.inr rfl) _).2 ⟨⟨fun j => ?_, ?_⟩, by norm_num [slumpV], fun i k => ⟨fun l => ?_, pnorm_two.2 ⟨?_, ?_⟩, fun l => ?_⟩⟩
    · fin_cases j <;> norm_num [slumpV]
    · norm_num [slumpV]
    · fin_cases k <;> norm_num [slumpV, slumpX, slumpC, slumpD, pfA, pfB, Fin.sum_univ_two]
    · fin_cases k <;> norm_num [slumpV, slumpX, slumpC, slumpD, pfA, pfB, Fin.sum_univ_two]
    · fin_cases k <;> norm_num [slumpV, slumpX, slumpC, slumpD, pfA, pfB, Fin.sum_univ_two]
    · fin_cases l <;> simp [slumpV]
  have key : ∀ v, (portfolioProgramCol slumpC slumpD .pinf 0 (19 / 20) 1 slumpX).Feasible v →
      1 + v.theta 0 ≤ (portfolioProgramCol slumpC slumpD .pinf 0 (19 / 20) 1 slumpX).objective v ∧
      1 + v.theta 1 ≤ (portfolioProgramCol slumpC slumpD .pinf 0 (19 / 20) 1 slumpX).objective v := by
    intro v hv
    obtain ⟨⟨h0, h1⟩, h2, h3⟩ := (portfolioCol_feasible (.inr rfl) v).1 hv
    obtain ⟨k1, k2, k3⟩ := h3 0 0
    have k1' := k1 1
    have k2' := pnorm_two.1 k2
    have g0 := k3 0
    have g1 := k3 1
    simp [slumpX, slumpC, slumpD, pfA, pfB, Fin.sum_univ_two] at h1 k1' k2'
    have := le_abs_self (v.theta 1)
    have := (le_abs_self _).trans k2'.1
    simp [portfolioProgramCol]
    constructor <;> linarith [k2'.2]
  have ho : (portfolioProgramCol slumpC slumpD .pinf 0 (19 / 20) 1 slumpX).objective (slumpV (1 / 2) (1 / 2) 1 ![0, 0]) = 3 / 2 := by
    norm_num [portfolioProgramCol, slumpV]
  refine ⟨⟨_, hc, fun w hw => ?_⟩, fun v hv => ?_⟩
  · have := key w hw
    have := ((portfolioCol_feasible (.inr rfl) w).1 hw).1.2
    rw [Fin.sum_univ_two] at this
    rw [ho]
    linarith
  · have h1 := key v hv.1
    have h2 := hv.2 _ hc
    obtain ⟨h3, h4⟩ := ((portfolioCol_feasible (.inr rfl) v).1 hv.1).1
    rw [Fin.sum_univ_two] at h4
    funext j
    fin_cases j
    · show v.theta 0 = 1 / 2
      linarith
    · show v.theta 1 = 1 / 2
      linarith

theorem slump_fit {grads : Autograd 2} {train : Trainer 2} (hs : ExactSolver solve) :
    (∃ f, portfolioFitArgs ext grads solve train p0 slumpP none none slumpX g = .ok f ∧ f.coef = some (listT [1 / 2, 1 / 2])) ∧
    (∃ f, portfolioFitArgs ext grads solve train p0 slumpP (some ⟨2, 2, slumpC⟩) (some ⟨2, false, slumpD⟩) slumpX g = .ok f ∧
      f.coef = some (listT [1, 0])) ∧
    ∃ f, portfolioFitArgs ext grads solve train p0 slumpP (some ⟨2, 2, slumpC⟩) (some ⟨2, true, slumpD⟩) slumpX g = .ok f ∧
      f.coef = some (listT [1 / 2, 1 / 2]) := by
  have hr : route .portfolio slumpP.solver = .ok .dedicated := by rw [(C66_route_partial .portfolio slumpP.solver).2.1 rfl]; rfl
  have hq : pfQ (.fin ((1 : ℕ) : ℝ)) = .ok .pinf := by simp [pfQ]
  have hg : regAsFloat slumpP = .ok () := rfl
  have hR : slumpP.rho = .num 1 := rfl
  have he : slumpP.eta = 0 := rfl
  have ha : slumpP.alpha = 19 / 20 := by norm_num [slumpP, EstKind.defaults]
  have ha0 : ¬ ((19 / 20 : ℝ) = 0) := by norm_num
  refine ⟨?_, ?_, ?_⟩
  · obtain ⟨v, hv⟩ := (hs _ _).2 slump_none.1
    have ht := slump_none.2 v ((hs _ _).1 v hv)
    rw [fitArgs_none]
    unfold portfolioFit
    rw [hg, slumpP_cost, code_cost, hr, hR, he, ha]
    simp only [ok_bind, Radius.toNum, portfolioDedicated, if_neg ha0, XNum.map, Rat.cast_natCast, hq, if_pos (cpOrder_of (.inr rfl : NormOrder .pinf)), Fin.cast_eq_self, ↓reduceDIte, ↓reduceIte, Bool.false_eq_true, hv]
    refine ⟨_, rfl, ?_⟩
    simp [ht]
    rfl
  · obtain ⟨v, hv⟩ := (hs _ _).2 slump_vec.1
    have ht := slump_vec.2 v ((hs _ _).1 v hv)
    unfold portfolioFitArgs
    rw [hg, slumpP_cost, code_cost, hr, hR, he, ha]
    simp only [ok_bind, Radius.toNum, portfolioDedicatedArgs, portfolioDedicated, if_neg ha0, XNum.map, Rat.cast_natCast, hq, if_pos (cpOrder_of (.inr rfl : NormOrder .pinf)), Fin.cast_eq_self, ↓reduceDIte, ↓reduceIte, Bool.false_eq_true, hv]
    refine ⟨_, rfl, ?_⟩
    simp [ht]
    rfl
  · obtain ⟨v, hv⟩ := (hs _ _).2 slump_col.1
    have ht := slump_col.2 v ((hs _ _).1 v hv)
    unfold portfolioFitArgs
    rw [hg, slumpP_cost, code_cost, hr, hR, he, ha]
    simp only [ok_bind, Radius.toNum, portfolioDedicatedArgs, if_neg ha0, XNum.map, Rat.cast_natCast, hq, if_pos (cpOrder_of (.inr rfl : NormOrder .pinf)), Fin.cast_eq_self, ↓reduceDIte, ↓reduceIte, Bool.false_eq_true, hv]
    refine ⟨_, rfl, ?_⟩
    simp [ht]
    rfl

/-- the first asset cannot lose more than 1 -/
theorem slump_first {Q : Measure (Fin 2 → ℝ)} (hQ : Q ∈ AssetBall slumpC slumpD (.fin (1 : ℕ)) slumpX 1) (tau : ℝ) :
    cvarRisk 0 (19 / 20) ![1, 0] tau Q ≤ 1 := by
  obtain ⟨⟨π, hπ, -, hm, -, -⟩, hC⟩ := hQ
  have hpr : IsProbabilityMeasure Q := by
    rw [← hm]
    exact Measure.isProbabilityMeasure_map measurable_snd.aemeasurable
  have hle : ∀ᵐ x ∂Q, meanCVaR 0 (19 / 20) (∑ j, (![1, 0] : Fin 2 → ℝ) j * x j) tau ≤ 1 := by
    filter_upwards [hC] with x hx
    have := hx 0
    simp [slumpC, slumpD, Fin.sum_univ_two] at this
    simp [meanCVaR, Fin.sum_univ_two]
    linarith
  unfold cvarRisk
  by_cases hi : Integrable (fun x : Fin 2 → ℝ => meanCVaR 0 (19 / 20) (∑ j, (![1, 0] : Fin 2 → ℝ) j * x j) tau) Q
  · refine (integral_mono_ae hi (integrable_const 1) hle).trans ?_
    simp
  · rw [integral_undef hi]
    norm_num

/-- equal weights can lose 3/2 -/
theorem slump_equal (tau : ℝ) : ∃ Q ∈ AssetBall slumpC slumpD (.fin (1 : ℕ)) slumpX 1, cvarRisk 0 (19 / 20) ![1 / 2, 1 / 2] tau Q = 3 / 2 := by
  refine ⟨Measure.dirac ![-1, -2], ⟨⟨Measure.dirac (0, ![-1, -2]), inferInstance, fun i => ?_, ?_, ?_, ?_⟩, ?_⟩, ?_⟩
  · have : i = 0 := Subsingleton.elim _ _
    simp [this, measureReal_def]
  · exact Measure.map_dirac' measurable_snd _
  · exact integrable_dirac (by simp)
  · rw [integral_dirac]
    norm_num [pnorm, slumpX, Fin.sum_univ_two]
  · rw [ae_dirac_iff]
    · intro l
      fin_cases l <;> norm_num [slumpC, slumpD, Fin.sum_univ_two]
    · rw [Set.setOf_forall]
      refine MeasurableSet.iInter fun l => ?_
      exact measurableSet_le (by fun_prop) measurable_const
  · unfold cvarRisk
    rw [integral_dirac]
    norm_num [meanCVaR, Fin.sum_univ_two]

/-- **C127** (violated) Bounds given as a column, of shape `(2, 1)` instead of `(2,)`, are accepted and silently misread: on a sample inside
the polytope the dedicated solver stores equal weights, as if there were no constraints, although some law in the polytope and the ball makes them
lose `3/2` on average, while the weights stored for the bounds of shape `(2,)` lose at most `1` under all these laws. -/
theorem C127_column_false {grads : Autograd 2} {train : Trainer 2} (hs : ExactSolver solve) :
    (∀ i l, ∑ j, slumpC l j * slumpX i j ≤ slumpD l) ∧
    (∃ f, portfolioFitArgs ext grads solve train p0 slumpP (some ⟨2, 2, slumpC⟩) (some ⟨2, true, slumpD⟩) slumpX g = .ok f ∧
      f.coef = some (listT [1 / 2, 1 / 2])) ∧
    (∃ f, portfolioFitArgs ext grads solve train p0 slumpP none none slumpX g = .ok f ∧ f.coef = some (listT [1 / 2, 1 / 2])) ∧
    (∀ tau, ∃ Q ∈ AssetBall slumpC slumpD (.fin (1 : ℕ)) slumpX 1, cvarRisk 0 (19 / 20) ![1 / 2, 1 / 2] tau Q = 3 / 2) ∧
    (∃ f, portfolioFitArgs ext grads solve train p0 slumpP (some ⟨2, 2, slumpC⟩) (some ⟨2, false, slumpD⟩) slumpX g = .ok f ∧
      f.coef = some (listT [1, 0])) ∧
    ∀ tau, ∀ Q ∈ AssetBall slumpC slumpD (.fin (1 : ℕ)) slumpX 1, cvarRisk 0 (19 / 20) ![1, 0] tau Q ≤ 1 := by
  obtain ⟨h1, h2, h3⟩ := slump_fit (ext := ext) (p0 := p0) (g := g) (grads := grads) (train := train) hs
  refine ⟨fun i l => ?_, h3, h1, slump_equal, h2, fun tau Q hQ => slump_first hQ tau⟩
  fin_cases l <;> norm_num [slumpC, slumpD, slumpX, Fin.sum_univ_two]

/-- non-vacuity: the hypotheses of `C127_optimal_partial` and `C127_lengths_partial` on the data above -/
example (hs : ExactSolver solve) {grads : Autograd 2} {train : Trainer 2} :=
  C127_optimal_partial (ext := ext) (grads := grads) (train := train) (p0 := p0) (g := g) (P := slumpP) (q := 1) (p := 1) le_rfl hs rfl slumpP_cost rfl
    zero_le_one (le_refl (0 : ℝ)) (by norm_num [slumpP, EstKind.defaults]) (by norm_num [slumpP, EstKind.defaults]) (by simp [slumpP, EstKind.defaults])
    (n := 1) one_pos two_pos (C127_column_false (ext := ext) (p0 := p0) (g := g) (grads := grads) (train := train) hs).1

example {grads : Autograd 2} {train : Trainer 2} :=
  C127_lengths_partial (ext := ext) (grads := grads) (solve := solve) (train := train) (p0 := p0) (g := g) (P := slumpP) (k := 1) (p := 1) le_rfl rfl slumpP_cost rfl
    (by norm_num [slumpP, EstKind.defaults]) (by simp [slumpP, EstKind.defaults]) (C := ⟨2, 2, slumpC⟩) (d := ⟨1, false, fun _ => 0⟩) (by norm_num) slumpX

/-- a matrix alone is not refused: the fit returns -/
example (hs : ExactSolver solve) {grads : Autograd 2} {train : Trainer 2} :
    ∃ f, portfolioFitArgs ext grads solve train p0 slumpP (some ⟨2, 2, slumpC⟩) none slumpX g = .ok f := by
  obtain ⟨⟨f, hf, -⟩, -⟩ := slump_fit (ext := ext) (p0 := p0) (g := g) (grads := grads) (train := train) hs
  exact ⟨f, ((C127_half_given_false ⟨2, 2, slumpC⟩ ⟨2, false, slumpD⟩ slumpX).1).trans hf⟩

/-- a torch solver -/
example {grads : Autograd 2} {train : Trainer 2} :=
  C127_torch_false (ext := ext) (grads := grads) (solve := solve) (train := train) (p0 := p0) (g := g)
    (P := { slumpP with solver := "entropic_torch".toList }) (post := true) (by decide) (C := ⟨2, 2, slumpC⟩) rfl ⟨2, false, slumpD⟩ slumpX

/-- and of `C127_columns_partial`: two columns for three assets -/
example {grads : Autograd 3} {train : Trainer 3} (X : Fin 4 → Fin 3 → ℝ) :=
  C127_columns_partial (ext := ext) (grads := grads) (solve := solve) (train := train) (p0 := p0) (g := g) (P := slumpP) (by simp [slumpP, EstKind.defaults])
    ⟨_, slumpP_cost ▸ code_cost 1 1⟩ (C := ⟨2, 2, slumpC⟩) (by norm_num) ⟨2, false, slumpD⟩ X

end Skwdro
