import Verif.Props.LinReg
import Verif.Props.Logistic
import Verif.Props.NewsvendorExact
import Verif.Props.Polytope
import Verif.Props.PortfolioTuner

/-! Concrete cases meeting the hypotheses of the theorems on the dedicated solvers and the portfolio tuner, where the theorem's own file has
none.  Each example applies the theorem to a concrete data set and to an exact solver. -/

namespace Skwdro
open Spec MeasureTheory

/-- an exact solver of the convex programs -/
noncomputable def witExact : Oracle := exactSolver_exists.choose
theorem witExact_exact : ExactSolver witExact := exactSolver_exists.choose_spec

/-! ## C58 to C60 -/

example (theta : ℝ) := C60_program2 (k := 5) (u := 7) (by norm_num) [3, 1] (by simp) theta
example (theta : ℝ) := C60_program (k := 5) (u := 7) (by norm_num) [3, 1] theta
example := C60_solver2 witExact_exact (k := 5) (u := 7) (by norm_num) (by norm_num) [3, 1] (by simp)
example (solve : Oracle) := C58_no_crash solve 5 7 (rho := 1) (by norm_num) [3, 1, 2] (by simp) (by simp)
example := C59_zero_iff (k := 5) (u := 7) (rho := 1) (samples := [3, 1, 2]) (by norm_num) (by norm_num) (by norm_num) (by simp) (by simp)

/-- on the demands 1, 2, 3 with prices 5 and 7, ordering 1 has least average cost -/
theorem wit_best (t : ℝ) (_ : 0 ≤ t) : avgCost 5 7 [1, 2, 3] 1 ≤ avgCost 5 7 [1, 2, 3] t := by
  unfold avgCost newsvendor
  simp only [List.map_cons, List.map_nil, List.sum_cons, List.sum_nil, List.length_cons, List.length_nil]
  have h1 := min_le_left t (1 : ℝ)
  have h1' := min_le_right t (1 : ℝ)
  have h2 := min_le_left t (2 : ℝ)
  have h3 := min_le_left t (3 : ℝ)
  norm_num
  linarith

example := C59_saa_iff (k := 5) (u := 7) (rho := 1) (samples := [1, 2, 3]) (by norm_num) (by norm_num) (by norm_num) (by simp) (by simp)
  (theta := 1) (by norm_num) wit_best

example := C59_two_candidates (k := 5) (u := 7) (rho := 1) (samples := [1, 2, 3]) (by norm_num) (by norm_num) (by norm_num) (by simp) (by simp)
  (theta := 1) (by norm_num) wit_best

example := C59_exact_partial witExact_exact (by norm_num) (by norm_num) (by norm_num) (by simp) (by norm_num) (exDemand witExact_exact).choose_spec.choose_spec.1
  (exDemand witExact_exact).choose_spec.choose_spec.2.1

/-! ## C61, C62 -/

example := C61_solver (n := 2) (d := 1) (by norm_num) (rho := 1) (by norm_num) witExact_exact (fun i _ => i) (fun i => 2 * i) true
example (solve : Oracle) := C61_zero_radius_false (n := 2) (d := 1) solve (rho := 0) le_rfl (fun i _ => i) (fun i => 2 * i) true

/-- two points on the line with opposite labels -/
def witP : Fin 2 → Fin 1 → ℝ := fun i _ => i
noncomputable def witL : Fin 2 → ℝ := fun i => if i = 0 then 1 else -1
theorem witL_sign (i : Fin 2) : witL i = 1 ∨ witL i = -1 := by fin_cases i <;> simp [witL]

example : ∃ v, (logisticProgram (1 / 2) 1 witP witL).Feasible v ∧ ∃ Q ∈ LabelBall witP witL 1 (1 / 2),
    logRisk (fun j => v ⟨j, by omega⟩) (v ⟨1 + 1 + 2, by omega⟩) Q ≤ (logisticProgram (1 / 2) 1 witP witL).objective v := by
  obtain ⟨V, h1, ⟨⟨v, hv, _⟩, _⟩, _⟩ := C62_exact (n := 2) (d := 1) (by norm_num) (kappa := 1) (rho := 1 / 2) (by norm_num) (by norm_num)
    (X := witP) (y := witL) witL_sign (fun _ => 2) 1
  obtain ⟨_, Q, hQ, _⟩ := h1.nonempty
  exact ⟨v, hv, Q, hQ, (C62_certificate witL_sign hv hQ).2⟩

example : ∃ v, (logisticProgram0 (1 / 2) 1 witP witL).Feasible v ∧ ∃ Q ∈ LabelBall witP witL 1 (1 / 2),
    logRisk (fun j => v ⟨j, by omega⟩) 0 Q ≤ (logisticProgram0 (1 / 2) 1 witP witL).objective v := by
  obtain ⟨V, h1, _, h0⟩ := C62_exact (n := 2) (d := 1) (by norm_num) (kappa := 1) (rho := 1 / 2) (by norm_num) (by norm_num)
    (X := witP) (y := witL) witL_sign (fun _ => 2) 0
  obtain ⟨⟨v, hv, _⟩, _⟩ := h0 rfl
  obtain ⟨_, Q, hQ, _⟩ := h1.nonempty
  exact ⟨v, hv, Q, hQ, (C62_certificate0 witL_sign hv hQ).2⟩

/-! ## C63 -/

/-- two assets, returns whose sum is between -1 and 1, sup-norm cost -/
noncomputable def witC : Fin 2 → Fin 2 → ℝ := fun l _ => if l = 0 then 1 else -1
noncomputable def witR : Fin 2 → Fin 2 → ℝ := fun i j => if i = j then 1 / 2 else -1 / 4
theorem witR_in (i l : Fin 2) : ∑ j, witC l j * witR i j ≤ (fun _ => 1 : Fin 2 → ℝ) l := by
  fin_cases i <;> fin_cases l <;> simp [Fin.sum_univ_two, witC, witR] <;> norm_num
theorem wit_half : InSimplex (fun _ : Fin 2 => (1 / 2 : ℝ)) := ⟨fun _ => by norm_num, by norm_num⟩

example : ∃ v, (portfolioProgram witC (fun _ => 1) (.fin 1) 1 (1 / 2) (1 / 10) witR).Feasible v ∧
    ∃ Q ∈ AssetBall witC (fun _ => 1) .pinf witR (1 / 10), InSimplex v.theta ∧
      cvarRisk 1 (1 / 2) v.theta v.tau Q ≤ (portfolioProgram witC (fun _ => 1) (.fin 1) 1 (1 / 2) (1 / 10) witR).objective v := by
  obtain ⟨V, h1, h2⟩ := C63_polytope (N := 2) (m := 2) (J := 2) (p := .pinf) (q := .fin 1) (.inr rfl) rfl (by norm_num) (by norm_num) (C := witC)
    (d := fun _ => 1) (eta := 1) (alpha := 1 / 2) (rho := 1 / 10) (by norm_num) (by norm_num) (by norm_num) witR_in wit_half 0
  obtain ⟨_, Q, hQ, _⟩ := h1.nonempty
  obtain ⟨_, v, hv, _⟩ := h2.nonempty
  have := C63_certificate (.inr rfl) rfl hv hQ
  exact ⟨v, hv, Q, hQ, this.1, this.2.2⟩

example (tau : ℝ) := C63_exact (N := 2) (m := 2) (J := 1) (p := .pinf) (q := .fin 1) (.inr rfl) rfl (by norm_num) (by norm_num) (C := fun _ _ => 0)
  (d := fun _ => 0) (by simp) (by simp) (eta := 1) (alpha := 1 / 2) (rho := 1 / 10) (by norm_num) (by norm_num) (by norm_num) witR wit_half tau

theorem wit_portfolio : ∃ r, portfolioDedicated witExact witC (fun _ => 1) .pinf 1 (1 / 2) (1 / 10) witR = .ok r :=
  C63_polytope_returns witExact_exact (q := .fin 1) (.inr rfl) rfl (by norm_num) (by norm_num) (by norm_num) (by norm_num) (by norm_num)
    (by norm_num) witR_in

example := C63_solver witExact_exact (.inr rfl) wit_portfolio.choose_spec
example := C63_optimal_polytope witExact_exact (.inr rfl) (by norm_num) (by norm_num) (by norm_num) witR_in wit_portfolio.choose_spec

/-! ## C83 to C85 -/

/-- a fitted portfolio of one asset with threshold zero, on the returns -1 and 1 -/
noncomputable def witFitted : Fitted 1 := { coef := some (listT (List.ofFn (fun _ : Fin 1 => (1 : ℝ)))), tau := some (listT [0]) }
noncomputable def witRet : Fin 2 → Fin 1 → ℝ := fun k _ => if k = 0 then -1 else 1
noncomputable def witParams : EstParams := { EstKind.portfolio.defaults with eta := 1, alpha := 1 / 2 }

theorem witRet_ne (k : Fin 2) : (∑ j, (fun _ : Fin 1 => (1 : ℝ)) j * witRet k j) + 0 ≠ 0 := by fin_cases k <;> simp [witRet]

example := C84_gradient (P := witParams) (by norm_num [witParams]) (by norm_num [witParams]) (f := witFitted) (w := fun _ => 1) (tau := 0) rfl
  (witRet 0) (witRet_ne 0)
example := C84_kink_partial (P := witParams) (by norm_num [witParams]) (by norm_num [witParams]) (f := witFitted) (w := fun _ => 1) (tau := 0) rfl
  (fun _ => 0) (by simp)
example := C84_no_risk_false (P := EstKind.portfolio.defaults) rfl (f := witFitted) (w := fun _ => 1) (tau := 0) rfl (fun _ => 0) (by simp)
example (z : Fin 1 → ℝ) := C85_upper_partial (p := .fin 2) (q := .fin 2) (.inr (.inr ⟨2, 2, rfl, rfl, Real.HolderConjugate.two_two⟩)) (by norm_num) (by norm_num)
  (P := witParams) (by norm_num [witParams]) (by norm_num [witParams]) (f := witFitted) (w := fun _ => 1) (tau := 0) rfl witRet witRet_ne z
example := C83_radius_partial (n := 2) le_rfl (draw := fun _ => [[1]]) (by simp) (P := witParams) (by norm_num [witParams]) (by norm_num [witParams])
  (X := witRet) (f := witFitted) (w := fun _ => 1) (tau := 0) rfl rfl witRet_ne (.fin 2)
example := C83_partial (n := 2) le_rfl (fit := fun _ => .ok witFitted) (draw := fun _ => [[1]]) (by simp) (P := witParams) (by norm_num [witParams])
  (by norm_num [witParams]) (X := witRet) rfl (w := fun _ => 1) (tau := 0) rfl rfl witRet_ne (code_cost 1 1)
example {G : Type} (ext : TorchExt G) (grads : Autograd 1) (train : Trainer 1) (g : G) := C83_torch_false (n := 2) (by norm_num) (J := 1) (ext := ext)
  (grads := grads) (solve := witExact) (train := train) (p0 := ⟨[0], 0, 1, 1 / 2⟩) (P := { witParams with solver := "entropic_torch".toList }) (by decide)
  (C := fun _ _ => 0) (D := fun _ => 0) (X := witRet) (g := g) (fun _ => [[1]])
example := C83_matrix_partial ![![(1 : ℝ), 2], ![3, 5], ![0, 1]]
example := C83_covariance_false (C83_radius_partial (n := 2) le_rfl (draw := fun _ => [[1]]) (by simp) (P := witParams) (by norm_num [witParams])
  (by norm_num [witParams]) (X := witRet) (f := witFitted) (w := fun _ => 1) (tau := 0) rfl rfl witRet_ne (.fin 2)).choose_spec.choose_spec.choose_spec.2.2.1
example {G : Type} (ext : TorchExt G) (grads : Autograd 1) (train : Trainer 1) (g : G) := C83_kink_false (n := 3) (m := 1) (by norm_num) (by norm_num) (ext := ext)
  (grads := grads) witExact_exact (train := train) (p0 := ⟨[0], 0, 1, 1 / 2⟩) (P := witParams) rfl (by norm_num [witParams]) (by norm_num [witParams])
  (by norm_num [witParams])
  (by
    rintro ⟨k, hk⟩
    have h2 : (3 : ℝ) = 2 * k := by
      have : (1 / 2 : ℝ) * (3 : ℕ) = k := hk
      push_cast at this
      linarith
    have h3 : (3 : ℕ) = 2 * k := by exact_mod_cast h2
    omega)
  (by simp [witParams, EstKind.defaults]) (code_cost 1 1) (.inl ⟨1, le_refl _, by simp [XNum.map]⟩) (fun i _ => i) g (fun _ => [[1]])

end Skwdro
