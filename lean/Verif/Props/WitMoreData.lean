import Verif.Props.MoreDataFits
import Verif.Props.MoreDataPortfolio
import Verif.Props.WitFits
import Verif.Props.NewsvendorRegret
import Verif.Props.OneSolution
import Verif.Props.Distance
import Mathlib.Probability.Distributions.Gaussian.Real
import Mathlib.Probability.Independence.InfinitePi

/-! Concrete cases for C136 to C139: normal inputs with labels drawn by a fair coin. -/

namespace Skwdro
open Spec Tensor MeasureTheory ProbabilityTheory Filter Topology

/-- independent draws of any law exist -/
theorem drawsOf_exist {A : Type} [MeasurableSpace A] (nu : Measure A) [IsProbabilityMeasure nu] :
    DrawsOf (Measure.infinitePi fun _ : ℕ => nu) nu fun i ω => ω i where
  meas := fun i => measurable_pi_apply i
  law := fun i => Measure.infinitePi_map_eval _ i
  indep := fun i j hij => (iIndepFun_infinitePi (P := fun _ : ℕ => nu) (X := fun _ u => u) (fun _ => measurable_id)).indepFun hij

/-- a fair coin -/
noncomputable def coinLaw : Measure ℝ := (1 / 2 : ENNReal) • Measure.dirac 1 + (1 / 2 : ENNReal) • Measure.dirac (-1)

instance : IsProbabilityMeasure coinLaw := ⟨by
  simp [coinLaw]
  exact ENNReal.inv_two_add_inv_two⟩

/-- a normal input and the label given by a fair coin -/
noncomputable def coinData : Measure ((Fin 1 → ℝ) × ℝ) := (Measure.pi fun _ => gaussianReal 0 1).prod coinLaw

instance : IsProbabilityMeasure coinData := by unfold coinData; infer_instance

theorem coinLaw_labels : ∀ᵐ y ∂coinLaw, y = 1 ∨ y = -1 := by
  unfold coinLaw
  rw [ae_add_measure_iff]
  constructor <;>
  · refine Measure.ae_smul_measure ?_ _
    have hm : MeasurableSet {y : ℝ | y = 1 ∨ y = -1} := (measurableSet_singleton (1 : ℝ)).union (measurableSet_singleton (-1))
    rw [ae_dirac_iff hm]
    simp

theorem coinData_labels : ∀ᵐ z ∂coinData, z.2 = 1 ∨ z.2 = -1 := by
  have : coinData.map Prod.snd = coinLaw := by unfold coinData; rw [Measure.map_snd_prod]; simp
  have h := coinLaw_labels
  rw [← this] at h
  exact ae_of_ae_map measurable_snd.aemeasurable h

theorem coinData_input (p : ENNReal) (hp : p ≠ ⊤) (j : Fin 1) : MemLp (fun z : (Fin 1 → ℝ) × ℝ => z.1 j) p coinData := by
  have h1 : MemLp (fun x : Fin 1 → ℝ => x j) p (Measure.pi fun _ : Fin 1 => gaussianReal 0 1) := by
    have := memLp_id_gaussianReal' (μ := 0) (v := 1) p hp
    exact this.comp_measurePreserving (measurePreserving_eval (fun _ : Fin 1 => gaussianReal 0 1) j)
  have h2 : MeasurePreserving (Prod.fst : (Fin 1 → ℝ) × ℝ → _) coinData (Measure.pi fun _ : Fin 1 => gaussianReal 0 1) :=
    ⟨measurable_fst, by unfold coinData; rw [Measure.map_fst_prod]; simp⟩
  exact h1.comp_measurePreserving h2

theorem coinData_class (c : ℝ) (hc : c = 1 ∨ c = -1) : coinData.real {z | z.2 = c} ≠ 0 := by
  have e : coinData.real {z | z.2 = c} = coinLaw.real {c} := by
    have : coinData.map Prod.snd = coinLaw := by unfold coinData; rw [Measure.map_snd_prod]; simp
    rw [← this, map_measureReal_apply measurable_snd (measurableSet_singleton c)]
    rfl
  rw [e, measureReal_def]
  rcases hc with rfl | rfl <;> (simp [coinLaw]; try norm_num)

/-- the hypotheses are met -/
example (train : Trainer 1) (init : LinInit 1) := C136_linreg (d := 1) (ext := counterExt) (g := 7) (P := witPD true) witExact_exact (grads := onesGrad 1)
  (train := train) (init := init) rfl default_cost rfl (by norm_num) (by norm_num) (drawsOf_exist coinData)
  (fun j => (coinData_input 2 (by simp) j).integrable_sq) ((integrable_const (1 : ℝ)).congr (by
    filter_upwards [coinData_labels] with z hz
    rcases hz with h | h <;> rw [h] <;> norm_num))

example (train : Trainer 1) (init : LinInit 1) := C136_logistic (d := 1) (ext := counterExt) (g := 7)
  (P := { EstKind.logistic.defaults with solver := "dedicated".toList }) witExact_exact (grads := onesGrad 1)
  (train := train) (init := init) rfl default_cost rfl (by norm_num) (by norm_num) (drawsOf_exist coinData)
  (fun j => memLp_one_iff_integrable.1 (coinData_input 1 (by simp) j)) coinData_labels (coinData_class 1 (Or.inl rfl)) (coinData_class (-1) (Or.inr rfl))

/-- normal returns of two assets -/
noncomputable def normalReturns : Measure (Fin 2 → ℝ) := Measure.pi fun _ => gaussianReal 0 1

instance : IsProbabilityMeasure normalReturns := by unfold normalReturns; infer_instance

theorem normalReturns_integrable (j : Fin 2) : Integrable (fun z : Fin 2 → ℝ => z j) normalReturns :=
  memLp_one_iff_integrable.1 ((memLp_id_gaussianReal' (μ := 0) (v := 1) 1 (by simp)).comp_measurePreserving
    (measurePreserving_eval (fun _ : Fin 2 => gaussianReal 0 1) j))

example (train : Trainer 2) := C136_portfolio (d := 2) (q := 1) (p := 1) le_rfl (ext := counterExt) (g := 7) (P := witParams) witExact_exact (grads := onesGrad 2)
  (train := train) (p0 := ⟨[0, 0], 0, 1, 1 / 2⟩) rfl rfl rfl (by norm_num) (by norm_num [witParams]) (by norm_num [witParams]) (by norm_num [witParams])
  (by simp [witParams, EstKind.defaults]) (by norm_num) (drawsOf_exist normalReturns) normalReturns_integrable

/-! ## C137 -/

/-- demands 0, 1, 2 and the default prices and radius -/
example (train : Trainer 1) := C137_regret (n := 3) (d := 1) (ext := counterExt) (g := 7)
  (P := { EstKind.newsvendor.defaults with solver := "dedicated".toList }) witExact_exact (grads := onesGrad 1) (train := train) (theta0 := 2) rfl ⟨_, code_cost 1 2⟩ rfl
  (by norm_num) (by norm_num [EstKind.defaults]) (by norm_num [EstKind.defaults]) (by norm_num) (fun i _ => i.1) (fun i => by simp [avg])
  (a := 1) (b := 2) (by decide) (by simp [avg]) (fun i hi => by fin_cases i <;> simp_all [avg]) (by simp [avg, Fin.sum_univ_three]; norm_num)

/-- two demands of 1 and a radius of 1 -/
example (train : Trainer 1) := C137_large_radius_false (n := 2) (d := 1) (ext := counterExt) (g := 7)
  (P := { EstKind.newsvendor.defaults with solver := "dedicated".toList, rho := .num 1 }) witExact_exact (grads := onesGrad 1) (train := train) (theta0 := 2) rfl
  ⟨_, code_cost 1 2⟩ rfl (by norm_num) (by norm_num [EstKind.defaults]) (by norm_num [EstKind.defaults]) (by norm_num) (by norm_num) (fun _ _ => 1)
  (fun i => by simp [avg]) (by simp [avg]) (by simp [avg, EstKind.defaults]; norm_num)

/-- demands of 1 or 3, each half of the time -/
noncomputable def twoDemands : Measure ℝ := (1 / 2 : ENNReal) • Measure.dirac 1 + (1 / 2 : ENNReal) • Measure.dirac 3

instance : IsProbabilityMeasure twoDemands := ⟨by
  simp [twoDemands]
  exact ENNReal.inv_two_add_inv_two⟩

theorem twoDemands_integrable : Integrable (fun x => x) twoDemands := by
  unfold twoDemands
  exact (((integrable_dirac (by simp)).smul_measure (by simp)).add_measure ((integrable_dirac (by simp)).smul_measure (by simp)))

theorem twoDemands_mean : ∫ x, x ∂twoDemands = 2 := by
  unfold twoDemands
  rw [integral_add_measure ((integrable_dirac (by simp)).smul_measure (by simp)) ((integrable_dirac (by simp)).smul_measure (by simp))]
  simp only [integral_smul_measure, integral_dirac]
  simp
  norm_num

theorem twoDemands_nonneg : ∀ᵐ x ∂twoDemands, 0 ≤ x := by
  unfold twoDemands
  rw [ae_add_measure_iff]
  constructor <;>
  · refine Measure.ae_smul_measure ?_ _
    rw [ae_dirac_iff measurableSet_Ici]
    norm_num

example (train : Trainer 1) := C137_more_data (ext := counterExt) (g := 7)
  (P := { EstKind.newsvendor.defaults with solver := "dedicated".toList }) witExact_exact (grads := onesGrad 1) (train := train) (theta0 := 2) rfl ⟨_, code_cost 1 2⟩ rfl
  (by norm_num) (by norm_num [EstKind.defaults]) (by norm_num [EstKind.defaults]) (drawsOf_exist twoDemands) twoDemands_integrable twoDemands_nonneg
  (by rw [twoDemands_mean]; norm_num)

/-! ## C138 -/

/-- a square is not a linear function of three points -/
example (train train' : Trainer 1) (init init' : LinInit 1) (solve : Oracle) (hs : ExactSolver solve) := C138_linreg (n := 3) (d := 1) (ext := counterExt) (g := 7)
  (g' := 8) (P := witPD true) witExact_exact hs (grads := onesGrad 1) (grads' := onesGrad 1) (train := train) (train' := train') (init := init)
  (init' := init') rfl default_cost rfl (by norm_num) (by norm_num) (by norm_num) (fun i _ => i.1) (fun i => (i.1 : ℝ) ^ 2) (by
    rintro ⟨w, b, -, h⟩
    have h0 := h 0
    have h1 := h 1
    have h2 := h 2
    simp at h0 h1 h2
    linarith)

example (train : Trainer 1) (init : LinInit 1) := C138_linreg_false (ext := counterExt) (g := 7)
  (P := { witPD true with rho := .num 1, fit_intercept := false }) (grads := onesGrad 1) (train := train) (init := init) rfl default_cost rfl rfl

example (train train' : Trainer 1) (init init' : LinInit 1) (solve : Oracle) (hs : ExactSolver solve) := C138_logistic (L := ℕ) (n := 2) (d := 1)
  (ext := counterExt) (g := 7) (g' := 8) (P := { EstKind.logistic.defaults with solver := "dedicated".toList }) witExact_exact hs (grads := onesGrad 1)
  (grads' := onesGrad 1) (train := train) (train' := train') (init := init) (init' := init') rfl default_cost rfl (by norm_num) (by norm_num)
  (fun i _ => i.1) (y := fun i => i.1) (c0 := 0) (c1 := 1) (by norm_num) (by decide) ⟨0, rfl⟩ ⟨1, rfl⟩

/-! ## C139 -/

example (train : Trainer 1) (init : LinInit 1) := C139_linreg (n := 2) (d := 1) (ext := counterExt) (g := 7) (P := witPD true) witExact_exact (grads := onesGrad 1)
  (train := train) (init := init) rfl default_cost rfl (by norm_num) (by norm_num) (by norm_num) (fun i _ => i.1) (fun i => 2 * i.1)
example (train : Trainer 1) (init : LinInit 1) := C139_logistic (L := ℕ) (n := 2) (d := 1) (ext := counterExt) (g := 7)
  (P := { EstKind.logistic.defaults with solver := "dedicated".toList }) witExact_exact (grads := onesGrad 1)
  (train := train) (init := init) rfl default_cost rfl (by norm_num) (by norm_num) (fun i _ => i.1) (y := fun i => i.1) (c0 := 0) (c1 := 1) (by norm_num)
  (by decide) ⟨0, rfl⟩ ⟨1, rfl⟩ (s := fun i => if i = 0 then -1 else 1)
  (fun i h => by fin_cases i <;> simp_all) (fun i h => by fin_cases i <;> simp_all)
example (train : Trainer 1) := C139_newsvendor_partial (n := 3) (d := 1) (ext := counterExt) (g := 7)
  (P := { EstKind.newsvendor.defaults with solver := "dedicated".toList }) witExact_exact (grads := onesGrad 1) (train := train) (theta0 := 2) rfl ⟨_, code_cost 1 2⟩ rfl
  (by norm_num) (by norm_num [EstKind.defaults]) (by norm_num [EstKind.defaults]) (by norm_num) (by norm_num) (fun i _ => i.1) (fun i => by simp [avg])
example (train : Trainer 2) := C139_portfolio (n := 2) (d := 2) (q := 1) (p := 1) le_rfl (ext := counterExt) (g := 7) (P := witParams) witExact_exact (grads := onesGrad 2)
  (train := train) (p0 := ⟨[0, 0], 0, 1, 1 / 2⟩) rfl rfl rfl (by norm_num) (by norm_num [witParams]) (by norm_num [witParams]) (by norm_num [witParams]) (by simp [witParams, EstKind.defaults]) (by norm_num) (by norm_num)
  (C := witC) (D := fun _ => 1) (X := witR) witR_in

/-- two demands of 1 and a radius of 1 -/
example (train : Trainer 1) := C139_newsvendor_false (n := 2) (d := 1) (ext := counterExt) (g := 7)
  (P := { EstKind.newsvendor.defaults with solver := "dedicated".toList, rho := .num 1 }) witExact_exact (grads := onesGrad 1) (train := train) (theta0 := 2) rfl
  ⟨_, code_cost 1 2⟩ rfl (by norm_num) (by norm_num [EstKind.defaults]) (by norm_num [EstKind.defaults]) (by norm_num) (by norm_num) (fun _ _ => 1)
  (fun i => by simp [avg]) (by simp [avg]) (by simp [avg, EstKind.defaults]; norm_num)

end Skwdro
