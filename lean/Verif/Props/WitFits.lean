import Verif.Props.WitSolvers
import Verif.Props.Fit
import Verif.Props.Samplers
import Verif.Props.Scores
import Verif.Props.Dedicated
import Verif.Props.Settings
import Verif.Props.LastStep
import Verif.Props.Trajectory
import Verif.Props.InitialDual

/-! Concrete cases meeting the hypotheses of the theorems on the estimators, where the theorem's own file has none.  Every fit below is run on
concrete data by the modelled training loops with gradient descent (`gdTorch`), or by an exact dedicated solver, and shown to return. -/

namespace Skwdro
open Spec

/-- training by gradient descent -/
noncomputable abbrev witTrain (d : ℕ) (oc : OCState) : Trainer d := realTrainer counterExt (gdTorch ℕ) defaultCond (fun x => x) oc 7
theorem witTrain_good (d : ℕ) (oc : OCState) : GoodTrainer (witTrain d oc) := C89_architecture_kept oc 7

/-- initial weights -/
noncomputable abbrev witInit (d : ℕ) : LinInit d := fun _ b => ⟨fun _ _ => 3, if b then some (fun _ => 1) else none⟩
theorem witInit_good (d : ℕ) : GoodInit (witInit d) := fun _ b => by cases b <;> rfl

/-- default settings, with or without intercept -/
noncomputable abbrev witP2 (b : Bool) : EstParams := { EstKind.logistic.defaults with fit_intercept := b }

theorem witP2_ready (b : Bool) : FitReady (witP2 b) true := by
  have h := default_fitReady_labelled .logistic (by simp)
  exact ⟨h.code, h.cost, h.sigma, h.rho, h.iter⟩

/-- a classifier trained on three points of dimension `d`, with labels 0 and 1 (`c = 2`) or 0, 1 and 2 (`c = 3`) -/
theorem wit_logistic (solve : Oracle) (d : ℕ) (hd : 0 < d) (c : ℕ) (hc : 1 < c) (b : Bool) (oc : OCState) :
    ∃ f, logisticFit (L := ℕ) (n := 3) (d := d) counterExt (onesGrad d) solve (witTrain d oc) (witInit d) (witP2 b) (fun i _ => i.1) (fun i => i.1 % c) 7 =
      .ok f := by
  have hy : (fun i : Fin 3 => i.1 % c) 0 ≠ (fun i : Fin 3 => i.1 % c) 1 := by simp [Nat.mod_eq_of_lt hc]
  exact C86_logistic_partial gd_good (onesGrad_shapes d) solve (witInit_good d) (witP2_ready b) (fun n => defaultCond_ready oc n _) ⟨true, by cases b <;> decide⟩ (by norm_num) hd _ hy _

theorem wit_two : (npUnique (fun i : Fin 3 => i.1 % 2)).length = 2 := by rw [npUnique, Finset.length_sort]; decide
theorem wit_three : 2 < (npUnique (fun i : Fin 3 => i.1 % 3)).length := by rw [npUnique, Finset.length_sort]; decide

/-! ## C64, C65, C79, C81 -/

section
variable (solve : Oracle) (oc : OCState)

example := C64_encoding _ wit_two
example (b : Bool) := C64_binary_predict (witTrain_good 2 oc) (witInit_good 2) (wit_logistic solve 2 (by norm_num) 2 (by norm_num) b oc).choose_spec wit_two
example (train : Trainer 1) (init : LinInit 1) := C64_single_class (n := 3) counterExt (onesGrad 1) solve train init (witP2 true) (fun i _ => i.1)
  (fun _ => 5) 7 (fun _ _ => rfl)
example (b : Bool) := C64_multiclass_predict (witTrain_good 2 oc) (witInit_good 2) (wit_logistic solve 2 (by norm_num) 3 (by norm_num) b oc).choose_spec wit_three
example := C65_binary_partial (witTrain_good 2 oc) (witInit_good 2) (wit_logistic solve 2 (by norm_num) 2 (by norm_num) true oc).choose_spec wit_two
  (.inr ⟨rfl, le_rfl⟩)
example := C65_no_intercept_false (witTrain_good 2 oc) (witInit_good 2) (wit_logistic solve 2 (by norm_num) 2 (by norm_num) false oc).choose_spec wit_two
  (post := true) (by decide) rfl 1 (fun _ _ => 4)
example := C65_dimension_one_false (witTrain_good 1 oc) (witInit_good 1) (wit_logistic solve 1 (by norm_num) 2 (by norm_num) true oc).choose_spec wit_two
  (post := true) (by decide) rfl 3 (fun _ _ => 4)
example := C65_multiclass_false (witTrain_good 2 oc) (witInit_good 2) (wit_logistic solve 2 (by norm_num) 3 (by norm_num) false oc).choose_spec wit_three rfl
example := C79_multiclass_partial (witTrain_good 2 oc) (witInit_good 2) rfl (wit_logistic solve 2 (by norm_num) 3 (by norm_num) false oc).choose_spec wit_three
example := C79_logistic_partial (witTrain_good 2 oc) (witInit_good 2) rfl (wit_logistic solve 2 (by norm_num) 2 (by norm_num) false oc).choose_spec wit_two
example := C81_binary_partial (witTrain_good 2 oc) (witInit_good 2) (wit_logistic solve 2 (by norm_num) 2 (by norm_num) true oc).choose_spec wit_two 3
  (fun i _ => i.1)
example := C81_multiclass_false (witTrain_good 2 oc) (witInit_good 2) (wit_logistic solve 2 (by norm_num) 3 (by norm_num) true oc).choose_spec wit_three 3
  (fun i _ => i.1)
end

/-- settings of a linear regression with the dedicated solver -/
noncomputable abbrev witPD (b : Bool) : EstParams := { EstKind.linreg.defaults with solver := "dedicated".toList, fit_intercept := b }

theorem wit_linreg_dedicated (oc : OCState) (b : Bool) : ∃ f, linregFit (n := 2) (d := 1) counterExt (onesGrad 1) witExact (witTrain 1 oc) (witInit 1)
    (witPD b) (fun i _ => i.1) (fun i => 2 * i.1) 7 = .ok f := by
  obtain ⟨f, _, _, _, _, h, _⟩ := C94_linreg (n := 2) (d := 1) (ext := counterExt) (g := 7) (P := witPD b) witExact_exact (grads := onesGrad 1)
    (train := witTrain 1 oc) (init := witInit 1) rfl default_cost rfl (by norm_num) (by norm_num) (by norm_num) (fun i _ => i.1) (fun i => 2 * i.1)
  exact ⟨f, h⟩

example (oc : OCState) := C79_linreg_dedicated_partial witExact_exact (witTrain_good 1 oc) (witInit_good 1) rfl rfl (wit_linreg_dedicated oc false).choose_spec
example (oc : OCState) := C81_linreg_partial witExact_exact (witTrain_good 1 oc) (witInit_good 1) (wit_linreg_dedicated oc true).choose_spec 2 (fun i _ => i.1)
example (solve : Oracle) (oc : OCState) := C79_ignored_false (n := 2) counterExt (onesGrad 1) solve (witTrain 1 oc) (witInit 1) EstKind.linreg.defaults (by decide)
  (fun i _ => i.1) (fun i => 2 * i.1) 7
example (solve : Oracle) := C79_torch_linreg_false (n := 2) counterExt (onesGrad 1) solve (witInit_good 1) (by norm_num) (by norm_num)
  (fun i _ => i.1) (fun i => 2 * i.1) 7

/-! ## C67, C76, C77, C86 -/

example (solve : Oracle) := C67_logistic_partial (n := 3) (d := 2) (L := ℕ) counterExt (onesGrad 2) solve idTrainer_good.2 idTrainer_good.1 (witInit_good 2) (by norm_num) (by norm_num)
  (fun i _ => i.1) (y := fun i => i.1) (i := 0) (j := 1) (by decide) 7
example (solve : Oracle) (b : Bool) := C67_linreg_partial (n := 3) (d := 2) counterExt (onesGrad 2) solve idTrainer_good.2 idTrainer_good.1 (witInit_good 2) (by norm_num)
  (by norm_num) b (fun i _ => i.1) (fun i => 2 * i.1) 7
example (solve : Oracle) (oc : OCState) := C67_logistic_trained (n := 3) (d := 2) (L := ℕ) (ext := counterExt) (fl := fun x => x) (oc := oc) gd_good (fun n => defaultCond_ready oc n _)
  (onesGrad_shapes 2) solve (witInit_good 2) (by norm_num) (by norm_num) (fun i _ => i.1) (y := fun i => i.1) (i := 0) (j := 1) (by decide) 7
example (solve : Oracle) (oc : OCState) := C67_linreg_trained (n := 3) (d := 2) (ext := counterExt) (fl := fun x => x) (oc := oc) gd_good (fun n => defaultCond_ready oc n _)
  (onesGrad_shapes 2) solve (witInit_good 2) (by norm_num) (by norm_num) (fun i _ => i.1) (fun i => 2 * i.1) 7
example (oc : OCState) := C67_weber_trained_false (n := 3) (d := 2) (ext := counterExt) (fl := fun x => x) (oc := oc) gd_good (fun n => defaultCond_ready oc n _)
  (onesGrad_shapes 2) (by norm_num) (by norm_num) (fun i _ => i.1) (fun i => 2 * i.1) 7
example := C67_weber_false (n := 3) (d := 2) counterExt (onesGrad 2) idTrainer_good.2 idTrainer_good.1 (fun _ => 0) (by norm_num) (by norm_num)
  (fun i _ => i.1) (fun i => 2 * i.1) 7
example (solve : Oracle) (train : Trainer 1) := C67_newsvendor_false (n := 3) (d := 2) counterExt (onesGrad 1) solve train 1 (by norm_num) (by norm_num) (fun i _ => i.1) 7
example (train : Trainer 2) := C67_portfolio_partial (n := 3) (m := 2) counterExt (onesGrad 2) witExact_exact train ⟨[0, 0], 0, 1, 1 / 2⟩ (eta := 1) (alpha := 1 / 2)
  (by norm_num) (by norm_num) (by norm_num) (by norm_num) (by norm_num) (fun i _ => i.1) 7
example (solve : Oracle) (train : Trainer 2) := C76_portfolio_partial (n := 3) (J := 1) counterExt (onesGrad 2) solve train ⟨[0, 0], 0, 1, 1 / 2⟩ EstKind.portfolio.defaults rfl
  (fun _ _ => 0) (fun _ => 0) (fun i _ => i.1) 7 1 2 3

theorem wit_weber (oc : OCState) : ∃ f, weberFit (n := 3) counterExt (onesGrad 2) (witTrain 2 oc) (fun _ => 0) EstKind.weber.defaults (fun i _ => i.1)
    (fun i => 1 + i.1) 7 = .ok f :=
  C86_weber_partial gd_good (onesGrad_shapes 2) _ (default_fitReady_labelled .weber (by simp)) (fun n => defaultCond_ready oc n _) (by decide) (by norm_num) (by norm_num) _ _ _

example (oc : OCState) := C77_weber_false (witTrain_good 2 oc) (wit_weber oc).choose_spec 2 (fun i _ => i.1)

noncomputable abbrev witNV : EstParams := { EstKind.newsvendor.defaults with solver := preName }
theorem witNV_ready : FitReady witNV false := fitReady_plain 1 2 (Or.inl ⟨rfl, Or.inr (Or.inl rfl)⟩) _ rfl rfl rfl rfl

theorem wit_newsvendor (solve : Oracle) (oc : OCState) : ∃ f, newsvendorFit (n := 3) (d := 1) counterExt (onesGrad 1) solve (witTrain 1 oc) 2 witNV
    (fun i _ => i.1) 7 = .ok f :=
  C86_newsvendor_partial gd_good (onesGrad_shapes 1) solve _ witNV_ready (fun n => defaultCond_ready oc n _) (by decide) (by norm_num) (by norm_num) _ _

example (solve : Oracle) (oc : OCState) := C77_newsvendor_partial (witTrain_good 1 oc) (wit_newsvendor solve oc).choose_spec (.inl (by decide))
example (solve : Oracle) (oc : OCState) := C77_newsvendor_products_false (witTrain_good 1 oc) (wit_newsvendor solve oc).choose_spec (.inl (by decide))
  (by norm_num [EstKind.defaults])

example := C77_name_false (N := 1) (m := 1) (d := 1) { EstKind.newsvendor.defaults with solver := "torch".toList } (by decide) (by decide) ⟨none, none, none, none, none⟩
  ⟨none, none, none, none, none⟩ ⟨none, none, none, none, none⟩ true (fun _ _ => 1) (fun _ _ => 1)

noncomputable abbrev witPF : EstParams := { EstKind.portfolio.defaults with solver := preName, eta := 1 }
theorem witPF_ready : FitReady witPF false := fitReady_plain 1 1 (Or.inl ⟨rfl, Or.inl rfl⟩) _ rfl rfl rfl rfl

theorem wit_pf_torch (solve : Oracle) (oc : OCState) : ∃ f, portfolioFit (n := 3) (J := 1) counterExt (onesGrad 2) solve (witTrain 2 oc) ⟨[0, 0], 0, 1, 1 / 2⟩ witPF
    (fun _ _ => 0) (fun _ => 0) (fun i _ => i.1) 7 = .ok f :=
  C86_portfolio_partial gd_good (onesGrad_shapes 2) solve rfl witPF_ready (by simp [EstKind.defaults]) (fun n => defaultCond_ready oc n _) (by decide) (by norm_num) (by norm_num) _ _ _ _

example (solve : Oracle) (oc : OCState) := C77_portfolio_torch_partial (witTrain_good 2 oc) rfl (by decide) (by decide) (by norm_num) (by norm_num [EstKind.defaults])
  (wit_pf_torch solve oc).choose_spec
example (solve : Oracle) (oc : OCState) : ∃ f, score (portfolioEval witPF f false (fun (i : Fin 3) (_ : Fin 2) => (i.1 : ℝ))) = .error .runtimeError := by
  have hf := (wit_pf_torch solve oc).choose_spec
  obtain ⟨w, q, a, -, -, h, -⟩ := C77_portfolio_torch_partial (witTrain_good 2 oc) rfl (by decide) (by decide) (by norm_num) (by norm_num [EstKind.defaults]) hf
  exact ⟨_, C77_portfolio_dtype_false witPF _ (by rw [h]; simp) (by decide) _⟩

theorem wit_pf (eta : ℝ) (he : 0 ≤ eta) (train : Trainer 2) : ∃ f, portfolioFit (n := 3) counterExt (onesGrad 2) witExact train ⟨[0, 0], 0, 1, 1 / 2⟩
    { EstKind.portfolio.defaults with eta := eta, alpha := 1 / 2 } (zeroC 2) zeroD (fun i _ => i.1) 7 = .ok f := by
  obtain ⟨f, h, -⟩ := C67_portfolio_partial (n := 3) (m := 2) counterExt (onesGrad 2) witExact_exact train ⟨[0, 0], 0, 1, 1 / 2⟩ (eta := eta) (alpha := 1 / 2)
    he (by norm_num) (by norm_num) (by norm_num) (by norm_num) (fun i _ => i.1) 7
  exact ⟨f, h⟩

example (train : Trainer 2) := C77_portfolio_dedicated_partial (P := { EstKind.portfolio.defaults with eta := 0, alpha := 1 / 2 }) witExact_exact rfl (code_cost 1 1) (.inl ⟨1, le_refl _, by simp [XNum.map]⟩)
  (wit_pf 0 le_rfl train).choose_spec rfl
example (train : Trainer 2) := C77_portfolio_risk_false (P := { EstKind.portfolio.defaults with eta := 1, alpha := 1 / 2 }) witExact_exact rfl (code_cost 1 1) (.inl ⟨1, le_refl _, by simp [XNum.map]⟩)
  (wit_pf 1 (by norm_num) train).choose_spec (by norm_num) (by norm_num) (by norm_num)

/-! ## C94 -/

example (train : Trainer 1) (init : LinInit 1) := C94_linreg (n := 2) (d := 1) (ext := counterExt) (g := 7) (P := witPD true) witExact_exact (grads := onesGrad 1)
  (train := train) (init := init) rfl default_cost rfl (by norm_num) (by norm_num) (by norm_num) (fun i _ => i.1) (fun i => 2 * i.1)
example (train : Trainer 1) (init : LinInit 1) := C94_logistic (L := ℕ) (n := 2) (d := 1) (ext := counterExt) (g := 7)
  (P := { EstKind.logistic.defaults with solver := "dedicated".toList }) witExact_exact (grads := onesGrad 1)
  (train := train) (init := init) rfl default_cost rfl (by norm_num) (by norm_num) (fun i _ => i.1) (y := fun i => i.1) (c0 := 0) (c1 := 1) (by norm_num)
  (by decide) ⟨0, rfl⟩ ⟨1, rfl⟩ (s := fun i => if i = 0 then -1 else 1)
  (fun i h => by fin_cases i <;> simp_all) (fun i h => by fin_cases i <;> simp_all)
example (train : Trainer 1) := C94_newsvendor_partial (n := 3) (d := 1) (ext := counterExt) (g := 7)
  (P := { EstKind.newsvendor.defaults with solver := "dedicated".toList }) witExact_exact (grads := onesGrad 1) (train := train) (theta0 := 2) rfl ⟨_, code_cost 1 2⟩ rfl
  (by norm_num) (by norm_num [EstKind.defaults]) (by norm_num [EstKind.defaults]) (by norm_num) (by norm_num) (fun i _ => i.1) (fun i => by simp [avg])
example := C94_newsvendor_false (G := ℕ) (P := { EstKind.newsvendor.defaults with solver := "dedicated".toList }) rfl ⟨_, code_cost 1 2⟩
example (train : Trainer 2) := C94_portfolio (n := 2) (d := 2) (q := 1) (p := 1) le_rfl (ext := counterExt) (g := 7) (P := witParams) witExact_exact (grads := onesGrad 2)
  (train := train) (p0 := ⟨[0, 0], 0, 1, 1 / 2⟩) rfl rfl rfl (by norm_num) (by norm_num [witParams]) (by norm_num [witParams]) (by norm_num [witParams]) (by simp [witParams, EstKind.defaults]) (by norm_num) (by norm_num)
  (C := witC) (D := fun _ => 1) (X := witR) witR_in

/-! ## C80 -/

section
variable (X : Fin 3 → Fin 2 → ℝ) (y : Fin 3 → ℝ) (lam : ℝ)

example := C80_signs wit_two 0

/-- the labelled estimators with default arguments, post-sampled -/
example (b : Bool) := C80_linreg (onesGrad_shapes 2) (by simp [EstKind.defaults]) rfl (by norm_num) (by norm_num [EstKind.defaults]) (by norm_num) (by norm_num) X y (witInit 2 1 b)
  (labelled_ready (ext := counterExt) (grads := onesGrad 2) (g := 7) (.inl rfl) false _ _ (.mse (witInit 2 1 b))).choose_spec.choose_spec.1 lam 3
  (fun _ => by
    rw [(labelled_ready (ext := counterExt) (grads := onesGrad 2) (g := 7) (.inl rfl) false _ _ (.mse (witInit 2 1 b))).choose_spec.choose_spec.2.2]
    norm_num)
example (b : Bool) := C80_logistic (onesGrad_shapes 2) (by simp [EstKind.defaults]) rfl (by norm_num) (by norm_num [EstKind.defaults]) (by norm_num) (by norm_num) X y (witInit 2 1 b)
  (labelled_ready (ext := counterExt) (grads := onesGrad 2) (g := 7) (.inr (.inl rfl)) false _ _ (.softMargin (witInit 2 1 b))).choose_spec.choose_spec.1 lam 3
  (fun _ => by
    rw [(labelled_ready (ext := counterExt) (grads := onesGrad 2) (g := 7) (.inr (.inl rfl)) false _ _ (.softMargin (witInit 2 1 b))).choose_spec.choose_spec.2.2]
    norm_num)
example (Y : Fin 3 → Fin 4 → ℝ) (b : Bool) := C80_multiclass (by norm_num) (onesGrad_shapes 2) (by simp [EstKind.defaults]) rfl (by norm_num) (by norm_num [EstKind.defaults]) (by norm_num)
  (by norm_num) X Y (witInit 2 4 b)
  (labelled_ready (ext := counterExt) (grads := onesGrad 2) (g := 7) (.inr (.inl rfl)) true _ _ (.crossEnt (witInit 2 4 b))).choose_spec.choose_spec.1 lam 3
  (fun _ => by
    rw [(labelled_ready (ext := counterExt) (grads := onesGrad 2) (g := 7) (.inr (.inl rfl)) true _ _ (.crossEnt (witInit 2 4 b))).choose_spec.choose_spec.2.2]
    norm_num)
example := C80_weber (onesGrad_shapes 2) (by simp [EstKind.defaults]) rfl (by norm_num) (by norm_num [EstKind.defaults]) (by norm_num) (by norm_num) X y (fun _ => 4)
  (labelled_ready (ext := counterExt) (grads := onesGrad 2) (g := 7) (.inr (.inr rfl)) false _ _ (.weber fun _ => 4)).choose_spec.choose_spec.1 lam 3
  (fun _ => by
    rw [(labelled_ready (ext := counterExt) (grads := onesGrad 2) (g := 7) (.inr (.inr rfl)) false _ _ (.weber fun _ => 4)).choose_spec.choose_spec.2.2]
    norm_num)

/-- the unlabelled ones, pre- or post-sampled -/
example (post : Bool) (X : Fin 3 → Fin 1 → ℝ) := C80_newsvendor (onesGrad_shapes 1) (by simp [EstKind.defaults]) rfl (by norm_num) (by norm_num [EstKind.defaults]) (by norm_num) X 5 7 2
  (unlabelled_ready (ext := counterExt) (grads := onesGrad 1) (g := 7) (post := post) (.inr rfl) _ (.newsvendor 5 7 2)).choose_spec.choose_spec.1 lam 3
  (unlabelled_ready (ext := counterExt) (grads := onesGrad 1) (g := 7) (post := post) (.inr rfl) _ (.newsvendor 5 7 2)).choose_spec.choose_spec.2
example (post : Bool) := C80_portfolio (onesGrad_shapes 2) (by simp [EstKind.defaults]) rfl (by norm_num) (by norm_num [EstKind.defaults]) (by norm_num) (by norm_num) X (fun _ => 1) 0 1 (1 / 2)
  (by norm_num) (by norm_num)
  (unlabelled_ready (ext := counterExt) (grads := onesGrad 2) (g := 7) (post := post) (.inl rfl) _ (.portfolio ⟨List.ofFn fun _ => 1, 0, 1, 1 / 2⟩)).choose_spec.choose_spec.1 lam 3
  (unlabelled_ready (ext := counterExt) (grads := onesGrad 2) (g := 7) (post := post) (.inl rfl) _ (.portfolio ⟨List.ofFn fun _ => 1, 0, 1, 1 / 2⟩)).choose_spec.choose_spec.2
end

/-- default settings of a regression, pre-sampled -/
noncomputable abbrev witPre (e : EstKind) : EstParams := { e.defaults with solver := preName }

theorem witPre_ready (e : EstKind) (he : e = .logistic ∨ e = .linreg ∨ e = .weber) : FitReady (witPre e) true :=
  have h := default_fitReady_labelled e he
  ⟨h.code, h.cost, h.sigma, h.rho, h.iter⟩

/-- the robust loss of a regression on three points -/
theorem wit_loss {e : EstKind} (he : e = .logistic ∨ e = .linreg ∨ e = .weber) (post : Bool) (X : Fin 3 → Fin 2 → ℝ) (y : Fin 3 → ℝ) (M : Module 2) :
    ∃ D g', dualize counterExt (torchArgs (onesGrad 2) e (witPre e) post false (matT X) (some (matT fun i (_ : Fin 1) => y i)) M) 7 = .ok (D, g') := by
  obtain ⟨D, g', s, hD, hs, -⟩ := costReady_dualize (ext := counterExt) (torch_costReady (grads := onesGrad 2) (e := e) (post := post) (mc := false) (X := matT X)
    (y := some (matT fun i (_ : Fin 1) => y i)) (M0 := M) (witPre_ready e he)) 7
  exact ⟨D, g', hD⟩

example (X : Fin 3 → Fin 2 → ℝ) (y : Fin 3 → ℝ) := C41_constructed (wit_loss (.inr (.inl rfl)) false X y (.mse (witInit 2 1 true))).choose_spec.choose_spec
example (X : Fin 3 → Fin 2 → ℝ) (y : Fin 3 → ℝ) (lam : ℝ) (X0 : Fin 5 → Fin 2 → ℝ) (Y0 : Fin 5 → Fin 1 → ℝ) (Z : Fin 4 → Fin 5 → Fin 2 → ℝ) (W : Fin 4 → Fin 5 → Fin 1 → ℝ) :=
  C80_linreg_presampled (P := witPre .linreg) (by decide) (by simp [EstKind.defaults]) (by simp [EstKind.defaults]) rfl (by norm_num) X y (witInit 2 1 true) (by decide)
    (wit_loss (.inr (.inl rfl)) false X y _).choose_spec.choose_spec (by norm_num) (by norm_num) lam X0 Y0 Z W
example (X : Fin 3 → Fin 2 → ℝ) (y : Fin 3 → ℝ) (lam : ℝ) (X0 : Fin 5 → Fin 2 → ℝ) (Y0 : Fin 5 → Fin 1 → ℝ) (Z : Fin 4 → Fin 5 → Fin 2 → ℝ) (W : Fin 4 → Fin 5 → Fin 1 → ℝ) :=
  C80_logistic_presampled (P := witPre .logistic) (by decide) (by simp [EstKind.defaults]) (by simp [EstKind.defaults]) rfl (by norm_num) X y (witInit 2 1 true) (by decide)
    (wit_loss (.inl rfl) false X y _).choose_spec.choose_spec (by norm_num) (by norm_num) lam X0 Y0 Z W

/-! ## C90 -/

example (post : Bool) (X : Fin 3 → Fin 2 → ℝ) (y : Fin 3 → ℝ) := C90_robust_loss (wit_loss (.inr (.inl rfl)) post X y (.mse (witInit 2 1 true))).choose_spec.choose_spec
example (post : Bool) (X : Fin 3 → Fin 2 → ℝ) (y : Fin 3 → ℝ) := C90_noise (wit_loss (.inr (.inl rfl)) post X y (.mse (witInit 2 1 true))).choose_spec.choose_spec
example (train : Trainer 1) (init : LinInit 1) (solve : Oracle) := C90_dedicated_l2_false (n := 2) (ext := counterExt) (g := 7) (solve := solve) (grads := onesGrad 1) (train := train)
  (init := init) (P := witPD true) rfl (fun i _ => i.1) 3
example (train : Trainer 1) (init : LinInit 1) (solve : Oracle) := C90_dedicated_cost_false (n := 2) (ext := counterExt) (g := 7) (solve := solve) (grads := onesGrad 1) (train := train)
  (init := init) (P := witPD true) rfl (fun i _ => i.1) default_cost ⟨_, code_cost 1 2⟩

/-! ## C87, C88, C90 (schedule), C100, C101 -/

/-- a whole training run, pre- or post-sampled -/
theorem wit_run {O : Type} {T : Torch ℕ O} (hT : GoodTorch T) {e : EstKind} (he : e = .logistic ∨ e = .linreg ∨ e = .weber) (post : Bool) (X : Fin 3 → Fin 2 → ℝ)
    (y : Fin 3 → ℝ) {M0 : Module 2} (hM : ModFits M0 1 true false) (oc : OCState) :
    ∃ M r, solveTorch counterExt T defaultCond (fun x => x) (torchArgs (onesGrad 2) e (witPre e) post false (matT X) (some (matT fun i (_ : Fin 1) => y i))) M0
      (trainSteps e (witPre e) post) oc 7 = .ok (M, r) := by
  have h' := witPre_ready e he
  obtain ⟨M, r, h1, -⟩ := C86_fits_return_partial (ext := counterExt) (fl := fun x => x) hT
    (torch_argsFit (onesGrad_shapes 2) e (witPre e) post (mc := false) (X := matT X) (y := some (matT fun i (_ : Fin 1) => y i)) (k := 1)
      (M0 := M0) rfl (by intro t ht; cases ht; rfl) hM)
    (torch_costReady h') h'.rho (trainSteps_pos h'.iter e post) (defaultCond_ready oc _ _) 7
  exact ⟨M, r, h1⟩

section
variable (X : Fin 3 → Fin 2 → ℝ) (y : Fin 3 → ℝ) (oc : OCState)

example := C87_linreg (P := witPre .linreg) (onesGrad_shapes 2) (by simp [EstKind.defaults]) (by simp [EstKind.defaults]) rfl (by norm_num) (by simp [EstKind.defaults])
  (n := 10) rfl (by norm_num) (by norm_num) X y (witInit 2 1 true) 7 (wit_run gd_good (.inr (.inl rfl)) false X y (M0 := .mse (witInit 2 1 true)) ⟨rfl, rfl, rfl⟩ oc).choose_spec.choose_spec
example := C87_logistic (P := witPre .logistic) (onesGrad_shapes 2) (by simp [EstKind.defaults]) (by simp [EstKind.defaults]) rfl (by norm_num) (by simp [EstKind.defaults])
  (n := 10) rfl (by norm_num) (by norm_num) X y (witInit 2 1 true) 7 (wit_run gd_good (.inl rfl) false X y (M0 := .softMargin (witInit 2 1 true)) ⟨rfl, rfl, rfl⟩ oc).choose_spec.choose_spec

/-- the arguments of `C87_reported_loss`, `C100` and `C101` for a linear regression -/
theorem wit_fits (post : Bool) : ArgsFit (torchArgs (onesGrad 2) .linreg (witPre .linreg) post false (matT X) (some (matT fun i (_ : Fin 1) => y i)))
    (.mse (witInit 2 1 true)) 3 1 false :=
  torch_argsFit (onesGrad_shapes 2) .linreg (witPre .linreg) post (mc := false) rfl (by intro t ht; cases ht; rfl) ⟨rfl, rfl, rfl⟩

example := C87_reported_loss (torchArgs_onlyModule (onesGrad 2) .linreg (witPre .linreg) false false (matT X) (some (matT fun i (_ : Fin 1) => y i))) (wit_fits X y false)
  (fun _ _ _ _ h => by cases h) rfl (witPre_ready .linreg (.inr (.inl rfl))).rho (trainSteps_pos (witPre_ready .linreg (.inr (.inl rfl))).iter .linreg false) oc 7
  (wit_run gd_good (.inr (.inl rfl)) false X y (M0 := .mse (witInit 2 1 true)) ⟨rfl, rfl, rfl⟩ oc).choose_spec.choose_spec

example (post : Bool) := C88_seeded_partial (ext := counterExt) (T := gdTorch ℕ) (cfg := defaultCond) (fl := fun x => x) (steps := trainSteps .linreg (witPre .linreg) post)
  (args := torchArgs (onesGrad 2) .linreg (witPre .linreg) post false (matT X) (some (matT fun i (_ : Fin 1) => y i)))
  (M0 := .mse (witInit 2 1 true)) rfl oc 7 8

example (solve : Oracle) := C88_initial_weights_false (ext := counterExt) (fl := fun x => x) (oc := oc) (fun n => defaultCond_ready oc n _) (onesGrad_shapes 2) solve
  (draw := fun g => (fun _ b => ⟨fun _ _ => g, if b then some (fun _ => g) else none⟩, g + 1)) (fun g K b => by cases b <;> rfl) (by norm_num) (by norm_num) X y (g := 0) (g' := 1)
  (fun h => by have := congrFun h 0; simp at this)

theorem wit_solveRun {O : Type} {T : Torch ℕ O} {args : Module 2 → DualizeArgs} {M0 : Module 2} {steps : ℤ ⊕ (ℤ × ℤ)} {z : Module 2 × Solved (List ℝ)}
    (h : solveTorch counterExt T defaultCond (fun x => x) args M0 steps oc 7 = .ok z) : ∃ D g' r st, dualize counterExt (args M0) 7 = .ok (D, g') ∧
      solveRun counterExt T defaultCond (fun x => x) args D M0 steps oc g' = (.ok r, st) := by
  unfold solveTorch at h
  cases hD : dualize counterExt (args M0) 7 with
  | error e => simp [hD] at h
  | ok p =>
    obtain ⟨D, g'⟩ := p
    rw [hD, ok_bind] at h
    dsimp only at h
    rcases hr : solveRun counterExt T defaultCond (fun x => x) args D M0 steps oc g' with ⟨_ | r, st⟩
    · rw [hr] at h; cases h
    · exact ⟨D, g', r, st, rfl, hr⟩

example (post : Bool) := C90_schedule (wit_solveRun oc (wit_run gd_good (.inr (.inl rfl)) post X y (M0 := .mse (witInit 2 1 true)) ⟨rfl, rfl, rfl⟩
  oc).choose_spec.choose_spec).choose_spec.choose_spec.choose_spec.choose_spec.2
example (post : Bool) := C90_schedule (wit_solveRun oc (wit_run gd_good (.inr (.inr rfl)) post X y (M0 := .weber fun _ => 0) ⟨rfl, rfl, rfl⟩
  oc).choose_spec.choose_spec).choose_spec.choose_spec.choose_spec.choose_spec.2

/-- the robust loss and its sampler -/
theorem wit_drawn (post : Bool) : ∃ D g' s, dualize counterExt (torchArgs (onesGrad 2) .linreg (witPre .linreg) post false (matT X)
    (some (matT fun i (_ : Fin 1) => y i)) (.mse (witInit 2 1 true))) 7 = .ok (D, g') ∧ D.sampler = some s := by
  obtain ⟨D, g', s, hD, hs, -⟩ := costReady_dualize (ext := counterExt) (torch_costReady (grads := onesGrad 2) (e := .linreg) (post := post) (mc := false) (X := matT X)
    (y := some (matT fun i (_ : Fin 1) => y i)) (M0 := .mse (witInit 2 1 true)) (witPre_ready .linreg (.inr (.inl rfl)))) 7
  exact ⟨D, g', s, hD, hs⟩

example (post : Bool) := C100_gradient_descent (lr := 1 / 10) (back := fun t : Tape ℕ => ([t.loss.lam, 2, 3], 5)) (fun _ => rfl) (wit_fits X y post)
  (wit_drawn X y post).choose_spec.choose_spec.choose_spec.1 (wit_drawn X y post).choose_spec.choose_spec.choose_spec.2 (fun h => by cases h)
  (witPre_ready .linreg (.inr (.inl rfl))).rho (trainSteps_pos (witPre_ready .linreg (.inr (.inl rfl))).iter .linreg post) oc
  (wit_run (sgd_good (1 / 10) _) (.inr (.inl rfl)) post X y (M0 := .mse (witInit 2 1 true)) ⟨rfl, rfl, rfl⟩ oc).choose_spec.choose_spec

theorem wit_schedule : interpretSteps (fun x => x) split03 (toSteps (trainSteps .linreg (witPre .linreg) false)) = .ok (100, 10) ∧
    interpretSteps (fun x => x) split03 (toSteps (trainSteps .linreg (witPre .linreg) true)) = .ok (200, 2800) := ⟨rfl, rfl⟩

example := C101_presampled count_inPlace (wit_drawn X y false).choose_spec.choose_spec.choose_spec.1 (wit_drawn X y false).choose_spec.choose_spec.choose_spec.2 rfl wit_schedule.1
  (n := 10) rfl (by norm_num) oc (wit_run count_good (.inr (.inl rfl)) false X y (M0 := .mse (witInit 2 1 true)) ⟨rfl, rfl, rfl⟩ oc).choose_spec.choose_spec
example := C101_postsampled count_inPlace (wit_drawn X y true).choose_spec.choose_spec.choose_spec.1 rfl wit_schedule.2
  (n := 2800) rfl (by norm_num) oc (wit_run count_good (.inr (.inl rfl)) true X y (M0 := .mse (witInit 2 1 true)) ⟨rfl, rfl, rfl⟩ oc).choose_spec.choose_spec

end

end Skwdro
