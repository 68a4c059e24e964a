import Verif.Props.Solve
import Verif.Props.Optimizers
import Verif.Props.Result
import Verif.Props.RhoTuners
import Verif.Props.Problems
import Verif.Props.Routes
import Verif.Props.Classifier

/-! Concrete cases meeting the hypotheses of the theorems on the training loops, the optimizers, the results, the tuners, the data sets and
the routes, where the theorem's own file has none.  Each example applies the theorem to a concrete object. -/

namespace Skwdro
open Spec Matrix

/-! ## C48 to C52, C72, C73: the toy problem `exEnv`, two steps of pre-training, at most ten of training -/

theorem wit_pre (s : St ℝ) : ∃ L s', optimPre exEnv 2 10 s = (.ok L, s') := optimPre_ok exEnv_noRaise 2 10 s
theorem wit_post (s : St ℝ) : ∃ L s', optimPost exEnv 2 10 s = (.ok L, s') := optimPost_ok exEnv_noRaise 2 10 s

example (s : St ℝ) := C48_presampled (wit_pre s).choose_spec.choose_spec
example (s : St ℝ) := C48_postsampled (wit_post s).choose_spec.choose_spec
example (s : St ℝ) := C48_never_too_long true (wit_pre s).choose_spec.choose_spec

/-- two losses, the rule satisfied after the second -/
example := C48_stopping_rule (.next 0 4 (.fin 2) _ _ (by simp) (.satisfied 1 3 (.fin 1) (by simp)))

example (s : St ℝ) := C49_presampled (wit_pre s).choose_spec.choose_spec
example (s : St ℝ) := C49_postsampled_false (by norm_num) (wit_post s).choose_spec.choose_spec
example (s : St ℝ) := C49_postsampled_partial (wit_post s).choose_spec.choose_spec
example (s : St ℝ) := C50_flag_kept true (wit_pre s).choose_spec.choose_spec
example (s : St ℝ) (h : s.erm = false) := C50_recorded_evaluation (preEval_ok exEnv_noRaise s).choose_spec.choose_spec h

/-- a loss that raises, an optimizer that never calls the closure, a metric that needs no gradient -/
example := C72_importance_false (n := 1)
  (env := { exEnv with forward := fun _ _ _ w => (.error .runtimeError, w), prog := fun _ => .done, gradMetric := false })
  ⟨0, false, true, true, []⟩ .runtimeError (by norm_num) rfl (fun _ => rfl) (fun _ => rfl) rfl rfl (fun _ => rfl) (fun _ _ _ _ => rfl)

example (s : St ℝ) := C72_postsampled_partial (wit_post s).choose_spec.choose_spec
example (s : St ℝ) := C73_presampled (by norm_num) (wit_pre s).choose_spec.choose_spec
example (s : St ℝ) := C73_postsampled_false (by norm_num) (wit_post s).choose_spec.choose_spec

example := C52_integer (fl := id) ⟨monotone_id, fun _ => rfl⟩ (n := 10) (by norm_num) (split := 3 / 10) (by norm_num) (by norm_num)
example := C52_default_exact (n := 1000) (by norm_num) (by norm_num)
example := C52_bad_split id (split := 2) (Or.inr (by norm_num)) 10

/-- the parameter is the state, the multiplier twice the state -/
def witOut : Readout ℝ ℝ := ⟨id, fun _ => none, fun w => 2 * w⟩

example (s : St ℝ) := C51_result_partial exEnv_noRaise witOut true true id (.pair 2 10) (by simp [Steps.iterations]) s
example (s : St ℝ) := C51_empty_false exEnv_noRaise witOut true true id 2 0 (by norm_num) (Or.inl rfl) s

example (s : St ℝ) : ∃ r s', solveDual exEnv witOut true false id (.pair 2 10) s = (.ok r, s') ∧ r.dual_var = 0 := by
  obtain ⟨v, s', h, _⟩ := C51_result_partial exEnv_noRaise witOut true false id (.pair 2 10) (by simp [Steps.iterations]) s
  exact ⟨_, s', h, C51_multiplier witOut true id _ h⟩

/-! ## C53 to C56: gradient descent as inner optimizer; its state is the learning rate -/

/-- a composite optimizer on it, for two iterations of pre-training and five of training -/
noncomputable def witComposite : Composite ℝ := .init exGD (some (2, 5)) [5] 1 1 1

theorem witComposite_scheduled : Scheduled witComposite := by
  constructor <;> (simp [witComposite, Composite.init]; try norm_num)

example (ops : List (CompositeOp ℝ)) := C53_composite_partial exGD ops witComposite witComposite_scheduled zero_le_one
example := C53_one_step_partial exGD [1] 3 witComposite witComposite_scheduled
example := C53_projection_exact_partial exGD [1] 3 witComposite witComposite_scheduled (-2) 1 (by norm_num [exGD, witComposite, Composite.init])
example := C53_empty_schedule_false exGD (p := 3) (by norm_num) [5] 1 1 1 [1] 3 (-2) 1 (by norm_num [exGD])
example := C53_adamw_false 2 (by norm_num)
example := C53_lbfgs_false none 2 (by norm_num)

example := C56_conflict_false 1 [1, 2] [3, 4] (by simp)

/-- a single multiplicative group with a negative value is refused -/
example : ∃ e gs, hybridStep (sgd 1) [⟨(some Rule.mwu).toList, [⟨[-1], some [0]⟩]⟩] = (.error e, gs) ∧ gs = [⟨[.mwu], [⟨[-1], some [0]⟩]⟩] := by
  have h : hybridStep (sgd 1) [⟨(some Rule.mwu).toList, [⟨[-1], some [0]⟩]⟩] = (.error .assertionError, [⟨[.mwu], [⟨[-1], some [0]⟩]⟩]) := by
    have hn : ¬ ∀ x ∈ [(-1 : ℝ)], 0 < x := by simp
    simp only [hybridStep, Option.toList_some, applyRules, applyToGroup, Rule.hasPre, List.filter, applyToParams, Rule.pre, if_neg hn]
  exact ⟨_, _, h, C56_single_partial (sgd_keeps 1) _ _ h⟩

/-! ## C57 -/

example := C57_tuple [some 1, none, some 3] (by simp) (by simp)
example := C57_dict [(AName.coef, some 1), (AName.other "extra".toList, some 2)] (by decide) (by decide)

example : ∃ r : SolverResult ℕ, wrapResult (.tuple [some 1, none, some 3]) = .ok r ∧ wrapResult (.result r) = .ok r ∧
    wrapResult (.tuple ([] : List (Option ℕ))) = .error .assertionError := by
  obtain ⟨r, h, _⟩ := C57_tuple [some 1, none, some 3] (by simp) (by simp)
  exact ⟨r, h, C57_idempotent _ h, (C57_others r [] (Or.inl rfl)).2.1⟩

/-! ## C68 -/

/-- a caller with two arrays -/
noncomputable def witCaller : Caller := ⟨[0, 1], ⟨2, fun _ => ⟨[1], fun _ => 7⟩⟩⟩

example (ops : List CallerOp) := C68_labelled_partial 1 "toy".toList witCaller (by simp [witCaller]) (x := 0) (y := 1) (by simp [witCaller]) ops

example := C68_unlabelled_false 1 "toy".toList witCaller (k := 0) (r := 0) rfl ⟨[1], fun _ => 8⟩ (fun h => by
  have := congrFun (congrArg Tensor.get h) [0]
  norm_num [witCaller] at this)

/-! ## C69, C70 -/

/-- a search that always takes the smallest radius, an estimator being its radius -/
example : ∃ b, (⟨(7 : ℝ), -4, 4⟩ : RhoTuned ℝ).fit (fun _ => true) (fun _ => true)
    (fun _ grid => match grid with | r :: _ => .ok (r, r) | [] => .error .valueError) = .ok b ∧ 0 < b.2 := by
  refine ⟨_, rfl, (C69_choice (E := ℝ) (t := ⟨7, -4, 4⟩) (hasScore := fun _ => true) (hasReg := fun _ => true) (radius := id)
    (search := fun _ grid => match grid with | r :: _ => .ok (r, r) | [] => .error .valueError) (fun e grid b h => ?_) rfl).1⟩
  cases grid with
  | nil => simp at h
  | cons r l =>
    simp only [Except.ok.injEq] at h
    subst h
    exact ⟨by simp, rfl⟩

example := C70_scalar_partial (n := 3) (by norm_num) ![1, 2, 3] 5
example := C70_scale_false (n := 3) (by norm_num) ![1, 2, 3] ⟨0, by simp⟩ (z := 5) (by norm_num)

/-- the pseudo-inverse of matrices of size one -/
noncomputable def witPinv (A : Matrix (Fin 1) (Fin 1) ℝ) : Matrix (Fin 1) (Fin 1) ℝ := fun _ _ => (A 0 0)⁻¹

theorem witPinv_isPinv (A : Matrix (Fin 1) (Fin 1) ℝ) (_ : A.IsSymm) : IsPinv A (witPinv A) := by
  have e : ∀ B C : Matrix (Fin 1) (Fin 1) ℝ, ∀ i j, (B * C) i j = B 0 0 * C 0 0 := by
    intro B C i j
    rw [Subsingleton.elim i 0, Subsingleton.elim j 0, Matrix.mul_apply, Fin.sum_univ_one]
  by_cases h : A 0 0 = 0
  · refine ⟨?_, ?_, ?_, ?_⟩ <;> ext i j <;> rw [Subsingleton.elim i 0, Subsingleton.elim j 0] <;> simp [e, witPinv, h]
  · refine ⟨?_, ?_, ?_, ?_⟩ <;> ext i j <;> rw [Subsingleton.elim i 0, Subsingleton.elim j 0] <;> simp [e, witPinv, h]

/-- two Jacobians of size `(1, 1)`; the vector is in the range of their squares -/
example := C70_vector_partial (n := 2) (by norm_num) witPinv_isPinv (fun _ => (1 : Matrix (Fin 1) (Fin 1) ℝ)) (z := fun _ => 2)
  ⟨fun _ => 1, by
    funext i
    rw [Subsingleton.elim i 0]
    simp [Matrix.mulVec, dotProduct]⟩

/-- null Jacobians, whose range contains no other vector than zero -/
example := C70_range_false (n := 2) (by norm_num) witPinv_isPinv (fun _ => (0 : Matrix (Fin 1) (Fin 1) ℝ)) (z := fun _ => 2)
  (by rintro ⟨w, hw⟩; have := congrFun hw 0; simp at this)

/-! ## C66, C78 -/

example := C66_documented_partial .linreg (by decide)

example {G : Type} (ext : TorchExt G) (solve : Oracle) (g : G) := (C66_fit (n := 2) (d := 1) ext (fun _ x y => (x, y)) solve
  (fun _ M _ => .ok M) (fun _ _ => ⟨fun _ _ => 0, none⟩) { EstKind.linreg.defaults with solver := "entropic".toList }
  (err := .deprecationWarning) (by norm_num) (by norm_num) default_cost.choose_spec (fun i _ => i) (fun i => i) g).1 (by decide)

example := C78_nan_false .portfolio EstKind.portfolio.defaults (fun _ => by norm_num [EstKind.defaults])
example := C78_unchecked_false .logistic (by decide)

end Skwdro
