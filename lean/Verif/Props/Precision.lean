import Verif.Model.Precision
import Verif.Props.Classifier
import Verif.Props.Estimators

/-! C133: predictions do not depend on the numeric class in which the radius was given. -/

namespace Skwdro

open Spec Tensor

variable {L : Type} {d : ℕ}

/-- the layer accepts data of the precision of every radius but a numpy double -/
theorem checked_prec {c : NumClass} : c.checked.prec = .single ↔ c ≠ .npFloat64 := by
  cases c <;> simp [NumClass.checked, NumClass.isFloat, NumClass.prec]

/-- **C133** (partial) Whatever its class, a radius that is not a numpy double has no effect on the predictions: a python number, a numpy integer,
a numpy number in single precision or a text all give the same probabilities and the same labels, from every trained state and on all data. -/
theorem C133_classes_partial (f : LogFitted L d) {c : NumClass} (hc : c ≠ .npFloat64) (N : ℕ) (X : Fin N → Fin d → ℝ) :
    f.probaWith c X = f.proba X ∧ f.predictWith c X = f.predict X := by
  have h1 : f.probaWith c X = f.proba X := by
    unfold LogFitted.probaWith LogFitted.proba
    split
    · rfl
    · cases f.torch with
      | none => rfl
      | some p => obtain ⟨M, a⟩ := p; simp [Module.transformIn, checked_prec.2 hc]
  refine ⟨h1, ?_⟩
  unfold LogFitted.predictWith LogFitted.predict
  rw [h1]
  rfl

/-- **C133** (partial) With at most two classes no class of radius has any effect on the predictions. -/
theorem C133_binary_partial (f : LogFitted L d) (c : NumClass) (h2 : f.classes.length ≤ 2) (N : ℕ) (X : Fin N → Fin d → ℝ) :
    f.probaWith c X = f.proba X ∧ f.predictWith c X = f.predict X := by
  have h1 : f.probaWith c X = f.proba X := by
    unfold LogFitted.probaWith LogFitted.proba
    rw [if_pos (Or.inr h2), if_pos (Or.inr h2)]
  refine ⟨h1, ?_⟩
  unfold LogFitted.predictWith LogFitted.predict
  rw [h1]
  rfl

/-- **C133** (violated) With more than two classes, after a successful fit with a radius held as a numpy double, as in every grid made by numpy,
`predict_proba` and `predict` raise `RuntimeError` on all data, whereas the same fit with the same radius held as a python float predicts. -/
theorem C133_double_false {G L : Type} [LinearOrder L] {n d : ℕ} {ext : TorchExt G} {grads : Autograd d} {solve : Oracle}
    {train : Trainer d} (ht : GoodTrainer train) {init : LinInit d} (hi : GoodInit init) {P : EstParams} {X : Fin n → Fin d → ℝ}
    {y : Fin n → L} {g : G} {f : LogFitted L d} (h : logisticFit ext grads solve train init P X y g = .ok f)
    (h2 : 2 < (npUnique y).length) (N : ℕ) (X' : Fin N → Fin d → ℝ) :
    f.probaWith .npFloat64 X' = .error .runtimeError ∧ f.predictWith .npFloat64 X' = .error .runtimeError ∧
      Returns (f.probaWith .float X') (fun t => t.shape = [N, (npUnique y).length]) ∧
      Returns (f.predictWith .float X') (fun l => l.shape = [N, 1]) := by
  have hpred := C64_multiclass_predict ht hi h h2
  obtain ⟨-, -, hcl, -, h | h | h⟩ := logisticFit_ok ht hi h
  · omega
  · obtain ⟨_, _, h3, -⟩ := h; omega
  · obtain ⟨-, -, -, l, a, htorch, hr⟩ := h
    have hd : f.probaWith .npFloat64 X' = .error .runtimeError := by
      unfold LogFitted.probaWith
      rw [if_neg (by rw [htorch, hcl]; simp; omega), htorch]
      simp [Module.transformIn, NumClass.checked, NumClass.isFloat, NumClass.prec]
    refine ⟨hd, ?_, ?_, ?_⟩
    · unfold LogFitted.predictWith
      rw [if_neg (by rw [hcl]; omega), hd]
      rfl
    · rw [(C133_classes_partial f (c := .float) (by decide) N X').1]
      obtain ⟨t, ht', hm⟩ := apply_mat l X'
      refine ⟨t, ?_, hm.1⟩
      unfold LogFitted.proba
      rw [if_neg (by rw [htorch, hcl]; simp; omega), htorch]
      exact ht'
    · rw [(C133_classes_partial f (c := .float) (by decide) N X').2]
      obtain ⟨w, b, -, hp⟩ := hpred
      obtain ⟨best, hb, -⟩ := hp N X'
      exact ⟨_, hb, by simp [Labels.shape]⟩

/-- non-vacuity: three labels are three classes, and the default settings train -/
example : 2 < (npUnique (fun i : Fin 3 => i.val)).length ∧ TorchReady EstKind.logistic.defaults := by
  refine ⟨?_, ⟨_, C66_bare_name_false .logistic⟩, default_cost, default_parse, by simp [EstKind.defaults]⟩
  simp [npUnique, Finset.card_image_of_injective _ Fin.val_injective]

end Skwdro
