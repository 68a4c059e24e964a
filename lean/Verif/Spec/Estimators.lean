import Verif.Model.Estimators

/-! Assumptions about the external parts of the estimators, and reference notions. -/

namespace Skwdro.Spec

/-- training changes parameter values, not the kind, sizes, bias or constants of the module -/
def SameShape {d : ℕ} : Module d → Module d → Prop
  | .softMargin l, .softMargin l' => l.bias.isSome = l'.bias.isSome
  | @Module.crossEnt _ K l, @Module.crossEnt _ K' l' => K = K' ∧ l.bias.isSome = l'.bias.isSome
  | .mse l, .mse l' => l.bias.isSome = l'.bias.isSome
  | .weber _, .weber _ => True
  | .portfolio p, .portfolio p' => p.raw.length = p'.raw.length ∧ p.eta = p'.eta ∧ p.alpha = p'.alpha
  | .newsvendor k u _, .newsvendor k' u' _ => k = k' ∧ u = u'
  | _, _ => False

/-- assumption on the training procedure -/
def GoodTrainer {d : ℕ} (train : Trainer d) : Prop := ∀ args M0 s M, train args M0 s = .ok M → SameShape M0 M

/-- assumption on `nn.Linear`: a bias exists exactly when asked for -/
def GoodInit {d : ℕ} (init : LinInit d) : Prop := ∀ K b, (init K b).bias.isSome = b

/-- score of a point under weights `w` and offset `b` -/
def affine {d : ℕ} (w : Fin d → ℝ) (b : ℝ) (x : Fin d → ℝ) : ℝ := ∑ j, x j * w j + b

end Skwdro.Spec
