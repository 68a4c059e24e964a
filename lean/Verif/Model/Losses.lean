import Verif.Model.WrappedLoss
import Mathlib.Analysis.SpecialFunctions.Sqrt

/-!
# Built-in losses

`/repo/skwdro/base/losses_torch/{logistic,quadratic,newsvendor,portfolio,weber}.py` and `CustomNewsvendorLoss` of
`/repo/skwdro/operations_research/_newsvendor.py`.
-/

namespace Skwdro

/-- `nn.Linear(d, 1, bias)` (external): weights and optional bias -/
structure Lin where
  weight : List ℝ
  bias : Option ℝ

/-- application to a batch `(..., d)`, giving `(..., 1)`; a wrong last dimension raises `RuntimeError` -/
noncomputable def Lin.apply (l : Lin) (t : Tensor ℝ) : Except PyErr (Tensor ℝ) :=
  if t.shape.getLast? = some l.weight.length then
    .ok (t.reduceLast fun row => (List.zipWith (· * ·) l.weight row).sum + l.bias.getD 0)
  else .error .runtimeError

/-- `Loss.regularize` (base_loss.py:75-84) with the given weight and parameters -/
noncomputable def regularizeWith (l2reg : Option ℝ) (theta : List ℝ) (t : Tensor ℝ) : Tensor ℝ :=
  (⟨true, true, fun _ _ => .error .notImplemented, l2reg, theta⟩ : WLoss).regularize t

/-! ## Logistic -/

/-- `nn.functional.logsigmoid` (external) -/
noncomputable def logsigmoid (x : ℝ) : ℝ := Real.log (1 / (1 + Real.exp (-x)))

/-- `BiDiffSoftMarginLoss.forward(input, target)`, logistic.py:20-22 -/
noncomputable def biDiffSoftMargin (input target : Tensor ℝ) : Except PyErr (Tensor ℝ) := do
  let target ← target.view input.shape
  target.zipWith (fun t s => -logsigmoid (t * s)) input

/-- A logistic or quadratic loss object: constructor arguments after validation, and current parameters -/
structure LinLoss where
  lin : Lin
  l2reg : Option ℝ

/-- `LogisticLoss.__init__`, logistic.py:46-61: `d > 0` asserted, zero parameters -/
def logisticInit (d : ℕ) (l2reg : Option ℝ) (fitIntercept : Bool) : Except PyErr LinLoss :=
  if 0 < d then .ok ⟨⟨List.replicate d 0, if fitIntercept then some 0 else none⟩, l2reg⟩ else .error .assertionError

/-- `LogisticLoss.value(xi, xi_labels)`, logistic.py:99-107 -/
noncomputable def LinLoss.logistic (l : LinLoss) (xi : Tensor ℝ) (xi_labels : Option (Tensor ℝ)) : Except PyErr (Tensor ℝ) :=
  match xi_labels with
  | none => .error .assertionError
  | some y => do
    let coefs ← l.lin.apply xi
    let v ← biDiffSoftMargin coefs y
    .ok (regularizeWith l.l2reg l.lin.weight v)

/-- `LogisticLoss.predict(X)`, logistic.py:63-80: `tanh` of the scores -/
noncomputable def LinLoss.predict (l : LinLoss) (xi : Tensor ℝ) : Except PyErr (Tensor ℝ) := do
  let coefs ← l.lin.apply xi
  .ok (coefs.map Real.tanh)

/-! ## Quadratic -/

/-- `QuadraticLoss.value(xi, xi_labels)`, quadratic.py:36-41; `nn.MSELoss(reduction='none')` broadcasts (with a warning) -/
noncomputable def LinLoss.quadratic (l : LinLoss) (xi : Tensor ℝ) (xi_labels : Option (Tensor ℝ)) : Except PyErr (Tensor ℝ) :=
  match xi_labels with
  | none => .error .assertionError
  | some y => do
    let coefs ← l.lin.apply xi
    let v ← coefs.zipWith (fun s t => (s - t) ^ 2) y
    .ok (regularizeWith l.l2reg l.lin.weight v)

/-! ## Newsvendor -/

/-- a parameter of shape `(1,)` -/
def param1 (x : ℝ) : Tensor ℝ := ⟨[1], fun _ => x⟩

/-- `NewsVendorLoss_torch.value(xi, xi_labels)`, newsvendor.py:58-74 (the regularisation weight is stored but not used) -/
noncomputable def newsvendorTorch (k u theta : ℝ) (_l2reg : Option ℝ) (xi : Tensor ℝ) (xi_labels : Option (Tensor ℝ)) :
    Except PyErr (Tensor ℝ) :=
  match xi_labels with
  | none => .error .assertionError
  | some _ => do
    let returns := (param1 theta).map (k * ·)
    let m ← (param1 theta).zipWith min xi
    let costs := m.meanLast.map (u * ·)
    returns.zipWith (· - ·) costs

/-- `CustomNewsvendorLoss.forward(x)`, _newsvendor.py:31-34 -/
noncomputable def newsvendorCustom (k u theta : ℝ) (x : Tensor ℝ) : Except PyErr (Tensor ℝ) := do
  let gains := (param1 theta).map (k * ·)
  let m ← (param1 theta).zipWith min x
  let losses := m.map (u * ·)
  let g ← gains.zipWith (· - ·) losses
  .ok g.meanLast

/-! ## Portfolio -/

/-- `nn.Softmax(dim=-1)` on a vector -/
noncomputable def softmaxVec (a : List ℝ) : List ℝ := a.map fun x => Real.exp x / (a.map Real.exp).sum

/-- `SimplePortfolio`: raw parameters, threshold and constants, portfolio.py:10-29 -/
structure Portfolio where
  raw : List ℝ
  tau : ℝ
  eta : ℝ
  alpha : ℝ

/-- `assets.weight`, portfolio.py:18-22: the raw parameters through the softmax parametrization -/
noncomputable def Portfolio.weights (p : Portfolio) : List ℝ := softmaxVec p.raw

/-- `SimplePortfolio.forward(xi)`, portfolio.py:31-35 (0-dimensional tensors broadcast as numbers) -/
noncomputable def Portfolio.forward (p : Portfolio) (xi : Tensor ℝ) : Except PyErr (Tensor ℝ) := do
  let returns ← (⟨p.weights, none⟩ : Lin).apply xi
  let cvar := returns.map fun r => p.tau + max 0 (-r - p.tau) / p.alpha
  (returns.map fun r => -r).zipWith (fun a c => a + p.eta * c) cvar

/-! ## Weber -/

/-- `SimpleWeber.forward(xi, xi_labels)`, weber.py:13-19 -/
noncomputable def weberForward (pos : List ℝ) (xi y : Tensor ℝ) : Except PyErr (Tensor ℝ) := do
  let p : Tensor ℝ := ⟨[1, pos.length], fun i => pos.getD (i.getLastD 0) 0⟩
  let diff ← xi.zipWith (· - ·) p
  let distances := diff.reduceLast fun row => Real.sqrt ((row.map fun z => z ^ 2).sum)
  match y.shape with
  | _ :: k :: _ => do
    let v ← y.zipWith (· * ·) distances
    .ok (v.map fun a => a * k)
  | _ => .error .indexError

end Skwdro
