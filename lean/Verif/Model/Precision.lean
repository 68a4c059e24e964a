import Verif.Model.Estimators

/-! Precision of the radius of a classifier, and of the predictions made with it: _logistic_regression.py:159-169, 279, 383-427.

Numbers are real in the rest of the model; here only the precisions are followed, where torch compares them.  External behaviour assumed:
`np.float64` is the only numpy class that is a subclass of `float`; `pt.tensor` gives a python `float` the default precision (single) and keeps the
precision of a numpy number; `nn.Linear` draws weights in single precision and raises `RuntimeError` on inputs of another one; a 0-dimensional tensor in
double precision does not change the precision of tensors with dimensions it is combined with, so that training (data converted by `pt.Tensor`, single
precision) is not affected. -/

namespace Skwdro

/-- precision of a tensor -/
inductive Prec
  | single
  | double
deriving DecidableEq

/-- python class of a value given for `rho` -/
inductive NumClass
  | int
  | bool
  | float
  | npFloat64
  | npFloat32
  | npInt
  | text
deriving DecidableEq

/-- `isinstance(rho, float)` -/
def NumClass.isFloat : NumClass → Bool
  | .float => true
  | .npFloat64 => true
  | _ => false

/-- class of `self.rho` after `if not isinstance(self.rho, float): self.rho = float(self.rho)`, _logistic_regression.py:159-161 -/
def NumClass.checked (c : NumClass) : NumClass := if c.isFloat then c else .float

/-- precision of `pt.tensor(self.rho)`, line 279, hence of `wdro_loss_.rho` (`as_tensor`, _misc_dual_interfaces.py:100).  Integers, which would give
a tensor of integers, are not reached after the check. -/
def NumClass.prec : NumClass → Prec
  | .npFloat64 => .double
  | _ => .single

/-- the layer applied to data of some precision -/
noncomputable def Module.transformIn {d : ℕ} (M : Module d) (p : Prec) (x : Tensor ℝ) : Except PyErr (Tensor ℝ) :=
  if p = .single then M.transform x else .error .runtimeError

/-- `predict_proba` of a classifier whose `rho` was of class `c` at the last fit, lines 383-391: the data is brought to the precision of the radius -/
noncomputable def LogFitted.probaWith {L : Type} {n d : ℕ} (f : LogFitted L d) (c : NumClass) (X : Fin n → Fin d → ℝ) : Except PyErr (Tensor ℝ) :=
  if f.torch.isNone ∨ f.classes.length ≤ 2 then do
    let s ← dotCoef X f.coef
    let s ← addIntercept s f.intercept
    let p := s.map expit
    .ok (npT (vstack2 (p.map fun x => 1 - x) p))
  else match f.torch with
    | some (M, _) => M.transformIn c.checked.prec (matT X)
    | none => .error .attributeError

/-- `predict`, lines 408-427 -/
noncomputable def LogFitted.predictWith {L : Type} {n d : ℕ} (f : LogFitted L d) (c : NumClass) (X : Fin n → Fin d → ℝ) : Except PyErr (Labels L) :=
  if f.classes.length = 2 then do
    let p ← f.proba2 X
    let codes ← column1d (p.map halfCode)
    let out ← decodeLabels f.classes codes
    .ok (.flat out)
  else do
    let p ← f.probaWith c X
    match p.shape with
    | [N, K] =>
      if K = f.classes.length then do
        let out ← decodeLabels f.classes ((List.range N).map fun i => rowArgmax p K i)
        .ok (.column out)
      else .error .valueError
    | _ => .error .valueError

end Skwdro
