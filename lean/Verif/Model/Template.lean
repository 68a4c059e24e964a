import Verif.Model.Basic
import Mathlib.Data.List.MinMax
import Mathlib.Algebra.BigOperators.Fin
import Mathlib.Data.Real.Sqrt
import Mathlib.Data.List.FinRange

/-! # `skwdro/_template.py`: the reference estimators

`check_array` and `check_X_y` (external) refuse empty matrices with `ValueError`; sizes of `X` and `y` agree by type (they refuse others too),
and data with missing values is not modelled. -/

namespace Skwdro

/-- the attributes set by `TemplateClassifier.fit`, _template.py:113-117 (`classes_` is not read again and left out) -/
structure NNFit (L : Type) where
  n : ℕ
  d : ℕ
  X : Fin n → Fin d → ℝ
  y : Fin n → L

/-- `TemplateClassifier.fit`, _template.py:95-119; `unique_labels` is assumed to accept the labels -/
def nnFit {L : Type} {n d : ℕ} (X : Fin n → Fin d → ℝ) (y : Fin n → L) : Except PyErr (NNFit L) :=
  if n = 0 ∨ d = 0 then .error .valueError else .ok ⟨n, d, X, y⟩

/-- `euclidean_distances(X, Y)[i, j]` (external) -/
noncomputable def rowDist {d : ℕ} (x z : Fin d → ℝ) : ℝ := Real.sqrt (∑ k, (x k - z k) ^ 2)

/-- `np.argmin(row)`: the first index of least value; `none` on an empty row -/
noncomputable def npArgmin {n : ℕ} (f : Fin n → ℝ) : Option (Fin n) := (List.finRange n).argmin f

/-- `self.y_[closest]`, _template.py:144; `np.argmin` raises on an empty row -/
def nnLabel {L : Type} {n : ℕ} (y : Fin n → L) : Option (Fin n) → Except PyErr L
  | some j => .ok (y j)
  | none => .error .valueError

/-- `TemplateClassifier.predict`, _template.py:121-144; `none`: not fitted yet.  `euclidean_distances` refuses matrices of other widths. -/
noncomputable def nnPredict {L : Type} {N d : ℕ} (s : Option (NNFit L)) (X : Fin N → Fin d → ℝ) : Except PyErr (List L) :=
  match s with
  | none => .error .notFitted
  | some f =>
    if N = 0 ∨ d = 0 then .error .valueError
    else if h : d = f.d then
      (List.finRange N).mapM fun i => nnLabel f.y (npArgmin fun j => rowDist (fun k : Fin f.d => X i (k.cast h.symm)) (f.X j))
    else .error .valueError

/-- `TemplateEstimator.predict`, _template.py:52-69: ones; `fitted` says whether `fit` returned before -/
def onesPredict {N d : ℕ} (fitted : Bool) (_X : Fin N → Fin d → ℝ) : Except PyErr (List ℤ) :=
  if N = 0 ∨ d = 0 then .error .valueError else if fitted then .ok (List.replicate N 1) else .error .notFitted

/-- `np.sqrt`: NaN for negative numbers -/
noncomputable def npSqrt (x : ℝ) : XNum ℝ := if x < 0 then .nan else .fin (Real.sqrt x)

/-- `TemplateTransformer.transform`, _template.py:186-213; the state is `n_features_` -/
noncomputable def sqrtTransform {N d : ℕ} (s : Option ℕ) (X : Fin N → Fin d → ℝ) : Except PyErr (Fin N → Fin d → XNum ℝ) :=
  match s with
  | none => .error .notFitted
  | some m => if N = 0 ∨ d = 0 then .error .valueError else if d ≠ m then .error .valueError else .ok fun i j => npSqrt (X i j)

/-- one call on a `TemplateClassifier` -/
inductive NNOp (L : Type)
  | fit (n d : ℕ) (X : Fin n → Fin d → ℝ) (y : Fin n → L)
  | predict (N d : ℕ) (X : Fin N → Fin d → ℝ)

/-- the object after a call: a `fit` that raises keeps the former attributes -/
def NNOp.step {L : Type} (s : Option (NNFit L)) : NNOp L → Option (NNFit L)
  | .fit _ _ X y => match nnFit X y with
    | .ok f => some f
    | .error _ => s
  | .predict _ _ _ => s

/-- the object after a history of calls -/
def nnRun {L : Type} (ops : List (NNOp L)) : Option (NNFit L) := ops.foldl NNOp.step none

end Skwdro
