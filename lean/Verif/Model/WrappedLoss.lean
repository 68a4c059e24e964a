import Verif.Model.Tensor

/-!
# Wrapped losses: `/repo/skwdro/base/losses_torch/wrapper.py`, `/repo/skwdro/base/losses_torch/base_loss.py`
-/

namespace Skwdro

/-- A wrapped loss.  `flat x y` is the user's `loss(transform(x), y)` with `reduction='none'` (external: user code).
`theta` are the flattened parameters (wrapper.py:100-116).  Simplification: without any parameter `pt.concat` raises in the code, here
`theta` is empty. -/
structure WLoss where
  hasLabels : Bool
  reduceSpatial : Bool
  flat : Tensor ℝ → Option (Tensor ℝ) → Except PyErr (Tensor ℝ)
  /-- the constructor argument `l2reg` -/
  l2reg : Option ℝ
  theta : List ℝ

namespace WLoss

/-- the attribute `l2reg`, base_loss.py:69-72: `None` when the argument is `None` or `<= 0` -/
noncomputable def l2attr (w : WLoss) : Option ℝ :=
  match w.l2reg with
  | none => none
  | some r => if r ≤ 0 then none else some r

/-- `Loss.regularize`, base_loss.py:75-84 -/
noncomputable def regularize (w : WLoss) (t : Tensor ℝ) : Tensor ℝ :=
  match w.l2attr with
  | none => t
  | some r => t.map (fun l => l + 1 / 2 * r * (w.theta.map (fun x => x * x)).sum)

/-- `_flat_value_w_labels` / `_flat_value_wo_labels`, wrapper.py:122-144 -/
noncomputable def flatValue (w : WLoss) (xi : Tensor ℝ) (xi_labels : Option (Tensor ℝ)) : Except PyErr (Tensor ℝ) := do
  let l ← w.flat xi xi_labels
  .ok (w.regularize l)

/-- `_reduce_flat_spatial_dims_loss`, wrapper.py:146-150 -/
noncomputable def reduceFlat (w : WLoss) (t : Tensor ℝ) : Tensor ℝ :=
  if w.reduceSpatial then t.meanLast else t.unsqueezeLast

/-- `WrappedPrimalLoss.value`, wrapper.py:152-209 -/
noncomputable def value (w : WLoss) (xi : Tensor ℝ) (xi_labels : Option (Tensor ℝ)) : Except PyErr (Tensor ℝ) :=
  if w.hasLabels then
    match xi_labels with
    | none => .error .assertionError
    | some y =>
      if 2 < xi.dim ∧ 2 < y.dim then do
        let f ← w.flatValue xi.flattenButLast (some y.flattenButLast)
        (w.reduceFlat f).view (xi.shape.dropLast ++ [1])
      else if 2 < xi.dim ∧ y.dim = 2 then do
        let f ← w.flatValue xi.flattenButLast (some y)
        (w.reduceFlat f).view (xi.shape.dropLast ++ [1])
      else if xi.dim = 2 ∧ y.dim ≤ 2 then do
        let f ← w.flatValue xi (some y)
        .ok (w.reduceFlat f.squeeze)
      else if xi.dim = 1 ∧ y.dim = 1 then do
        let f ← w.flatValue xi.unsqueeze0 (some y.unsqueeze0)
        .ok (w.reduceFlat f).squeeze
      else .error .notImplemented
  else
    match xi_labels with
    | some _ => .error .assertionError
    | none =>
      if 2 < xi.dim then do
        let f ← w.flatValue xi.flattenButLast none
        (w.reduceFlat f).view (xi.shape.dropLast ++ [1])
      else if xi.dim = 2 then do
        let f ← w.flatValue xi none
        .ok (w.reduceFlat f).squeeze
      else if xi.dim = 1 then do
        let f ← w.flatValue xi.unsqueeze0 none
        .ok (w.reduceFlat f).squeeze
      else .error .notImplemented

end WLoss

end Skwdro
