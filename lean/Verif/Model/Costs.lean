import Verif.Model.Tensor
import Verif.Model.CostDecoder

/-!
# Ground costs: `/repo/skwdro/base/costs_torch/normcost.py`, `normlabelcost.py`
-/

namespace Skwdro

/-- A cost instance with its numeric attributes.  Simplification: `power` is a finite real (a NaN or infinite power is
not modelled at this level); `kappa` is only read for `normLabelCost`. -/
structure CostR where
  kind : CostKind
  p : XNum ℝ
  power : ℝ
  kappa : XNum ℝ

/-- `torch.norm(v, p)` of one vector (external): `(sum |v|^p)^(1/p)`, the number of nonzero entries for `p=0`, the
largest absolute value for `p=inf`.  Simplification: NaN and `-inf` orders give 0 here; negative orders of vectors with
zero entries use `0^p = 0`. -/
noncomputable def vnorm (p : XNum ℝ) (v : List ℝ) : ℝ :=
  match p with
  | .fin q =>
      if q = 0 then ((v.filter (fun x => decide (x ≠ 0))).length : ℝ)
      else (v.map (fun x => |x| ^ q)).sum ^ (1 / q)
  | .pinf => (v.map (fun x => |x|)).foldr max 0
  | _ => 0

/-- `pt.norm(a - b, p=p, dim=-1, keepdim=True)`: normcost.py:78-79, and `_data_penalty`/`_label_penalty`,
normlabelcost.py:42-49. -/
noncomputable def penalty (p : XNum ℝ) (a b : Tensor ℝ) : Except PyErr (Tensor ℝ) := do
  let diff ← Tensor.zipWith (· - ·) a b
  .ok (diff.reduceLast (vnorm p))

/-- `NormCost.value`, normcost.py:70-81 (labels are deleted at once). -/
noncomputable def normCostValue (c : CostR) (xi zeta : Tensor ℝ) (_xi_labels _zeta_labels : Option (Tensor ℝ)) :
    Except PyErr (Tensor ℝ) := do
  let diff ← penalty c.p xi zeta
  .ok (diff.map (· ^ c.power))

/-- `NormLabelCost.value`, normlabelcost.py:98-128.  The `else` branch with a NaN or `-inf` weight cannot occur on a
constructed cost (the constructor asserts `kappa >= 0`); it is an assertion error here. -/
noncomputable def normLabelCostValue (c : CostR) (xi zeta : Tensor ℝ) (xi_labels zeta_labels : Option (Tensor ℝ)) :
    Except PyErr (Tensor ℝ) :=
  match xi_labels, zeta_labels with
  | some yl, some zl =>
      match c.kappa with
      | .pinf => do
          let d ← penalty c.p yl zl
          .ok (d.map (· ^ c.power))
      | .fin k =>
          if k = 0 then do
            let d ← penalty c.p xi zeta
            .ok (d.map (· ^ c.power))
          else do
            let dx ← penalty c.p xi zeta
            let dy ← penalty c.p yl zl
            let distance ← Tensor.zipWith (fun a b => a + k * b) dx dy
            let distance := distance.map (· / (1 + k))
            .ok (distance.map (· ^ c.power))
      | _ => .error .assertionError
  | _, _ => .error .assertionError

/-- dynamic dispatch of `cost.value` / `cost(...)` (base_cost.py:27-39 forwards to `value`) -/
noncomputable def CostR.value (c : CostR) (xi zeta : Tensor ℝ) (xi_labels zeta_labels : Option (Tensor ℝ)) :
    Except PyErr (Tensor ℝ) :=
  match c.kind with
  | .normCost => normCostValue c xi zeta xi_labels zeta_labels
  | .normLabelCost => normLabelCostValue c xi zeta xi_labels zeta_labels

/-! ## Reference samplers chosen by a cost -/

/-- the keyword given to `MultivariateNormal` (`init_covar`, samplers/torch/base_samplers.py:226-257) -/
inductive Covar
  | scaleTril (l : Tensor ℝ)
  | covariance (c : Tensor ℝ)
  | precision (q : Tensor ℝ)

/-- The distributions used, with their parameters: torch's `Laplace`, `Normal`, `MultivariateNormal`, the library's
`Dirac` (distributions/dirac_distribution.py), and the affine image `-y + 2 y Bernoulli(p)` (classif_sampler.py:196-204).
A scale may be infinite (`eps / 0`). -/
inductive Dist
  | laplace (loc : Tensor ℝ) (scale : XNum ℝ)
  | normal (loc : Tensor ℝ) (scale : XNum ℝ)
  | dirac (loc : Tensor ℝ) (nBatch : ℕ)
  | mvn (loc : Tensor ℝ) (cov : Covar)
  | flip (p : ℝ) (y : Tensor ℝ)

/-- `epsilon is None -> 1e-3`, normcost.py:88-91, normlabelcost.py:152-155 -/
noncomputable def defaultEps (epsilon : Option ℝ) : ℝ := epsilon.getD (1 / 1000)

/-- torch's argument validation of a scale parameter (external): `scale > 0`, otherwise `ValueError` -/
noncomputable def validScale (s : XNum ℝ) (d : Dist) : Except PyErr Dist :=
  match s with
  | .fin e => if 0 < e then .ok d else .error .valueError
  | .pinf => .ok d
  | _ => .error .valueError

/-- `dst.Laplace(loc, scale)` -/
noncomputable def mkLaplace (loc : Tensor ℝ) (s : XNum ℝ) : Except PyErr Dist := validScale s (.laplace loc s)

/-- `dst.Normal(loc, scale)` -/
noncomputable def mkNormal (loc : Tensor ℝ) (s : XNum ℝ) : Except PyErr Dist := validScale s (.normal loc s)

/-- `NormCost._sampler_data`, normcost.py:83-120 (shared by both classes) -/
noncomputable def samplerData (c : CostR) (xi : Tensor ℝ) (epsilon : Option ℝ) : Except PyErr Dist :=
  let e := defaultEps epsilon
  if c.power = 1 then
    match c.p with
    | .fin q =>
        if q = 1 then mkLaplace xi (.fin e)
        else if q = 2 then mkNormal xi (.fin e)
        else .error .notImplemented
    | .pinf => mkNormal xi (.fin e)
    | _ => .error .notImplemented
  else if c.power = 2 then
    match c.p with
    | .fin q => if q = 2 then mkNormal xi (.fin e) else .error .notImplemented
    | _ => .error .notImplemented
  else .error .notImplemented

/-- `epsilon / kappa` for a finite weight (IEEE: division by zero of a positive number is `+inf`) -/
noncomputable def scaleOver (e k : ℝ) : XNum ℝ :=
  if k = 0 then (if 0 < e then .pinf else if e = 0 then .nan else .ninf) else .fin (e / k)

/-- `NormCost._sampler_labels`, normcost.py:138-147 -/
def samplerLabelsNC (xi_labels : Option (Tensor ℝ)) : Option Dist :=
  xi_labels.map (fun y => .dirac y 1)

/-- `NormLabelCost._sampler_labels`, normlabelcost.py:146-190 (called with labels only) -/
noncomputable def samplerLabelsNLC (c : CostR) (y : Tensor ℝ) (epsilon : Option ℝ) : Except PyErr Dist :=
  let e := defaultEps epsilon
  match c.kappa with
  | .pinf => .ok (.dirac y 0)
  | .fin k =>
      if c.power = 1 then
        match c.p with
        | .fin q =>
            if q = 1 then mkLaplace y (scaleOver e k)
            else if q = 2 then mkNormal y (scaleOver e k)
            else .error .notImplemented
        | .pinf => mkNormal y (scaleOver e k)
        | _ => .error .notImplemented
      else if c.power = 2 then
        match c.p with
        | .fin q => if q = 2 then mkNormal y (.fin e) else .error .notImplemented
        | _ => .error .notImplemented
      else .error .notImplemented
  | _ => .error .assertionError -- excluded by the constructor

/-- dispatch of `cost._sampler_labels`; `none` = no label sampler -/
noncomputable def samplerLabels (c : CostR) (xi_labels : Option (Tensor ℝ)) (epsilon : Option ℝ) :
    Except PyErr (Option Dist) :=
  match c.kind with
  | .normCost => .ok (samplerLabelsNC xi_labels)
  | .normLabelCost =>
      match xi_labels with
      | some y => (samplerLabelsNLC c y epsilon).map some
      | none => .error .attributeError -- `dst.Normal(loc=None, ...)`; never called this way by the library

/-- `p == 2 == power` -/
noncomputable def isSquaredEuclid (c : CostR) : Bool := c.p.eqLit 2 && decide (c.power = 2)

/-- `solve_max_series_exp` on the data part: `xi + .5 * rhs`, normcost.py:178,183, normlabelcost.py:221 -/
noncomputable def halfStep (x rhs : Tensor ℝ) : Except PyErr (Tensor ℝ) := Tensor.zipWith (fun a b => a + b / 2) x rhs

/-- IEEE division of a real by a real -/
noncomputable def xdiv (a b : ℝ) : XNum ℝ :=
  if b = 0 then (if a = 0 then .nan else if 0 < a then .pinf else .ninf) else .fin (a / b)

/-- `a + .5 * b / kappa` (finite `a`, `b`), normlabelcost.py:221.  An infinite weight leaves `a` unchanged; `kappa = 0`
divides by zero. -/
noncomputable def labelStep (kappa : XNum ℝ) (a b : ℝ) : XNum ℝ :=
  match kappa with
  | .fin k =>
      match xdiv (b / 2) k with
      | .fin q => .fin (a + q)
      | x => x
  | .pinf => .fin a
  | _ => .nan -- excluded by the constructor

/-- `NormCost.solve_max_series_exp`, normcost.py:169-185, and `NormLabelCost.solve_max_series_exp`,
normlabelcost.py:212-225. -/
noncomputable def solveMaxSeriesExp (c : CostR) (xi : Tensor ℝ) (xi_labels : Option (Tensor ℝ))
    (rhs : Tensor ℝ) (rhs_labels : Option (Tensor ℝ)) : Except PyErr (Tensor ℝ × Option (Tensor (XNum ℝ))) :=
  if isSquaredEuclid c then
    match c.kind, xi_labels, rhs_labels with
    | .normLabelCost, some y, some r => do
        let x ← halfStep xi rhs
        let y' ← Tensor.zipWith (labelStep c.kappa) y r
        .ok (x, some y')
    | _, y, _ => do
        let x ← halfStep xi rhs
        .ok (x, y.map (fun t => t.map XNum.fin))
  else .error .notImplemented

end Skwdro
