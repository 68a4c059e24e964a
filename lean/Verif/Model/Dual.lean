import Verif.Model.Samplers

/-!
# The dual (robust) loss

`/repo/skwdro/solvers/_dual_interfaces/{dual_loss,_impsamp_interface,_misc_dual_interfaces}.py`,
`/repo/skwdro/solvers/oracle_torch.py`, `/repo/skwdro/solvers/utils.py`.
-/

namespace Skwdro

/-- the radius tensor; simplification: it is 0-dimensional, and infinite radii are not modelled -/
inductive Radius
  | nan
  | num (x : ℝ)

/-- the `reduction` attribute (`other`: any string but the three documented ones) -/
inductive Reduction
  | mean | sum | none | other
deriving DecidableEq

/-- the value of a robust loss: a tensor of numbers, or the tensor NaN -/
inductive DualVal
  | val (t : Tensor ℝ)
  | nan

/-- A dual loss object, as read by its forward pass.  `primal` is `primal_loss.value` (also what calling the module
does); `grads` stands for `compute_functional_grads` (autograd and vmap, external), applied to the unsqueezed data. -/
structure DualLoss where
  primal : Tensor ℝ → Option (Tensor ℝ) → Except PyErr (Tensor ℝ)
  grads : Tensor ℝ → Option (Tensor ℝ) → Tensor ℝ × Option (Tensor ℝ)
  cost : CostR
  rho : Radius
  epsilon : ℝ
  lam : ℝ
  reduction : Reduction
  ermMode : Bool
  impSamp : Bool
  /-- `_sampler` -/
  sampler : Option Sampler
  /-- `primal_loss.has_labels` -/
  hasLabels : Bool
  nSamples : ℕ

/-- the `reduction` stored by the constructor, _misc_dual_interfaces.py:105 -/
def reductionAttr (r : Option Reduction) : Reduction := r.getD .mean

/-- `reduce_loss_batch`, _misc_dual_interfaces.py:128-171 -/
noncomputable def reduceLossBatch (r : Reduction) (losses : Tensor ℝ) : Except PyErr (Tensor ℝ) :=
  if losses.dim = 2 then
    match r with
    | .mean => .ok losses.mean
    | .sum => .ok losses.sum
    | .none => .ok losses.squeezeLast
    | .other => .error .notImplemented
  else .error .assertionError

/-- `maybe_unsqueeze(t, dim=0)`, utils.py:36-40 -/
def maybeUnsqueeze (t : Option (Tensor ℝ)) : Option (Tensor ℝ) := t.map Tensor.unsqueeze0

/-! ## Importance sampling -/

/-- one row of `normalize_just_vects`, utils.py:57-65: `g / n * min(threshold, n) / scaling`, `n` the Euclidean norm.
The gradient is a finite real vector; a zero norm gives `0/0 = NaN`. -/
noncomputable def normalizeRow (threshold scaling : ℝ) (g : List ℝ) : List (XNum ℝ) :=
  let n := vnorm (.fin 2) g
  if n = 0 then g.map (fun _ => .nan)
  else g.map (fun x => xdiv (x / n * min threshold n) scaling)

/-- `normalize_just_vects(..., dim=-1)` on a tensor -/
noncomputable def normalizeVects (threshold scaling : ℝ) (t : Tensor ℝ) : Tensor (XNum ℝ) :=
  ⟨t.shape, fun i => (normalizeRow threshold scaling (t.lastRow i.dropLast)).getD (i.getLastD 0) .nan⟩

/-- `x.isfinite().logical_not()` -/
def XNum.notFin : XNum ℝ → Bool
  | .fin _ => false
  | _ => true

/-- `check_tensor_validity`, utils.py:79-80: true when some entry is not finite -/
def checkTensorInvalid (t : Tensor (XNum ℝ)) : Bool := t.toList.any XNum.notFin

/-- some entry of an optional tensor is not finite, _impsamp_interface.py:252-254 -/
def labelsInvalid (l : Option (Tensor (XNum ℝ))) : Bool :=
  match l with
  | some t => checkTensorInvalid t
  | none => false

/-- the real value of a finite entry (only used on tensors with all entries finite) -/
def XNum.toReal : XNum ℝ → ℝ
  | .fin x => x
  | _ => 0

/-- `get_optimal_displacement`, _impsamp_interface.py:22-77 -/
noncomputable def optimalDisplacement (D : DualLoss) (xi : Tensor ℝ) (xi_labels : Option (Tensor ℝ))
    (threshold : ℝ := 10 ^ 10) : Tensor (XNum ℝ) × Option (Tensor (XNum ℝ)) :=
  let (g, gl) := D.grads xi.unsqueeze0 (maybeUnsqueeze xi_labels)
  (normalizeVects threshold D.lam g, gl.map (normalizeVects threshold D.lam))

/-- `displace_samples`, _impsamp_interface.py:207-287 -/
noncomputable def displaceSamples (D : DualLoss) (xi : Tensor ℝ) (xi_labels : Option (Tensor ℝ)) (zeta : Tensor ℝ)
    (zeta_labels : Option (Tensor ℝ)) :
    Except PyErr (Tensor ℝ × Option (Tensor (XNum ℝ)) × Tensor ℝ × Option (Tensor (XNum ℝ))) :=
  let (disp, dispL) := optimalDisplacement D xi xi_labels
  let bad := checkTensorInvalid disp || labelsInvalid dispL
  if bad then .ok (xi.unsqueeze0, (maybeUnsqueeze xi_labels).map (fun t => t.map XNum.fin), zeta,
    zeta_labels.map (fun t => t.map XNum.fin))
  else do
    let disp := disp.map XNum.toReal
    let dispL := dispL.map (fun d => d.map XNum.toReal)
    let (x, xl) ← solveMaxSeriesExp D.cost xi.unsqueeze0 (maybeUnsqueeze xi_labels) disp dispL
    let (z, zl) ← solveMaxSeriesExp D.cost zeta zeta_labels disp dispL
    .ok (x, xl, z, zl)

/-! ## compute_dual -/

/-- `first_term + t` where `first_term` is a 0-dimensional tensor -/
noncomputable def addScalar (a : ℝ) (t : Tensor ℝ) : Tensor ℝ := t.map (fun x => a + x)

/-- the plain branch of the integrand, dual_loss.py:114-126 (also the main terms of the importance-sampled one,
dual_loss.py:76-92): `(L(zeta) - lam * c(xi, zeta)) / epsilon` -/
noncomputable def integrand (D : DualLoss) (xi : Tensor ℝ) (xi_labels : Option (Tensor ℝ)) (zeta : Tensor ℝ)
    (zeta_labels : Option (Tensor ℝ)) : Except PyErr (Tensor ℝ) := do
  let loss ← D.primal zeta zeta_labels
  let cost ← D.cost.value xi.unsqueeze0 zeta (maybeUnsqueeze xi_labels) zeta_labels
  Tensor.zipWith (fun l c => (l - D.lam * c) / D.epsilon) loss cost

/-- lines 128-133: reduction of the log-sum-exp, minus `log n` -/
noncomputable def finishDual (D : DualLoss) (rho : ℝ) (n : ℕ) (integ : Tensor ℝ) : Except PyErr DualVal := do
  let second ← reduceLossBatch D.reduction integ.logsumexp0
  let second := second.map (fun x => x - Real.log n)
  .ok (.val (addScalar (D.lam * rho ^ D.cost.power) (second.map (fun x => D.epsilon * x))))

/-- the ERM branch, dual_loss.py:44-51 -/
noncomputable def ermBranch (D : DualLoss) (rho : ℝ) (xi : Tensor ℝ) (xi_labels : Option (Tensor ℝ)) :
    Except PyErr DualVal := do
  let batched ← D.primal xi.unsqueeze0 (maybeUnsqueeze xi_labels)
  let l ← reduceLossBatch D.reduction batched.squeeze0
  .ok (.val (addScalar (rho * D.lam) l))

/-- the real labels of a valid label tensor -/
def realLabels (l : Option (Tensor (XNum ℝ))) : Option (Tensor ℝ) := l.map (fun t => t.map XNum.toReal)

/-- the importance-sampled branch, dual_loss.py:59-113.  The correction is NaN where both log-probabilities are `-inf`
(`Dirac` labels away from their location), in which case the returned value is NaN.  Labels displaced to infinity or NaN
have log-probability `-inf` or NaN under both laws, so that the correction and the value are NaN too.
Simplification: with `reduction = none` a NaN is reported as a single NaN value instead of a vector containing NaN. -/
noncomputable def impSampBranch {G : Type} (ext : TorchExt G) (D : DualLoss) (rho : ℝ) (xi : Tensor ℝ)
    (xi_labels : Option (Tensor ℝ)) (zeta : Tensor ℝ) (zeta_labels : Option (Tensor ℝ)) : Except PyErr DualVal := do
  let (xs, xlsX, z, zlX) ← displaceSamples D xi xi_labels zeta zeta_labels
  if labelsInvalid xlsX || labelsInvalid zlX then .ok .nan else
  let xls := realLabels xlsX
  let zl := realLabels zlX
  let integ ← integrand D xi xi_labels z zl
  match D.sampler with
  | none => .error .valueError
  | some s => do
      let a ← s.logProb ext z zl
      let b ← s.logProbRecentered ext xs xls z zl
      let corr ← Tensor.zipWith XNum.sub a b
      if checkTensorInvalid corr then .ok .nan
      else do
        let integ ← Tensor.zipWith (· + ·) integ (corr.map XNum.toReal)
        finishDual D rho z.size0 integ

/-- `compute_dual`, dual_loss.py:11-141.  A NaN radius in ERM mode gives NaN (`rho * lam`). -/
noncomputable def computeDual {G : Type} (ext : TorchExt G) (D : DualLoss) (xi : Tensor ℝ)
    (xi_labels : Option (Tensor ℝ)) (zeta : Tensor ℝ) (zeta_labels : Option (Tensor ℝ)) : Except PyErr DualVal :=
  match D.rho with
  | .nan => if D.ermMode then do
        let _ ← ermBranch D 0 xi xi_labels
        .ok .nan
      else .ok .nan
  | .num rho =>
      if rho = 0 ∨ D.ermMode = true then ermBranch D rho xi xi_labels
      else if 0 < rho then
        if D.impSamp then impSampBranch ext D rho xi xi_labels zeta zeta_labels
        else do
          let integ ← integrand D xi xi_labels zeta zeta_labels
          finishDual D rho zeta.size0 integ
      else .error .valueError

/-! ## Forward passes -/

/-- `init_sampler` is unreachable from the post-sampled forward pass: the property `primal_loss.sampler` raises
`ValueError` when the sampler is missing (base_loss.py:118-123, oracle_torch.py:284).
`DualPostSampledLoss.forward`, oracle_torch.py:246-311; the caller's `zeta` is deleted at once.  Returns the value, the
generator and the (re-centred) sampler. -/
noncomputable def postForward {G : Type} (ext : TorchExt G) (D : DualLoss) (xi : Tensor ℝ)
    (xi_labels : Option (Tensor ℝ)) (resetSampler : Bool) (g : G) : Except PyErr (DualVal × DualLoss × G) :=
  match D.sampler with
  | none => .error .valueError
  | some s => do
    let (s, g) ← if resetSampler then s.resetMean ext xi xi_labels g else .ok (s, g)
    let D := { D with sampler := some s }
    match D.rho with
    | .num rho =>
        if rho < 0 then .error .valueError
        else if rho = 0 then do
          let batched ← D.primal xi.unsqueeze0 (maybeUnsqueeze xi_labels)
          let l ← reduceLossBatch D.reduction batched.squeeze0
          .ok (.val (addScalar (rho * D.lam) l), D, g)
        else do
          let (z, zl, g) := s.sample ext D.nSamples g
          let v ← computeDual ext D xi xi_labels z zl
          .ok (v, D, g)
    | .nan => do
        let (z, zl, g) := s.sample ext D.nSamples g
        let v ← computeDual ext D xi xi_labels z zl
        .ok (v, D, g)

/-- stored samples of a pre-sampled loss (`zeta`, `zeta_labels` attributes) -/
abbrev Cache := Option (Tensor ℝ × Option (Tensor ℝ))

/-- `DualPreSampledLoss.forward`, oracle_torch.py:467-542 -/
noncomputable def preForward {G : Type} (ext : TorchExt G) (D : DualLoss) (cache : Cache) (xi : Tensor ℝ)
    (xi_labels : Option (Tensor ℝ)) (zeta : Option (Tensor ℝ)) (zeta_labels : Option (Tensor ℝ)) :
    Cache × Except PyErr DualVal :=
  match zeta with
  | none =>
      match cache with
      | none => (cache, .error .valueError)
      | some (z, zl) =>
          (cache,
            match D.rho with
            | .num rho =>
                if rho < 0 then .error .valueError
                else if rho = 0 then do
                  let batched ← D.primal xi.unsqueeze0 (maybeUnsqueeze xi_labels)
                  let l ← reduceLossBatch D.reduction batched
                  .ok (.val (addScalar (rho * D.lam) l))
                else computeDual ext D xi xi_labels z zl
            | .nan => computeDual ext D xi xi_labels z zl)
  | some z =>
      (some (z, zeta_labels), computeDual ext D xi xi_labels z zeta_labels)

end Skwdro
