import Verif.Model.Samplers

/-!
# The Dirac distribution: `/repo/skwdro/distributions/dirac_distribution.py`
-/

namespace Skwdro

/-- A `Dirac` object, dirac_distribution.py:11-103 -/
structure Dirac where
  loc : Tensor ℝ
  batchShape : List ℕ
  eventShape : List ℕ

namespace Dirac

/-- `Dirac.__init__`, dirac_distribution.py:21-30.  Simplification: torch's argument validation (entries of `loc` are not
NaN, at least one dimension) is left out; the samplers only build it on data of two dimensions. -/
def mk' (loc : Tensor ℝ) (nBatch : ℕ) : Dirac := ⟨loc, loc.shape.take nBatch, loc.shape.drop nBatch⟩

/-- `t.expand(s)` (torch): aligned on the right; a dimension of `t` must be 1 or equal to that of `s`. -/
def expandTensor (t : Tensor ℝ) (s : List ℕ) : Except PyErr (Tensor ℝ) :=
  match Tensor.bcastShape t.shape s with
  | some r => if r = s then .ok ⟨s, fun i => t.get (Tensor.proj t.shape i)⟩ else .error .runtimeError
  | none => .error .runtimeError

/-- `Dirac.expand`, dirac_distribution.py:32-69 -/
def expand (d : Dirac) (batch : List ℕ) : Except PyErr Dirac := do
  let l ← expandTensor d.loc (batch ++ d.eventShape)
  .ok ⟨l, batch, d.eventShape⟩

/-- `Dirac.rsample`, dirac_distribution.py:83-85; `_extended_shape` is `sample + batch + event` -/
def rsample (d : Dirac) (sample : List ℕ) : Except PyErr (Tensor ℝ) :=
  expandTensor d.loc (sample ++ (d.batchShape ++ d.eventShape))

/-- `Dirac.log_prob`, dirac_distribution.py:87-91 -/
noncomputable def logProb (d : Dirac) (value : Tensor ℝ) : Except PyErr (XNum ℝ) := do
  let diff ← Tensor.zipWith (fun v m => v - m) value d.loc
  .ok (if (diff.map (fun x => |x|)).toList.sum = 0 then .fin 0 else .ninf)

/-- `Dirac.enumerate_support`, dirac_distribution.py:93-97 -/
def enumerateSupport (d : Dirac) (expand : Bool) : Except PyErr (Tensor ℝ) :=
  if expand then d.rsample [1] else .error .notImplemented

/-- `Dirac.mean`, dirac_distribution.py:71-73 -/
def mean (d : Dirac) : Tensor ℝ := d.loc

/-- `Dirac.mode`, dirac_distribution.py:75-77 -/
def mode (d : Dirac) : Tensor ℝ := d.loc

/-- `Dirac.variance`, dirac_distribution.py:79-81 -/
def variance (d : Dirac) : Tensor ℝ := d.loc.map (fun _ => 0)

end Dirac

end Skwdro
