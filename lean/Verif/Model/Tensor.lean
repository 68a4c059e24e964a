import Verif.Model.Basic
import Mathlib.Algebra.BigOperators.Group.List.Basic
import Mathlib.Analysis.SpecialFunctions.Log.Basic
import Mathlib.Analysis.SpecialFunctions.Pow.Real

/-!
# Torch tensors (external library), as far as the modelled code uses them

A tensor is a shape and a function from multi-indices to values; only indices inside the shape are meaningful.
Layout-changing operations follow torch's row-major convention.
-/

namespace Skwdro

structure Tensor (α : Type) where
  shape : List ℕ
  get : List ℕ → α

namespace Tensor

variable {α β γ : Type}

/-- `t.dim()` -/
def dim (t : Tensor α) : ℕ := t.shape.length

/-- `t.size(0)` -/
def size0 (t : Tensor α) : ℕ := t.shape.headD 0

/-- a multi-index lying inside a shape -/
def InShape (i s : List ℕ) : Prop := List.Forall₂ (· < ·) i s

/-- all multi-indices of a shape, in row-major order -/
def indices : List ℕ → List (List ℕ)
  | [] => [[]]
  | n :: s => (List.range n).flatMap (fun i => (indices s).map (i :: ·))

/-- row-major position of a multi-index -/
def ravel : List ℕ → List ℕ → ℕ
  | _ :: s, i :: is => i * s.prod + ravel s is
  | _, _ => 0

/-- multi-index at a row-major position -/
def unravel : List ℕ → ℕ → List ℕ
  | [], _ => []
  | _ :: s, k => (k / s.prod) :: unravel s (k % s.prod)

/-- `t.unsqueeze(0)` -/
def unsqueeze0 (t : Tensor α) : Tensor α := ⟨1 :: t.shape, fun i => t.get i.tail⟩

/-- `t.unsqueeze(-1)` -/
def unsqueezeLast (t : Tensor α) : Tensor α := ⟨t.shape ++ [1], fun i => t.get i.dropLast⟩

/-- `t.squeeze(0)`: drops the first dimension if it has size one. -/
def squeeze0 (t : Tensor α) : Tensor α :=
  match t.shape with
  | 1 :: s => ⟨s, fun i => t.get (0 :: i)⟩
  | _ => t

/-- `t.squeeze(-1)`: drops the last dimension if it has size one. -/
def squeezeLast (t : Tensor α) : Tensor α :=
  match t.shape.reverse with
  | 1 :: s => ⟨s.reverse, fun i => t.get (i ++ [0])⟩
  | _ => t

/-- re-inserts index 0 at the dimensions of size one -/
def reinsert : List ℕ → List ℕ → List ℕ
  | [], _ => []
  | n :: s, i => if n = 1 then 0 :: reinsert s i else i.headD 0 :: reinsert s i.tail

/-- `t.squeeze()`: drops every dimension of size one. -/
def squeeze (t : Tensor α) : Tensor α :=
  ⟨t.shape.filter (· ≠ 1), fun i => t.get (reinsert t.shape i)⟩

/-- `t.view(s)` / `t.flatten(...)`: same elements in row-major order; a size mismatch raises `RuntimeError`. -/
def view (s : List ℕ) (t : Tensor α) : Except PyErr (Tensor α) :=
  if s.prod = t.shape.prod then .ok ⟨s, fun i => t.get (unravel t.shape (ravel s i))⟩
  else .error .runtimeError

/-- `t.flatten(start_dim=0, end_dim=-2)`: all dimensions but the last are merged. -/
def flattenButLast (t : Tensor α) : Tensor α :=
  let b := t.shape.dropLast
  let d := t.shape.getLastD 1
  ⟨[b.prod, d], fun i => t.get (unravel b (i.headD 0) ++ i.tail)⟩

/-- elementwise map -/
def map (f : α → β) (t : Tensor α) : Tensor β := ⟨t.shape, fun i => f (t.get i)⟩

/-- broadcast of two reversed shapes; `none` when incompatible -/
def bcastRev : List ℕ → List ℕ → Option (List ℕ)
  | [], t => some t
  | s, [] => some s
  | m :: s, n :: t =>
      if m = n ∨ n = 1 then (bcastRev s t).map (m :: ·)
      else if m = 1 then (bcastRev s t).map (n :: ·)
      else none

/-- index seen by an operand of (reversed) shape `s` for the (reversed) output index `i` -/
def projRev : List ℕ → List ℕ → List ℕ
  | n :: s, i :: is => (if n = 1 then 0 else i) :: projRev s is
  | _, _ => []

def bcastShape (s t : List ℕ) : Option (List ℕ) := (bcastRev s.reverse t.reverse).map List.reverse

def proj (s i : List ℕ) : List ℕ := (projRev s.reverse i.reverse).reverse

/-- elementwise binary operation with torch broadcasting; incompatible shapes raise `RuntimeError` -/
def zipWith (f : α → β → γ) (a : Tensor α) (b : Tensor β) : Except PyErr (Tensor γ) :=
  match bcastShape a.shape b.shape with
  | some s => .ok ⟨s, fun i => f (a.get (proj a.shape i)) (b.get (proj b.shape i))⟩
  | none => .error .runtimeError

/-- elements in row-major order -/
def toList (t : Tensor α) : List α := (indices t.shape).map t.get

/-- `t.sum()` -/
def sum (t : Tensor ℝ) : Tensor ℝ := ⟨[], fun _ => t.toList.sum⟩

/-- `t.mean()`.  Simplification: torch gives NaN on an empty tensor, here `0/0 = 0`. -/
noncomputable def mean (t : Tensor ℝ) : Tensor ℝ := ⟨[], fun _ => t.toList.sum / t.toList.length⟩

/-- the values along the last dimension at the multi-index `i` (without last component) -/
def lastRow (t : Tensor α) (i : List ℕ) : List α := (List.range (t.shape.getLastD 1)).map (fun j => t.get (i ++ [j]))

/-- reduction of the last dimension with `keepdim=True`; on a 0-dimensional tensor torch reduces the single value -/
def reduceLast (f : List α → β) (t : Tensor α) : Tensor β :=
  match t.shape with
  | [] => ⟨[], fun _ => f [t.get []]⟩
  | s => ⟨s.dropLast ++ [1], fun i => f (t.lastRow i.dropLast)⟩

/-- arithmetic mean of a list (0 on the empty list, where torch gives NaN) -/
noncomputable def listMean (l : List ℝ) : ℝ := l.sum / l.length

/-- `t.mean(dim=-1, keepdim=True)` -/
noncomputable def meanLast (t : Tensor ℝ) : Tensor ℝ := reduceLast listMean t

/-- the values along the first dimension at the multi-index `i` (without first component) -/
def firstCol (t : Tensor α) (i : List ℕ) : List α := (List.range (t.shape.headD 0)).map (fun j => t.get (j :: i))

/-- log-sum-exp of a list (`log 0 = 0` on the empty list, where torch gives `-inf`) -/
noncomputable def listLSE (l : List ℝ) : ℝ := Real.log ((l.map Real.exp).sum)

/-- `torch.logsumexp(t, 0)` -/
noncomputable def logsumexp0 (t : Tensor ℝ) : Tensor ℝ := ⟨t.shape.tail, fun i => listLSE (t.firstCol i)⟩

/-- a scalar tensor -/
def scalar (x : α) : Tensor α := ⟨[], fun _ => x⟩

end Tensor

end Skwdro
