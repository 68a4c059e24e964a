import Verif.Model.Tensor

/-! # `skwdro/base/problems.py`: empirical distributions

Arrays live on a heap of mutable cells, so that sharing is visible. A reference is a cell number; `next` is the first free one. -/

namespace Skwdro

/-- numpy's mutable arrays: `cells r` is the current content of array `r`, cells below `next` are allocated -/
structure Heap where
  next : ℕ
  cells : ℕ → Tensor ℝ

/-- a new array with the given content (`np.array`, `ndarray.copy`) -/
def Heap.alloc (h : Heap) (t : Tensor ℝ) : ℕ × Heap :=
  (h.next, ⟨h.next + 1, fun r => if r = h.next then t else h.cells r⟩)

/-- in-place modification of array `r` (`x[...] = ...`); the new content is arbitrary -/
def Heap.write (h : Heap) (r : ℕ) (t : Tensor ℝ) : Heap := { h with cells := fun q => if q = r then t else h.cells q }

/-- a Python value passed as data: an array, or anything else -/
inductive PyData
  | array (r : ℕ)
  | other

/-- problems.py:10-19: the attributes of a `Distribution`; `with_labels` is a class attribute fixed by the subclass.
The `empirical` flag is constant and left out. -/
structure Distribution where
  with_labels : Bool
  m : ℤ
  name : PyStr
  samples_ : Option ℕ
  samples_x_ : Option ℕ
  samples_y_ : Option ℕ

/-- problems.py:70-77: the array is stored as is (by reference) -/
def withoutLabels (m : ℤ) (samples : ℕ) (name : PyStr) (h : Heap) : Distribution × Heap :=
  (⟨false, m, name, some samples, none, none⟩, h)

/-- problems.py:86-95: both arrays are copied, first `samples_x` -/
def withLabels (m : ℤ) (samples_x samples_y : ℕ) (name : PyStr) (h : Heap) : Distribution × Heap :=
  let (x, h1) := h.alloc (h.cells samples_x)
  let (y, h2) := h1.alloc (h1.cells samples_y)
  (⟨true, m, name, none, some x, some y⟩, h2)

/-- problems.py:21-26 -/
def Distribution.getSamples (d : Distribution) : Except PyErr (Option ℕ) :=
  if d.with_labels then .error .attributeError else .ok d.samples_

/-- problems.py:35-40 -/
def Distribution.getX (d : Distribution) : Except PyErr (Option ℕ) :=
  if d.with_labels then .ok d.samples_x_ else .error .attributeError

/-- problems.py:49-54 -/
def Distribution.getY (d : Distribution) : Except PyErr (Option ℕ) :=
  if d.with_labels then .ok d.samples_y_ else .error .attributeError

/-- problems.py:28-33 -/
def Distribution.setSamples (d : Distribution) : PyData → Except PyErr Distribution
  | .array r => .ok { d with samples_ := some r }
  | .other => .error .typeError

/-- problems.py:42-47 -/
def Distribution.setX (d : Distribution) : PyData → Except PyErr Distribution
  | .array r => .ok { d with samples_x_ := some r }
  | .other => .error .typeError

/-- problems.py:56-61 -/
def Distribution.setY (d : Distribution) : PyData → Except PyErr Distribution
  | .array r => .ok { d with samples_y_ := some r }
  | .other => .error .typeError

/-- What a caller can do between two uses of a distribution without going through it: create arrays, overwrite arrays
they hold a reference to, build further distributions from such arrays. `write k t` and the builders index the caller's list of references. -/
inductive CallerOp
  | create (t : Tensor ℝ)
  | write (k : ℕ) (t : Tensor ℝ)
  | buildPlain (k : ℕ)
  | buildLabelled (k l : ℕ)

/-- the caller: their references, and the heap -/
structure Caller where
  refs : List ℕ
  heap : Heap

/-- one operation; an index outside the list of references does nothing -/
def Caller.step (c : Caller) : CallerOp → Caller
  | .create t => let (r, h) := c.heap.alloc t; ⟨r :: c.refs, h⟩
  | .write k t => match c.refs[k]? with
    | some r => { c with heap := c.heap.write r t }
    | none => c
  | .buildPlain k => match c.refs[k]? with
    | some r => { c with heap := (withoutLabels 0 r [] c.heap).2 }
    | none => c
  | .buildLabelled k l => match c.refs[k]?, c.refs[l]? with
    | some r, some s => { c with heap := (withLabels 0 r s [] c.heap).2 }
    | _, _ => c

/-- a history of operations -/
def Caller.run (c : Caller) (ops : List CallerOp) : Caller := ops.foldl Caller.step c

end Skwdro
