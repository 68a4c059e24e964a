import Verif.Model.Tensor

/-! What it means for a tensor to hold a given vector / matrix / 3-dimensional array, and for a call to return one. -/

namespace Skwdro.Spec

/-- `t` has shape `(d,)` and entries `v`. -/
def IsVec {α : Type} {d : ℕ} (t : Tensor α) (v : Fin d → α) : Prop :=
  t.shape = [d] ∧ ∀ k : Fin d, t.get [k] = v k

/-- `t` has shape `(m, d)` and entries `A`. -/
def IsMat {α : Type} {m d : ℕ} (t : Tensor α) (A : Fin m → Fin d → α) : Prop :=
  t.shape = [m, d] ∧ ∀ (i : Fin m) (k : Fin d), t.get [i, k] = A i k

/-- `t` has shape `(n, m, d)` and entries `A`. -/
def IsTen {α : Type} {n m d : ℕ} (t : Tensor α) (A : Fin n → Fin m → Fin d → α) : Prop :=
  t.shape = [n, m, d] ∧ ∀ (j : Fin n) (i : Fin m) (k : Fin d), t.get [j, i, k] = A j i k

/-- `t` has shape `b ++ [d]`: a batch of shape `b` of vectors of length `d`, the one at batch index `i` being `X i`. -/
def HasRows {d : ℕ} (t : Tensor ℝ) (b : List ℕ) (X : List ℕ → Fin d → ℝ) : Prop :=
  t.shape = b ++ [d] ∧ ∀ i, Tensor.InShape i b → ∀ k : Fin d, t.get (i ++ [k.1]) = X i k

/-- `t` is 0-dimensional with value `x`. -/
def IsScalar {α : Type} (t : Tensor α) (x : α) : Prop := t.shape = [] ∧ t.get [] = x

/-- the call returns normally a tensor satisfying `P` -/
def Returns {α : Type} (call : Except PyErr α) (P : α → Prop) : Prop := ∃ t, call = .ok t ∧ P t

/-- the tensor with given vector entries (used to build concrete inputs) -/
def vec {d : ℕ} (v : Fin d → ℝ) : Tensor ℝ :=
  ⟨[d], fun i => if h : i.headD 0 < d then v ⟨i.headD 0, h⟩ else 0⟩

/-- the tensor with given matrix entries -/
def mat {m d : ℕ} (A : Fin m → Fin d → ℝ) : Tensor ℝ :=
  ⟨[m, d], fun i => if h : i.headD 0 < m ∧ i.tail.headD 0 < d then A ⟨i.headD 0, h.1⟩ ⟨i.tail.headD 0, h.2⟩ else 0⟩

/-- the tensor with given 3-dimensional entries -/
def ten {n m d : ℕ} (A : Fin n → Fin m → Fin d → ℝ) : Tensor ℝ :=
  ⟨[n, m, d], fun i => if h : i.headD 0 < n ∧ i.tail.headD 0 < m ∧ i.tail.tail.headD 0 < d then
    A ⟨i.headD 0, h.1⟩ ⟨i.tail.headD 0, h.2.1⟩ ⟨i.tail.tail.headD 0, h.2.2⟩ else 0⟩

theorem isVec_vec {d : ℕ} (v : Fin d → ℝ) : IsVec (vec v) v := by
  refine ⟨rfl, fun k => ?_⟩; simp [vec]

theorem isMat_mat {m d : ℕ} (A : Fin m → Fin d → ℝ) : IsMat (mat A) A := by
  refine ⟨rfl, fun i k => ?_⟩; simp [mat]

theorem isTen_ten {n m d : ℕ} (A : Fin n → Fin m → Fin d → ℝ) : IsTen (ten A) A := by
  refine ⟨rfl, fun j i k => ?_⟩; simp [ten]

end Skwdro.Spec
