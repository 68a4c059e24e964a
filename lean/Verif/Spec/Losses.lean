import Verif.Spec.Tensors
import Mathlib.Algebra.BigOperators.Fin

/-! Reference notions for user losses. -/

namespace Skwdro.Spec

/-- A user loss (with labels) treats the rows of a flat batch independently: on inputs `(N,d)` and labels `(N,k)` it
returns an `(N,s)` tensor whose row `r` is `ell` of row `r`. -/
def RowWise {d k s : ℕ} (flat : Tensor ℝ → Option (Tensor ℝ) → Except PyErr (Tensor ℝ))
    (ell : (Fin d → ℝ) → (Fin k → ℝ) → Fin s → ℝ) : Prop :=
  ∀ (N : ℕ) (x y : Tensor ℝ) (X : Fin N → Fin d → ℝ) (Y : Fin N → Fin k → ℝ), IsMat x X → IsMat y Y →
    Returns (flat x (some y)) (fun t => IsMat t (fun r => ell (X r) (Y r)))

/-- the same without labels -/
def RowWise0 {d s : ℕ} (flat : Tensor ℝ → Option (Tensor ℝ) → Except PyErr (Tensor ℝ))
    (ell : (Fin d → ℝ) → Fin s → ℝ) : Prop :=
  ∀ (N : ℕ) (x : Tensor ℝ) (X : Fin N → Fin d → ℝ), IsMat x X →
    Returns (flat x none) (fun t => IsMat t (fun r => ell (X r)))

/-- row-wise loss that already reduced its last dimension: returns an `(N,)` tensor -/
def RowWiseFlat {d k : ℕ} (flat : Tensor ℝ → Option (Tensor ℝ) → Except PyErr (Tensor ℝ))
    (ell : (Fin d → ℝ) → (Fin k → ℝ) → ℝ) : Prop :=
  ∀ (N : ℕ) (x y : Tensor ℝ) (X : Fin N → Fin d → ℝ) (Y : Fin N → Fin k → ℝ), IsMat x X → IsMat y Y →
    Returns (flat x (some y)) (fun t => IsVec t (fun r => ell (X r) (Y r)))

/-- the same without labels -/
def RowWiseFlat0 {d : ℕ} (flat : Tensor ℝ → Option (Tensor ℝ) → Except PyErr (Tensor ℝ)) (ell : (Fin d → ℝ) → ℝ) : Prop :=
  ∀ (N : ℕ) (x : Tensor ℝ) (X : Fin N → Fin d → ℝ), IsMat x X → Returns (flat x none) (fun t => IsVec t (fun r => ell (X r)))

/-- ridge penalty: half the weight times the squared norm of the parameters, absent for a missing or `<= 0` weight -/
noncomputable def ridge (w : Option ℝ) (theta : List ℝ) : ℝ :=
  match w with
  | none => 0
  | some r => if r ≤ 0 then 0 else r / 2 * (theta.map (fun x => x ^ 2)).sum

/-- average of a finite family -/
noncomputable def avg {s : ℕ} (f : Fin s → ℝ) : ℝ := (∑ c, f c) / s

end Skwdro.Spec
