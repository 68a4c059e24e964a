import Verif.Spec.Wasserstein
import Mathlib.LinearAlgebra.UnitaryGroup

/-! The same data presented in another way. -/

namespace Skwdro.Spec

/-- `σ` lists the `n` samples in some order, each as many times as the others: a shuffle, or the whole data set repeated -/
def ListsEqually {n' n : ℕ} (σ : Fin n' → Fin n) : Prop := ∀ i, (Finset.univ.filter fun j => σ j = i).card * n = n'

/-- coordinates in another orthonormal basis (a permutation of the features is a special case) -/
def rotated {d : ℕ} (U : Matrix (Fin d) (Fin d) ℝ) (x : Fin d → ℝ) : Fin d → ℝ := U.mulVec x

end Skwdro.Spec
