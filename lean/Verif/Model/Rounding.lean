import Verif.Model.Dual

/-! The robust loss computed with rounded operations (dual_loss.py:53-54 and 114-133, the branch without importance sampling, mean reduction).

Each operation returns some number within a relative error `u` of the exact result (`Near`); which one is left open, so that every hardware, order
of summation and library of elementary functions with this accuracy is covered.  The losses and costs of the samples are inputs.
Simplifications: no overflow nor underflow. -/

namespace Skwdro

/-- `r` is a result of an operation whose exact value is `x`, with relative error at most `u` -/
def Near (u x r : ℝ) : Prop := |r - x| ≤ u * |x|

/-- `Tensor.sum` (external): numbers are added two at a time, in any order -/
inductive FlSum (u : ℝ) : List ℝ → ℝ → Prop
  | one (x : ℝ) : FlSum u [x] x
  | add {l l' l'' : List ℝ} {a b r : ℝ} : FlSum u l a → FlSum u l' b → l''.Perm (l ++ l') → Near u (a + b) r → FlSum u l'' r

/-- `torch.logsumexp` (external): the largest entry is subtracted from all, exponentials are added, and it is added back to the logarithm -/
def FlLSE {n : ℕ} (u : ℝ) (x : Fin n → ℝ) (r : ℝ) : Prop :=
  ∃ (d e : Fin n → ℝ) (s t : ℝ), (∀ j, Near u (x j - ⨆ i, x i) (d j)) ∧ (∀ j, Near u (Real.exp (d j)) (e j)) ∧
    FlSum u (List.ofFn e) s ∧ Near u (Real.log s) t ∧ Near u ((⨆ i, x i) + t) r

/-- one entry of the integrand, dual_loss.py:125-126: `integrand = loss_estimate - self.lam * cost_estimate`, `integrand /= self.epsilon` -/
def FlIntegrand (u lam eps l c r : ℝ) : Prop :=
  ∃ p q, Near u (lam * c) p ∧ Near u (l - p) q ∧ Near u (q / eps) r

/-- `compute_dual`, dual_loss.py:53-54 (first term) and 114-133, mean reduction (_misc_dual_interfaces.py:163-164).  The logarithm of the number of
samples has an accuracy `v` of its own: `pt.log(pt.tensor(zeta.size(0)))` is the logarithm of an integer tensor, computed in torch's default (single)
precision whatever the precision of the data. -/
def FlDual {n m : ℕ} (u v lam rho p eps : ℝ) (L C : Fin n → Fin m → ℝ) (r : ℝ) : Prop :=
  ∃ (integ : Fin n → Fin m → ℝ) (lse : Fin m → ℝ) (S mean k second e rp first : ℝ),
    (∀ j i, FlIntegrand u lam eps (L j i) (C j i) (integ j i)) ∧ (∀ i, FlLSE u (fun j => integ j i) (lse i)) ∧
    FlSum u (List.ofFn lse) S ∧ Near u (S / m) mean ∧ Near v (Real.log n) k ∧ Near u (mean - k) second ∧ Near u (eps * second) e ∧
    Near u (rho ^ p) rp ∧ Near u (lam * rp) first ∧ Near u (first + e) r

end Skwdro
