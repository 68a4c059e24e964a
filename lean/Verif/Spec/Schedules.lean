import Verif.Spec.Optimizers
import Verif.Spec.Solve

/-! Fits whose optimizer is the composite one. -/

namespace Skwdro.Spec
variable {V S : Type}

/-- the optimizer of the fit is a composite optimizer; `grads` reads the gradients held by the rest of the world -/
def StepsComposite (o : InnerOpt S) (grads : V → List ℝ × ℝ) (env : Env (V × Composite S)) : Prop :=
  ∀ w, env.step w =
    ((w.2.step o (grads w.1).1 (grads w.1).2).1, w.1, (w.2.step o (grads w.1).1 (grads w.1).2).2)

/-- same inner states and same schedulers; parameters and multiplier may differ -/
def SameOptimizer (w w' : V × Composite S) : Prop :=
  w'.2.sParams = w.2.sParams ∧ w'.2.sLam = w.2.sLam ∧ w'.2.cParams = w.2.cParams ∧ w'.2.cLam = w.2.cLam

/-- everything but `optimizer.step()` leaves the optimizer alone: gradients, evaluations, initialisation of the multiplier and the
optimality condition -/
structure LeavesOptimizer (env : Env (V × Composite S)) : Prop where
  zeroGrad : ∀ w, SameOptimizer w (env.zeroGrad w)
  forward : ∀ erm imp tr w, SameOptimizer w (env.forward erm imp tr w).2
  backward : ∀ w, SameOptimizer w (env.backward w).2
  initDual : ∀ w, SameOptimizer w (env.initDual w).2
  stop : ∀ i w, SameOptimizer w (env.stop i w).2

end Skwdro.Spec
