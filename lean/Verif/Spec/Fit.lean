import Verif.Model.Fit
import Verif.Spec.Estimators

/-! Assumptions about torch in a fit, and the well-formed problems. -/

namespace Skwdro.Spec

/-- the module takes labels iff `labels`, of width `k`; `mc` says that it already averages over outputs (cross entropy) -/
def ModFits {d : ℕ} (M : Module d) (k : ℕ) (labels mc : Bool) : Prop :=
  match M with
  | .softMargin _ => labels = true ∧ k = 1 ∧ mc = false
  | .mse _ => labels = true ∧ k = 1 ∧ mc = false
  | @Module.crossEnt _ K _ => labels = true ∧ k = K ∧ mc = true
  | .weber _ => labels = true ∧ k = 1 ∧ mc = false
  | .portfolio p => labels = false ∧ mc = false ∧ p.raw.length = d
  | .newsvendor _ _ _ => labels = false ∧ mc = false ∧ d = 1

/-- assumption on autograd: gradients have the shapes of the inputs, and exist for labels exactly when there are labels -/
def GradShapes (grads : Tensor ℝ → Option (Tensor ℝ) → Tensor ℝ × Option (Tensor ℝ)) : Prop :=
  ∀ x y, (grads x y).1.shape = x.shape ∧ (grads x y).2.isSome = y.isSome ∧ ∀ a b, y = some a → (grads x y).2 = some b → b.shape = a.shape

/-- a well-formed problem: `m` points of dimension `d`, labels (if any) of width `k`, and a loss fit for them -/
structure ArgsFit {d : ℕ} (args : Module d → DualizeArgs) (M0 : Module d) (m k : ℕ) (mc : Bool) : Prop where
  data : (args M0).xi.shape = [m, d]
  labels : ∀ y, (args M0).xi_labels = some y → y.shape = [m, k]
  fits : ModFits M0 k (args M0).xi_labels.isSome mc
  same : ∀ M, (args M).flat = M.flat ∧ (args M).xi_labels = (args M0).xi_labels ∧ (args M).loss_reduces_spatial_dims = mc
  grads : ∀ M, GradShapes (args M).grads
  reduction : (args M0).reduction = none ∨ (args M0).reduction = some .mean ∨ (args M0).reduction = some .sum

/-- an optimizer step with a closure that never raises by itself -/
inductive StepTotal {O : Type} : StepProg O → Prop
  | done : StepTotal .done
  | act (f next) : (∀ v, StepTotal (next v)) → StepTotal (.act f next)
  | eval (next) : (∀ v, StepTotal (next v)) → StepTotal (.eval next)

/-- assumption on torch: the optimizer raises nothing by itself and does not erase gradients; the backward pass fills the gradients of the
parameters, except for the constant NaN returned at a NaN radius, and the gradient of the multiplier if the radius is positive (the multiplier is
frozen otherwise, _misc_dual_interfaces.py:112-114) -/
structure GoodTorch {G O : Type} (T : Torch G O) : Prop where
  prog : ∀ v, StepTotal (T.prog v)
  step : ∀ v, ∃ v', T.step v = .ok v' ∧ (v.pgrad.isSome = true → v'.pgrad.isSome = true) ∧ (v.lgrad.isSome = true → v'.lgrad.isSome = true)
  reset : ∀ f, T.resetLbd = some f → ∀ v, ∃ v', f v = .ok v'
  backward : ∀ t, t.loss.rho ≠ .nan → (T.backward t).1.isSome = true
  backwardLam : ∀ t r, t.loss.rho = .num r → 0 < r → (T.backward t).2.isSome = true

/-- the updates of a step with a closure give the multiplier no gradient -/
inductive KeepsNoGrad {O : Type} : StepProg O → Prop
  | done : KeepsNoGrad .done
  | fail (e) : KeepsNoGrad (.fail e)
  | act (f next) : (∀ v, v.lgrad = none → (f v).lgrad = none) → (∀ v, KeepsNoGrad (next v)) → KeepsNoGrad (.act f next)
  | eval (next) : (∀ v, KeepsNoGrad (next v)) → KeepsNoGrad (.eval next)

/-- assumption on torch: a multiplier with `requires_grad` off, as it is at radius zero, never gets a gradient -/
structure FrozenLam {G O : Type} (T : Torch G O) : Prop where
  backward : ∀ t, t.loss.rho = .num 0 → (T.backward t).2 = none
  prog : ∀ v, KeepsNoGrad (T.prog v)
  step : ∀ v v', T.step v = .ok v' → v.lgrad = none → v'.lgrad = none
  reset : ∀ f, T.resetLbd = some f → ∀ v v', f v = .ok v' → v.lgrad = none → v'.lgrad = none

/-- an optimality condition on the gradient of the parameters, as in the defaults of all estimators -/
def GradCond (cfg : OCConfig) : Prop :=
  cfg.metric = "grad".toList ∧ cfg.monitoring = "theta".toList ∧ (cfg.mode = "rel".toList ∨ cfg.mode = "abs".toList)

/-- the condition looks at the gradient of the multiplier -/
def WatchesLamGrad (cfg : OCConfig) : Prop :=
  cfg.metric = "grad".toList ∧ 0 < cfg.tolLambda ∧ (cfg.monitoring ∈ L_AND_T ∨ cfg.monitoring ∈ L_OR_T ∨ cfg.monitoring ∈ JUST_L)

/-- the iterates remembered by a condition, if any, have `n` entries -/
structure MemFits (oc : OCState) (n : ℕ) : Prop where
  t0 : ∀ a, oc.t.t0 = some a → a.length = n
  tMem : ∀ a, oc.t.tMem = some a → a.length = n
  t1 : oc.t.deltaT1.isSome = true → oc.t.tMem.isSome = true
  l1 : oc.l.deltaL1.isSome = true → oc.l.lMem.isSome = true

/-- an optimality condition with documented settings can be used for `n` parameters and this radius: iterates it remembers have as many entries, and it
does not look at the gradient of a frozen multiplier -/
structure CondReady (cfg : OCConfig) (oc : OCState) (n : ℕ) (rho : Radius) : Prop where
  metric : cfg.metric = "grad".toList ∨ cfg.metric = "param".toList
  mode : cfg.mode = "rel".toList ∨ cfg.mode = "abs".toList
  monitoring : cfg.monitoring ∈ L_AND_T ∨ cfg.monitoring ∈ L_OR_T ∨ cfg.monitoring ∈ JUST_L ∨ cfg.monitoring ∈ JUST_T
  memory : cfg.metric = "param".toList → MemFits oc n
  lam : WatchesLamGrad cfg → rho ≠ .num 0

/-- the arguments depend on the module only through the loss, its parameters and its gradients -/
def OnlyModule {d : ℕ} (args : Module d → DualizeArgs) : Prop :=
  ∀ M M', args M' = { args M with flat := (args M').flat, theta := (args M').theta, grads := (args M').grads }

/-- An optimizer about to update sees the gradient of the present robust loss and nothing else: `v` holds the parameters of a module `M` of the
shape of `M0` and a multiplier, and its gradients are those of the robust loss `D` of this module at this multiplier (in ERM mode iff `erm`), as
one backward pass gives them, on the samples `z` (drawn by the forward pass itself from a generator if `none`). -/
def SeesGradient {G O : Type} {d : ℕ} (T : Torch G O) (args : Module d → DualizeArgs) (D : DualLoss) (M0 : Module d) (z : Cache) (erm : Bool)
    (v : OptView O) : Prop :=
  ∃ (M : Module d) (gen : G), SameShape M0 M ∧ M.theta = v.params ∧
    T.backward ⟨{ D with primal := (args M).wloss.value, grads := (args M).grads, lam := v.lam, ermMode := erm }, gen, z⟩ = (v.pgrad, v.lgrad)

/-- A step with a closure that ends with `Q` of the parameters and multiplier: its last update establishes `Q`, provided it directly follows an
evaluation and then sees what `R` says.  (`fresh`: the last action was an evaluation; `held`: `Q` holds already.) -/
inductive StepEnds {O : Type} (R : OptView O → Prop) (Q : List ℝ → ℝ → Prop) : (fresh held : Bool) → StepProg O → Prop
  | done (fresh) : StepEnds R Q fresh true .done
  | fail (fresh held e) : StepEnds R Q fresh held (.fail e)
  | last (held f next) : (∀ v, R v → Q (f v).params (f v).lam) → (∀ v, R v → StepEnds R Q false true (next v)) →
      StepEnds R Q true held (.act f next)
  | act (fresh held f next) : (∀ v, StepEnds R Q false false (next v)) → StepEnds R Q fresh held (.act f next)
  | eval (fresh held next) : (∀ x, StepEnds R Q true held (next x)) → StepEnds R Q fresh held (.eval next)

/-! ### Training as a sequence of optimizer steps -/

/-- the robust loss `D` for the parameters and multiplier held by the optimizer (in ERM mode iff `erm`) -/
noncomputable def lossFor {O : Type} {d : ℕ} (args : Module d → DualizeArgs) (D : DualLoss) (M0 : Module d) (erm : Bool) (v : OptView O) : DualLoss :=
  { D with primal := (args (M0.withParams v.params)).wloss.value, grads := (args (M0.withParams v.params)).grads, lam := v.lam, ermMode := erm }

/-- the optimizer's variables with the gradients recorded in `t` -/
def withGrad {G O : Type} (T : Torch G O) (v : OptView O) (t : Tape G) : OptView O :=
  { v with pgrad := (T.backward t).1, lgrad := (T.backward t).2 }

/-- `optimizer.step(closure)` from `v` to `w`, each evaluation giving a value allowed by `val` and the gradient at the present variables -/
inductive StepRuns {G O : Type} (T : Torch G O) (val : OptView O → XNum ℝ → Prop) (tape : OptView O → Tape G) :
    StepProg O → OptView O → OptView O → Prop
  | done (v) : StepRuns T val tape .done v v
  | act (f next v w) : StepRuns T val tape (next v) (f v) w → StepRuns T val tape (.act f next) v w
  | eval (next v x w) : val v x → StepRuns T val tape (next x) (withGrad T v (tape v)) w → StepRuns T val tape (.eval next) v w

/-- `n` steps of a relation -/
inductive Iterated {α : Type} (R : α → α → Prop) : ℕ → α → α → Prop
  | zero (v) : Iterated R 0 v v
  | succ (n v w u) : R v w → Iterated R n w u → Iterated R (n + 1) v u

/-- iterations `k`, `k + 1`, ... of `n`, from `s` to `t`, until one of them says stop; `x` is the last loss. `Iter k s t x b`: iteration `k` leads
from `s` to `t`, with loss `x` and verdict `b`. -/
inductive Trained {σ : Type} (Iter : ℕ → σ → σ → XNum ℝ → Bool → Prop) (n : ℕ) : ℕ → σ → σ → XNum ℝ → Prop
  | last (k s t x b) : k < n → (b = true ∨ k + 1 = n) → Iter k s t x b → Trained Iter n k s t x
  | next (k s t u x y) : k + 1 < n → Iter k s t x false → Trained Iter n (k + 1) t u y → Trained Iter n k s u y

/-- the verdict `b` after the iteration `k` of `n`, with loss `x` and variables `v`: stop at NaN, otherwise ask the optimality condition, whose memory
`m` becomes `m'` -/
def Verdict {O : Type} (cfg : OCConfig) (n : ℤ) (k : ℕ) (x : XNum ℝ) (v : OptView O) (m m' : OCState) (b : Bool) : Prop :=
  if x = .nan then b = true ∧ m' = m else ocCall cfg m ⟨0, fun _ => v.lam, v.lgrad, [(v.params, v.pgrad)], n⟩ k = (.ok b, m')

/-- one step of the pre-sampled training: all evaluations are of the robust loss on the samples `Z`, at the present variables -/
def PreUpdate {G O : Type} {d : ℕ} (ext : TorchExt G) (T : Torch G O) (args : Module d → DualizeArgs) (D : DualLoss) (M0 : Module d) (gen : G)
    (Z : Tensor ℝ × Option (Tensor ℝ)) (erm : Bool) (v w : OptView O) : Prop :=
  StepRuns T (fun u x => ∃ q, computeDual ext (lossFor args D M0 erm u) (args M0).xi (args M0).xi_labels Z.1 Z.2 = .ok q ∧ q.item = .ok x)
    (fun u => ⟨lossFor args D M0 erm u, gen, some Z⟩) (T.prog v) v w

/-- one iteration of the pre-sampled training: a step, then the loss and (if the condition is on gradients) its gradient at the new variables, then the
verdict -/
def PreIter {G O : Type} {d : ℕ} (ext : TorchExt G) (T : Torch G O) (cfg : OCConfig) (n : ℤ) (args : Module d → DualizeArgs) (D : DualLoss)
    (M0 : Module d) (gen : G) (Z : Tensor ℝ × Option (Tensor ℝ)) (k : ℕ) (s t : OptView O × OCState) (x : XNum ℝ) (b : Bool) : Prop :=
  ∃ w q, PreUpdate ext T args D M0 gen Z false s.1 w ∧ q.item = .ok x ∧ Verdict cfg n k x t.1 s.2 t.2 b ∧
    if cfg.metric = "grad".toList then
      computeDual ext (lossFor args D M0 false w) (args M0).xi (args M0).xi_labels Z.1 Z.2 = .ok q ∧
        t.1 = withGrad T w ⟨lossFor args D M0 false w, gen, some Z⟩
    else
      computeDual ext { lossFor args D M0 false w with impSamp := false } (args M0).xi (args M0).xi_labels Z.1 Z.2 = .ok q ∧
        t.1 = { w with pgrad := none, lgrad := none }

/-- one step of the post-sampled training, on variables and generator: a forward pass of the robust loss of value `x`, which resets the sampler (so
that a sampler with a seed draws the same samples at each step, C126) and draws samples, then an optimizer step with its gradient -/
def PostUpdate {G O : Type} {d : ℕ} (ext : TorchExt G) (T : Torch G O) (args : Module d → DualizeArgs) (D : DualLoss) (M0 : Module d)
    (x : XNum ℝ) (a b : OptView O × G) : Prop :=
  ∃ q D', postForward ext (lossFor args D M0 false a.1) (args M0).xi (args M0).xi_labels true a.2 = .ok (q, D', b.2) ∧ q.item = .ok x ∧
    T.step (withGrad T a.1 ⟨lossFor args D M0 false a.1, D.seeded ext a.2, none⟩) = .ok b.1

/-- one iteration of the post-sampled training -/
def PostIter {G O : Type} {d : ℕ} (ext : TorchExt G) (T : Torch G O) (cfg : OCConfig) (n : ℤ) (args : Module d → DualizeArgs) (D : DualLoss)
    (M0 : Module d) (k : ℕ) (s t : (OptView O × G) × OCState) (x : XNum ℝ) (b : Bool) : Prop :=
  PostUpdate ext T args D M0 x s.1 t.1 ∧ Verdict cfg n k x t.1.1 s.2 t.2 b

/-- one step of training on the fixed samples `Z`, drawn with the generator in state `gen`: the robust loss on these samples has the value `x`, and the
optimizer steps with the gradient of a forward pass started in the state `gen` -/
def FixedUpdate {G O : Type} {d : ℕ} (ext : TorchExt G) (T : Torch G O) (args : Module d → DualizeArgs) (D : DualLoss) (M0 : Module d) (gen : G)
    (Z : Tensor ℝ × Option (Tensor ℝ)) (x : XNum ℝ) (v w : OptView O) : Prop :=
  ∃ q, computeDual ext (lossFor args D M0 false v) (args M0).xi (args M0).xi_labels Z.1 Z.2 = .ok q ∧ q.item = .ok x ∧
    T.step (withGrad T v ⟨lossFor args D M0 false v, gen, none⟩) = .ok w

/-- one iteration of training on the fixed samples `Z` -/
def FixedIter {G O : Type} {d : ℕ} (ext : TorchExt G) (T : Torch G O) (cfg : OCConfig) (n : ℤ) (args : Module d → DualizeArgs) (D : DualLoss)
    (M0 : Module d) (gen : G) (Z : Tensor ℝ × Option (Tensor ℝ)) (k : ℕ) (s t : OptView O × OCState) (x : XNum ℝ) (b : Bool) : Prop :=
  FixedUpdate ext T args D M0 gen Z x s.1 t.1 ∧ Verdict cfg n k x t.1 s.2 t.2 b

/-- the multiplier replaced by `get_initial_guess_at_dual` for the present module -/
def DualGuessed {O : Type} {d : ℕ} (args : Module d → DualizeArgs) (D : DualLoss) (M0 : Module d) (v w : OptView O) : Prop :=
  ∃ D', initialGuess (lossFor args D M0 false v) (args M0).xi (args M0).xi_labels = .ok D' ∧ w = { v with lam := D'.lam }

/-- `reset_lbd_state`, if the optimizer has one -/
def LbdReset {G O : Type} (T : Torch G O) (v w : OptView O) : Prop :=
  match T.resetLbd with
  | some f => f v = .ok w
  | none => w = v

/-- the number of parameters is kept by a step with a closure -/
inductive KeepsLength {O : Type} : StepProg O → Prop
  | done : KeepsLength .done
  | fail (e) : KeepsLength (.fail e)
  | act (f next) : (∀ v, (f v).params.length = v.params.length) → (∀ v, KeepsLength (next v)) → KeepsLength (.act f next)
  | eval (next) : (∀ x, KeepsLength (next x)) → KeepsLength (.eval next)

/-- assumption on torch: optimizers update the parameters in place -/
structure InPlace {G O : Type} (T : Torch G O) : Prop where
  prog : ∀ v, KeepsLength (T.prog v)
  step : ∀ v v', T.step v = .ok v' → v'.params.length = v.params.length
  reset : ∀ f, T.resetLbd = some f → ∀ v v', f v = .ok v' → v'.params.length = v.params.length

end Skwdro.Spec
