import Verif.Model.Estimators
import Verif.Model.InitialDual
import Verif.Model.OptCond

/-!
# Whole fits

`/repo/skwdro/wrap_problem.py:85-230` (`dualize_primal_loss`) followed by `/repo/skwdro/solvers/entropic_dual_torch.py:45-297`
(`solve_dual_wdro`), for the modules trained by the estimators: the loops of Model/Solve run on the forward passes of Model/Dual, the
samplers of Model/Samplers, the initial multiplier of Model/InitialDual and the optimality condition of Model/OptCond.

External: the torch optimizer and autograd (`Torch`).  Numbers of parameters, gradients and multiplier are finite reals.
-/

namespace Skwdro

/-- what a torch optimizer reads and writes: the parameters of the module (flattened), the multiplier, their gradients (`None` after
`zero_grad`), and its own state -/
structure OptView (O : Type) where
  params : List ℝ
  lam : ℝ
  pgrad : Option (List ℝ)
  lgrad : Option ℝ
  o : O

/-- `optimizer.step(closure)`: updates and evaluations of the closure, in any finite number, possibly raising -/
inductive StepProg (O : Type)
  | done
  | fail (e : PyErr)
  | act (f : OptView O → OptView O) (next : OptView O → StepProg O)
  | eval (next : XNum ℝ → StepProg O)

/-- what a backward pass differentiates: the loss evaluated (its flags, parameters and multiplier included), and either the samples it
was given or the generator it drew them from -/
structure Tape (G : Type) where
  loss : DualLoss
  gen : G
  zetas : Cache

/-- the state of torch's generator from which an evaluation with `reset_sampler=True` draws its samples: re-centring the sampler re-runs
its constructor, which seeds the generator if there is a seed (cost_samplers.py:40-46, 88-98, base_samplers.py:29-31) -/
def DualLoss.seeded {G : Type} (ext : TorchExt G) (D : DualLoss) (g : G) : G := seedGlobal ext (D.sampler.bind Sampler.seed) g

/-- torch's optimizer and autograd (external) -/
structure Torch (G O : Type) where
  /-- state of a fresh optimizer -/
  o0 : O
  /-- gradients added by `backward()` to those of the parameters and of the multiplier -/
  backward : Tape G → Option (List ℝ) × Option ℝ
  /-- `optimizer.step()` -/
  step : OptView O → Except PyErr (OptView O)
  /-- `optimizer.step(closure)` -/
  prog : OptView O → StepProg O
  /-- `optimizer.reset_lbd_state`, if it has one -/
  resetLbd : Option (OptView O → Except PyErr (OptView O))
  /-- `isinstance(optimizer, CompositeOptimizer)` -/
  composite : Bool

/-- the layer with other values in its parameters, in the order of `LinMap.params` -/
def LinMap.withParams {d K : ℕ} (l : LinMap d K) (v : List ℝ) : LinMap d K :=
  ⟨fun c k => v.getD (c.1 * d + k.1) 0, l.bias.map fun _ c => v.getD (K * d + c.1) 0⟩

/-- the module with other values in its parameters, in the order of `Module.theta` -/
def Module.withParams {d : ℕ} (M : Module d) (v : List ℝ) : Module d :=
  match M with
  | .softMargin l => .softMargin (l.withParams v)
  | .crossEnt l => .crossEnt (l.withParams v)
  | .mse l => .mse (l.withParams v)
  | .weber _ => .weber fun k => v.getD k.1 0
  | .portfolio p => .portfolio { p with tau := v.getD 0 0, raw := (List.range p.raw.length).map fun i => v.getD (i + 1) 0 }
  | .newsvendor k u _ => .newsvendor k u (v.getD 0 0)

/-- everything a fit changes: module, multiplier, gradients, optimizer, sampler, torch's global generator, the samples of the closure
(`zeta`, `zeta_labels` of `optim_presample`), the samples stored by the loss, the last recorded computation, and the memory of the
optimality condition -/
structure Box (d : ℕ) (G O : Type) where
  mod : Module d
  lam : ℝ
  pgrad : Option (List ℝ)
  lgrad : Option ℝ
  o : O
  sampler : Option Sampler
  gen : G
  zetas : Cache
  cache : Cache
  tape : Option (Tape G)
  oc : OCState

section
variable {d : ℕ} {G O : Type}

/-- the optimizer's view -/
noncomputable def Box.view (b : Box d G O) : OptView O := ⟨b.mod.theta, b.lam, b.pgrad, b.lgrad, b.o⟩

/-- writing the optimizer's view back: parameters keep their places in the module -/
def Box.put (b : Box d G O) (v : OptView O) : Box d G O :=
  { b with mod := b.mod.withParams v.params, lam := v.lam, pgrad := v.pgrad, lgrad := v.lgrad, o := v.o }

/-- an optimizer's interaction on a fit -/
noncomputable def StepProg.lift : StepProg O → OptProg (Box d G O)
  | .done => .done
  | .fail e => .fail e
  | .act f next => .act (fun b => b.put (f b.view)) (fun b => (next b.view).lift)
  | .eval next => .eval fun v => (next v).lift

/-- the dual loss in the present state: `base` is the object built by `dualize_primal_loss`, `args` its arguments as a function of the
module (the wrapped loss holds the module itself) -/
noncomputable def Box.dual (args : Module d → DualizeArgs) (base : DualLoss) (b : Box d G O) (erm imp : Bool) : DualLoss :=
  { base with primal := (args b.mod).wloss.value, grads := (args b.mod).grads, lam := b.lam, sampler := b.sampler, ermMode := erm,
              impSamp := imp }

/-- `objective.item()`: more or fewer than one element raise `RuntimeError` -/
def DualVal.item : DualVal → Except PyErr (XNum ℝ)
  | .nan => .ok .nan
  | .val t => match t.toList with
    | [x] => .ok (.fin x)
    | _ => .error .runtimeError

/-- gradients accumulate -/
def addGrad (old new : Option (List ℝ)) : Option (List ℝ) :=
  match old, new with
  | none, n => n
  | o, none => o
  | some a, some b => some (List.zipWith (· + ·) a b)

/-- the same for one number -/
def addGrad1 (old new : Option ℝ) : Option ℝ :=
  match old, new with
  | none, n => n
  | o, none => o
  | some a, some b => some (a + b)

/-- the fit seen by the loops of Model/Solve.  `xi`, `y` are the data extracted from the empirical distribution
(entropic_dual_torch.py:22-42); a post-sampled forward pass is `loss(xi, xi_labels)` (entropic_dual_torch.py:262, 282) with the
default `reset_sampler=True` (oracle_torch.py:252), so it first re-centres the sampler, which re-seeds torch's generator if it has a seed; `cfg` and `maxIter` are the optimality condition and `n_iter` as it reads it (the second number of a
pair).  The modules of the estimators do not depend on torch's `training` flag.  Simplification: a forward pass that raises leaves the
generator where it was. -/
noncomputable def fitEnv (ext : TorchExt G) (T : Torch G O) (args : Module d → DualizeArgs) (base : DualLoss) (xi : Tensor ℝ)
    (y : Option (Tensor ℝ)) (post : Bool) (cfg : OCConfig) (maxIter : ℤ) : Env (Box d G O) where
  zeroGrad b := { b with pgrad := none, lgrad := none }
  forward erm imp _ b :=
    let D := b.dual args base erm imp
    if post then
      match postForward ext D xi y true b.gen with
      | .error e => (.error e, b)
      | .ok (v, D', g) => (v.item, { b with sampler := D'.sampler, gen := g, tape := some ⟨D, D.seeded ext b.gen, none⟩ })
    else match b.zetas with
      | none => (.error .runtimeError, b)
      | some (z, zl) =>
        match preForward ext D b.cache xi y (some z) zl with
        | (c, .error e) => (.error e, { b with cache := c })
        | (c, .ok v) => (v.item, { b with cache := c, tape := some ⟨D, b.gen, some (z, zl)⟩ })
  backward b :=
    match b.tape with
    | none => (.error .runtimeError, b)
    | some t => (.ok (), { b with pgrad := addGrad b.pgrad (T.backward t).1, lgrad := addGrad1 b.lgrad (T.backward t).2, tape := none })
  prog b := (T.prog b.view).lift
  step b :=
    match T.step b.view with
    | .error e => (.error e, b)
    | .ok v => (.ok (), b.put v)
  propagate _ b := b
  genZetas b :=
    match b.sampler with
    | none => (.error .valueError, b)
    | some s =>
      let r := s.sample ext base.nSamples b.gen
      (.ok (), { b with zetas := some (r.1, r.2.1), gen := r.2.2 })
  initDual b :=
    match initialGuess (b.dual args base false false) xi y with
    | .error e => (.error e, b)
    | .ok D => (.ok (), { b with lam := D.lam })
  resetLbd := T.resetLbd.map fun f b =>
    match f b.view with
    | .error e => (.error e, b)
    | .ok v => (.ok (), b.put v)
  composite := T.composite
  stop i b :=
    let r := ocCall cfg b.oc ⟨0, fun _ => b.lam, b.lgrad, [(b.mod.theta, b.pgrad)], maxIter⟩ i
    (r.1, { b with oc := r.2 })
  gradMetric := decide (cfg.metric = "grad".toList)

/-- the schedule in the form read by the loops -/
def toSteps : ℤ ⊕ (ℤ × ℤ) → Steps
  | .inl n => .one n
  | .inr (p, n) => .pair p n

/-- `loss.rho > 0.` -/
noncomputable def Radius.isPos : Radius → Bool
  | .num r => decide (0 < r)
  | .nan => false

/-- state after `dualize_primal_loss` -/
def freshBox (T : Torch G O) (M0 : Module d) (D : DualLoss) (g : G) (oc : OCState) : Box d G O where
  mod := M0
  lam := D.lam
  pgrad := none
  lgrad := none
  o := T.o0
  sampler := D.sampler
  gen := g
  zetas := none
  cache := none
  tape := none
  oc := oc

/-- what is read at the end, entropic_dual_torch.py:102-106 (`WrappedPrimalLoss.intercept` is the constant `0.`, wrapper.py:118-120) -/
noncomputable def fitReadout : Readout (Box d G O) (List ℝ) := ⟨fun b => b.mod.theta, fun _ => some [0], fun b => b.lam⟩

/-- state in which the loops start: `erm_mode` is off, torch's `training` flag is on -/
def startState (T : Torch G O) (M0 : Module d) (D : DualLoss) (g : G) (oc : OCState) : St (Box d G O) :=
  ⟨freshBox T M0 D g oc, false, D.impSamp, true, []⟩

/-- `dualize_primal_loss` then `solve_dual_wdro`, from a module, the arguments, a schedule, the optimality condition with its memory and
torch's generator; returns what is returned, and the final state (also after an exception) -/
noncomputable def solveRun (ext : TorchExt G) (T : Torch G O) (cfg : OCConfig) (fl : ℝ → ℝ) (args : Module d → DualizeArgs) (D : DualLoss)
    (M0 : Module d) (steps : ℤ ⊕ (ℤ × ℤ)) (oc : OCState) (g : G) : Except PyErr (Solved (List ℝ)) × St (Box d G O) :=
  let a := args M0
  solveDual (fitEnv ext T args D a.xi a.xi_labels a.post_sample cfg (toSteps steps).iterations) fitReadout (!a.post_sample) a.rho.isPos fl
    (toSteps steps) (startState T M0 D g oc)

/-- the same, with the construction of the loss, keeping the trained module and the result -/
noncomputable def solveTorch (ext : TorchExt G) (T : Torch G O) (cfg : OCConfig) (fl : ℝ → ℝ) (args : Module d → DualizeArgs)
    (M0 : Module d) (steps : ℤ ⊕ (ℤ × ℤ)) (oc : OCState) (g : G) : Except PyErr (Module d × Solved (List ℝ)) := do
  let (D, g) ← dualize ext (args M0) g
  match solveRun ext T cfg fl args D M0 steps oc g with
  | (.ok r, s) => .ok (s.w.mod, r)
  | (.error e, _) => .error e

/-- the training procedure of the estimators (`Trainer` in Model/Estimators) -/
noncomputable def realTrainer (ext : TorchExt G) (T : Torch G O) (cfg : OCConfig) (fl : ℝ → ℝ) (oc : OCState) (g : G) : Trainer d :=
  fun args M0 steps => (solveTorch ext T cfg fl args M0 steps oc g).map Prod.fst

/-- `LinearRegression.fit` in a process whose torch generator is in state `g`: `nn.Linear(d, 1)` (_linear_regression.py:184) draws its
weights from the generator when the arguments of `dualize_primal_loss` are evaluated, before the sampler built there seeds it
(base_samplers.py:29-31) -/
noncomputable def linregProcess {n : ℕ} (ext : TorchExt G) (T : Torch G O) (cfg : OCConfig) (fl : ℝ → ℝ) (oc : OCState) (grads : Autograd d)
    (solve : Oracle) (draw : G → LinInit d × G) (P : EstParams) (X : Fin n → Fin d → ℝ) (y : Fin n → ℝ) (g : G) : Except PyErr (Fitted d) :=
  linregFit ext grads solve (realTrainer ext T cfg fl oc (draw g).2) (draw g).1 P X y (draw g).2

/-- `Weber.fit` likewise: the position starts at the origin (weber.py:10), nothing is drawn -/
noncomputable def weberProcess {n : ℕ} (ext : TorchExt G) (T : Torch G O) (cfg : OCConfig) (fl : ℝ → ℝ) (oc : OCState) (grads : Autograd d)
    (P : EstParams) (X : Fin n → Fin d → ℝ) (w : Fin n → ℝ) (g : G) : Except PyErr (Fitted d) :=
  weberFit ext grads (realTrainer ext T cfg fl oc g) (fun _ => 0) P X w g

end

end Skwdro
