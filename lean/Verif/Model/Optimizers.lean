import Verif.Model.Basic
import Mathlib.Data.Real.Basic
import Mathlib.Analysis.SpecialFunctions.Log.Basic
import Mathlib.Analysis.SpecialFunctions.Trigonometric.Basic

/-!
# Optimizers

`CompositeOptimizer` of `/repo/skwdro/solvers/oracle_torch.py:17-97`, the optimizers chosen by the two dual losses
(oracle_torch.py:191-204 and 430-438), and `/repo/skwdro/solvers/hybrid_opt.py`.

The inner torch/third-party optimizers are parameters: arbitrary functions of the parameters, their gradients and an internal
state.
-/

namespace Skwdro

/-! ## CompositeOptimizer -/

/-- an inner optimizer on a vector of numbers: `S` is its state dictionary, learning rate included (simplifications: a state
dictionary is a value, as when it is serialised or deep-copied, whereas torch hands out references; loading one restores the
state exactly, torch's contract) -/
structure InnerOpt (S : Type) where
  /-- `opt.step()`: parameters, gradients, state ↦ parameters, state -/
  step : List ℝ → List ℝ → S → List ℝ × S
  /-- `opt.param_groups[0]['lr']` -/
  lr : S → ℝ
  /-- `opt.param_groups[0]['lr'] = x` -/
  setLr : ℝ → S → S

/-- torch's `CosineAnnealingLR(opt, T_max)`, `eta_min = 0` (external): the schedule is an object of its own, beside the optimizer -/
structure Cosine where
  tMax : ℤ
  /-- learning rate of the optimizer when the scheduler was created -/
  base : ℝ
  /-- `last_epoch`, the number of steps made -/
  last : ℕ

/-- `CosineAnnealingLR.get_lr()`, torch's recursion on the current learning rate (external); for `T_max = 0` the test
`(last_epoch - 1 - T_max) % (2 * T_max) == 0` divides by zero -/
noncomputable def Cosine.rate (c : Cosine) (lr : ℝ) : Except PyErr ℝ :=
  if c.last = 0 then .ok lr
  else if c.tMax = 0 then .error .zeroDivision
  else if 2 * c.tMax ∣ (c.last : ℤ) - 1 - c.tMax then .ok (lr + c.base * (1 - Real.cos (Real.pi / c.tMax)) / 2)
  else .ok ((1 + Real.cos (Real.pi * c.last / c.tMax)) / (1 + Real.cos (Real.pi * ((c.last : ℝ) - 1) / c.tMax)) * lr)

/-- `scheduler.step()`: the counter advances, then the learning rate of the optimizer is replaced -/
noncomputable def schedStep {S : Type} (o : InnerOpt S) : Option Cosine → S → Except PyErr Unit × Option Cosine × S
  | none, s => (.ok (), none, s)
  | some c, s =>
    let c := { c with last := c.last + 1 }
    match c.rate (o.lr s) with
    | .ok lr => (.ok (), some c, o.setLr lr s)
    | .error e => (.error e, some c, s)

/-- state of a composite optimizer and of what it optimises -/
structure Composite (S : Type) where
  params : List ℝ
  lam : ℝ
  sParams : S
  sLam : S
  /-- `init_state_lbd`, oracle_torch.py:54 -/
  initLam : S
  /-- `schedulers['params']`, `schedulers['lbd']`, lines 43-52 -/
  cParams : Option Cosine
  cLam : Option Cosine

/-- constructor, oracle_torch.py:18-55: fresh inner optimizers; the initial state of the one of the multiplier is kept.  `T` holds the
numbers of pre-training and training iterations for `"prodigy"`, which gets schedulers (lines 43-50), and is `none` for
`"mechanic"`. -/
def Composite.init {S : Type} (o : InnerOpt S) (T : Option (ℤ × ℤ)) (params : List ℝ) (lam : ℝ) (s0p s0l : S) : Composite S :=
  { params := params, lam := lam, sParams := s0p, sLam := s0l, initLam := s0l
    cParams := T.map fun t => ⟨t.1 + t.2, o.lr s0p, 0⟩
    cLam := T.map fun t => ⟨t.2, o.lr s0l, 0⟩ }

/-- `step(closure)`, oracle_torch.py:73-81: both inner optimizers step, then both schedulers (if any), then
`lbd.clamp_(0., None)`, which an exception of a scheduler prevents.  `gp`, `gl` are the gradients currently held. -/
noncomputable def Composite.step {S : Type} (o : InnerOpt S) (gp : List ℝ) (gl : ℝ) (c : Composite S) :
    Except PyErr Unit × Composite S :=
  let (p, sp) := o.step c.params gp c.sParams
  let (l, sl) := o.step [c.lam] [gl] c.sLam
  let c := { c with params := p, lam := l.headD 0, sParams := sp, sLam := sl }
  match schedStep o c.cParams c.sParams with
  | (.error e, k, s) => (.error e, { c with cParams := k, sParams := s })
  | (.ok _, k, s) =>
    let c := { c with cParams := k, sParams := s }
    match schedStep o c.cLam c.sLam with
    | (.error e, k, s) => (.error e, { c with cLam := k, sLam := s })
    | (.ok _, k, s) => (.ok (), { c with cLam := k, sLam := s, lam := max 0 c.lam })

/-- `state_dict()`, oracle_torch.py:89-90: the schedulers are left out -/
def Composite.stateDict {S : Type} (c : Composite S) : S × S := (c.sParams, c.sLam)

/-- `load_state_dict(state_dict)`, oracle_torch.py:92-94 -/
def Composite.load {S : Type} (d : S × S) (c : Composite S) : Composite S := { c with sParams := d.1, sLam := d.2 }

/-- `reset_lbd_state()`, oracle_torch.py:96-97 -/
def Composite.resetLam {S : Type} (c : Composite S) : Composite S := { c with sLam := c.initLam }

/-- operations on a composite optimizer -/
inductive CompositeOp (S : Type)
  | step (gp : List ℝ) (gl : ℝ)
  | load (d : S × S)
  | reset

/-- one operation -/
noncomputable def CompositeOp.run {S : Type} (o : InnerOpt S) (c : Composite S) : CompositeOp S → Except PyErr Unit × Composite S
  | .step gp gl => c.step o gp gl
  | .load d => (.ok (), c.load d)
  | .reset => (.ok (), c.resetLam)

/-- a sequence of operations, up to the first exception -/
noncomputable def CompositeOp.runAll {S : Type} (o : InnerOpt S) : List (CompositeOp S) → Composite S → Except PyErr Unit × Composite S
  | [], c => (.ok (), c)
  | op :: ops, c =>
    match op.run o c with
    | (.ok _, c) => CompositeOp.runAll o ops c
    | (.error e, c) => (.error e, c)

/-- A python iterable handed to the constructor: a list can be read again, a generator (`module.parameters()`) is empty once
consumed. -/
inductive PyIter (α : Type)
  | list (l : List α)
  | generator (l : List α)

/-- first reading: the elements, and what is left -/
def PyIter.consume {α : Type} : PyIter α → List α × PyIter α
  | .list l => (l, .list l)
  | .generator l => (l, .generator [])

/-- Parameters known to: the inner optimizer of the parameters, that of the multiplier, and the composite optimizer itself
(`super().__init__(chain(params, [lbd]), {})`, line 54, which reads `params` after `make_optim(params)` did). -/
def Composite.groups {α : Type} (params : PyIter α) (lbd : α) : List α × List α × List α :=
  let (ps, rest) := params.consume
  (ps, [lbd], rest.consume.1 ++ [lbd])

/-! ## Optimizers of the two losses -/

/-- optimizer chosen by the constructors -/
inductive OptChoice
  | composite (name : PyStr)
  | adamw
  | lbfgs
deriving DecidableEq

/-- `DualPostSampledLoss.__init__`, oracle_torch.py:165-204: `adapt` is falsy when `None` or empty -/
def postOptimizer (adapt : Option PyStr) : Except PyErr OptChoice :=
  match adapt with
  | none => .ok .adamw
  | some a =>
    if a = [] then .ok .adamw
    else if a = "mechanic".toList ∨ a = "prodigy".toList then .ok (.composite a)
    else .error .assertionError

/-- `DualPreSampledLoss.__init__`, oracle_torch.py:417-438: `adapt` is discarded -/
def preOptimizer (_adapt : Option PyStr) : Except PyErr OptChoice := .ok .lbfgs

/-- does the optimizer project the multiplier on `[0, inf)` after a step? (`clamp_` only occurs in `CompositeOptimizer.step`) -/
def OptChoice.clamps : OptChoice → Bool
  | .composite _ => true
  | _ => false

/-- multiplier after one step of an optimizer whose own update yields `raw` -/
noncomputable def OptChoice.lamAfter (c : OptChoice) (raw : ℝ) : ℝ := if c.clamps then max 0 raw else raw

/-! ## Hybrid optimizers (hybrid_opt.py) -/

/-- keys of a parameter group that are rule names -/
inductive Rule
  | mwu | mwuSimplex | nonNeg | max | bound
deriving DecidableEq

/-- a parameter tensor: values and gradient (same length), `None` before the first backward pass that reaches it -/
structure HParam where
  val : List ℝ
  grad : Option (List ℝ)

/-- a group: its parameters and the rules among its keys (without repetition) -/
structure HGroup where
  rules : List Rule
  params : List HParam

/-- `PRERULES` has keys mwu, mwu_simplex, max, bound; lines 22-58 -/
def Rule.hasPre : Rule → Bool
  | .nonNeg => false
  | _ => true

/-- `POSTRULES` has keys mwu, mwu_simplex, non_neg, max; lines 29-54 -/
def Rule.hasPost : Rule → Bool
  | .bound => false
  | _ => true

/-- `BOUND = 10**2` -/
noncomputable def BOUND : ℝ := 100

/-- pre-rules, lines 22-26, 35-38, 51-58; clipping a gradient that is `None` is an `AttributeError` -/
noncomputable def Rule.pre (r : Rule) (p : HParam) : Except PyErr HParam :=
  match r with
  | .mwu | .mwuSimplex => by
    classical
    exact if ∀ x ∈ p.val, 0 < x then .ok { p with val := p.val.map Real.log } else .error .assertionError
  | .max => .ok { p with val := p.val.map (fun x => -x) }
  | .bound =>
    match p.grad with
    | none => .error .attributeError
    | some g => .ok { p with grad := some (g.map (fun g => Max.max (-BOUND) (Min.min BOUND g))) }
  | .nonNeg => .ok p

/-- post-rules, lines 29-32, 41-54 -/
noncomputable def Rule.post (r : Rule) (p : HParam) : HParam :=
  match r with
  | .mwu => { p with val := p.val.map Real.exp }
  | .mwuSimplex =>
    let e := p.val.map Real.exp
    { p with val := e.map (fun x => x / e.sum) }
  | .nonNeg => { p with val := p.val.map (fun x => Max.max 0 x) }
  | .max => { p with val := p.val.map (fun x => -x) }
  | .bound => p

/-- apply a rule in place to the tensors of a group, in order; on an exception the tensors already treated stay modified.
`rule` is the rule's effect on one tensor. -/
def applyToParams (rule : HParam → Except PyErr HParam) : List HParam → Except PyErr Unit × List HParam
  | [] => (.ok (), [])
  | p :: ps =>
    match rule p with
    | .error e => (.error e, p :: ps)
    | .ok p' =>
      let (r, ps') := applyToParams rule ps
      (r, p' :: ps')

/-- one group of `_apply_rules`, lines 66-73: `sel` says which keys belong to the rule table -/
def applyToGroup (sel : Rule → Bool) (rule : Rule → HParam → Except PyErr HParam) (g : HGroup) : Except PyErr Unit × HGroup :=
  match g.rules.filter sel with
  | [] => (.ok (), g)
  | [r] =>
    let (e, ps) := applyToParams (rule r) g.params
    (e, { g with params := ps })
  | _ => (.error .assertionError, g)

/-- `_apply_rules`, lines 65-73, over all groups in order -/
def applyRules (sel : Rule → Bool) (rule : Rule → HParam → Except PyErr HParam) : List HGroup → Except PyErr Unit × List HGroup
  | [] => (.ok (), [])
  | g :: gs =>
    match applyToGroup sel rule g with
    | (.error e, g') => (.error e, g' :: gs)
    | (.ok _, g') =>
      let (r, gs') := applyRules sel rule gs
      (r, g' :: gs')

/-- `HybridOpt.step`, lines 75-80; `inner` is `super().step(...)`, an arbitrary update of all parameters with the given groups
(keeping the group structure is up to it) -/
noncomputable def hybridStep (inner : List HGroup → Except PyErr Unit × List HGroup) (gs : List HGroup) :
    Except PyErr Unit × List HGroup :=
  match applyRules Rule.hasPre Rule.pre gs with
  | (.error e, gs) => (.error e, gs)
  | (.ok _, gs) =>
    match inner gs with
    | (.error e, gs) => (.error e, gs)
    | (.ok _, gs) => applyRules Rule.hasPost (fun r p => .ok (r.post p)) gs

/-- plain SGD, `torch.optim.SGD` without momentum nor weight decay: `p -= lr * grad`, skipping tensors without gradient (external) -/
noncomputable def sgd (lr : ℝ) (gs : List HGroup) : Except PyErr Unit × List HGroup :=
  (.ok (), gs.map fun g => { g with params := g.params.map fun p =>
    match p.grad with
    | none => p
    | some d => { p with val := List.zipWith (fun x d => x - lr * d) p.val d } })

/-- values of all tensors, by group -/
def hvals (gs : List HGroup) : List (List (List ℝ)) := gs.map fun g => g.params.map HParam.val

/-- a closure as torch's optimizers expect it: it erases the gradients, evaluates the loss at the values the tensors hold, and
runs a backward pass.  `f` maps the values of all tensors to the loss and its gradients. -/
def closureGrads (f : List (List (List ℝ)) → ℝ × List (List (Option (List ℝ)))) (gs : List HGroup) : List HGroup :=
  List.zipWith (fun g ds => { g with params := List.zipWith (fun p d => { p with grad := d }) g.params ds }) gs (f (hvals gs)).2

/-- `torch.optim.SGD.step(closure)` (external): the closure is called first, and its loss is returned -/
noncomputable def sgdClosure (lr : ℝ) (f : List (List (List ℝ)) → ℝ × List (List (Option (List ℝ)))) (gs : List HGroup) :
    Except PyErr (Option ℝ) × List HGroup :=
  ((sgd lr (closureGrads f gs)).1.map fun _ => some (f (hvals gs)).1, (sgd lr (closureGrads f gs)).2)

/-- `HybridSGD.step(closure)`, lines 75-80: the pre-rules come before `super().step(closure)`, whose result is dropped -/
noncomputable def hybridClosureStep (lr : ℝ) (f : List (List (List ℝ)) → ℝ × List (List (Option (List ℝ)))) (gs : List HGroup) :
    Except PyErr (Option ℝ) × List HGroup :=
  let r := hybridStep (fun gs => ((sgdClosure lr f gs).1.map fun _ => (), (sgdClosure lr f gs).2)) gs
  (r.1.map fun _ => none, r.2)

/-- A group as the user writes it, a dictionary with its parameters and rules: `_apply_rules` looks at the keys only, lines 67-71
(keys without repetition, in the order of the dictionary) -/
def HGroup.ofDict (d : List (Rule × Bool)) (params : List HParam) : HGroup := ⟨d.map Prod.fst, params⟩

end Skwdro

/-! ## First steps of the torch optimizers (external formulas, used to exhibit behaviours) -/

namespace Skwdro

/-- first step of `torch.optim.AdamW` without weight decay on one number: bias-corrected moments are `g` and `g^2` -/
noncomputable def adamwFirst (lr eps x g : ℝ) : ℝ := x - lr * (g / (Real.sqrt (g ^ 2) + eps))

/-- first step of `torch.optim.LBFGS` on one number, the gradient of all parameters having 1-norm `g1` -/
noncomputable def lbfgsFirst (lr g1 x g : ℝ) : ℝ := x - min 1 (1 / g1) * lr * g

end Skwdro
