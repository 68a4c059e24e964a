import Verif.Model.Fit

/-!
# Sessions: estimators and optimality conditions as objects

What a program using the estimators does to them: `__init__`, `get_params`, `set_params`, `clone` and `fit` of
`/repo/skwdro/linear_models/{_logistic_regression,_linear_regression}.py` and
`/repo/skwdro/operations_research/{_newsvendor,_portfolio,_weber}.py`, with the conditions of `/repo/skwdro/solvers/optim_cond.py` they refer to.
Conditions are mutable objects, possibly shared: a default argument is one object per class, created when the class is.

External: scikit-learn's `BaseEstimator` and `clone`, python's `deepcopy`.  `learning_rate` (see Model/Optimizers) and the arguments `C`, `d`,
`reparam` of `Portfolio` are left out.
-/

namespace Skwdro

/-- a value given for `rho`: a number, or something `<` does not compare to zero, which `float` may read (`'0.5'`) or not (`'a'`, `None`) -/
inductive RhoArg
  | int (n : ℤ)
  | float (r : Radius)
  | text (value : Option Radius)

/-- `float(rho)`; every exception becomes `TypeError`, _logistic_regression.py:159-169, _linear_regression.py:145-151, _newsvendor.py:131-137,
_portfolio.py:155-159, _weber.py:111-115 -/
def RhoArg.toFloat : RhoArg → Except PyErr Radius
  | .int n => .ok (.num n)
  | .float r => .ok r
  | .text (some r) => .ok r
  | .text none => .error .typeError

/-- the radius read by the comparisons of the constructors; a text is not comparable to a number -/
def RhoArg.compared : RhoArg → Except PyErr Radius
  | .int n => .ok (.num n)
  | .float r => .ok r
  | .text _ => .error .typeError

/-- arguments of an estimator other than `opt_cond`.  The field `rho` of `rest` is not used. -/
structure EstArgs where
  rho : RhoArg
  rest : EstParams

/-- the arguments with a radius as a number -/
def EstArgs.withRadius (A : EstArgs) (r : Radius) : EstParams := { A.rest with rho := r }

/-- a condition: how it was built, and its memory (`max_iter` is overwritten at each call) -/
structure CondObj where
  cfg : OCConfig
  mem : OCState

/-- an estimator: its class, its arguments, and the condition it refers to (`None` or the place of an object) -/
structure EstObj where
  kind : EstKind
  args : EstArgs
  cond : Option ℕ

/-- all objects, and torch's generator -/
structure Session (G : Type) where
  conds : List CondObj
  ests : List EstObj
  gen : G

/-- `OptCondTorch(2)`, optim_cond.py:81-119 -/
noncomputable def stdCond : OCConfig := ⟨.fin 2, 1 / 10 ^ 8, 1 / 10 ^ 8, "theta".toList, "rel".toList, "grad".toList⟩

/-- `LogisticRegression.DEFAULT_OCOND = OptCondTorch(2, 1e-4, 0.)`, _logistic_regression.py:97 -/
noncomputable def logisticCond : OCConfig := { stdCond with tolTheta := 1 / 10 ^ 4, tolLambda := 0 }

/-- place of the default condition of a class -/
def EstKind.condRef : EstKind → ℕ
  | .logistic => 0
  | .linreg => 1
  | .weber => 2
  | .portfolio => 3
  | .newsvendor => 4

/-- after `import skwdro`: _logistic_regression.py:97,111, _linear_regression.py:105, _weber.py:72, _portfolio.py:99-101, _newsvendor.py:90 -/
noncomputable def Session.start {G : Type} (g : G) : Session G := ⟨⟨logisticCond, freshOC⟩ :: List.replicate 4 ⟨stdCond, freshOC⟩, [], g⟩

/-- one keyword of `set_params`, with its value -/
inductive Setting
  | rho (v : RhoArg)
  | cost (v : PyStr)
  | solver (v : PyStr)
  | l2_reg (v : ℝ)
  | fit_intercept (v : Bool)
  | solver_reg (v : Option ℝ)
  | sampler_reg (v : Option ℝ)
  | n_zeta_samples (v : ℤ)
  | random_state (v : ℤ)
  | n_iter (v : Option (ℤ ⊕ (ℤ × ℤ)))
  | k (v : ℝ)
  | u (v : ℝ)
  | kappa (v : ℝ)
  | eta (v : ℝ)
  | alpha (v : ℝ)
  | opt_cond (v : Option ℕ)

/-- whether the constructor has this argument: _logistic_regression.py:99-112, _linear_regression.py:93-106, _weber.py:59-73,
_portfolio.py:83-102, _newsvendor.py:77-91 -/
def Setting.known (e : EstKind) : Setting → Bool
  | .rho _ | .cost _ | .solver _ | .solver_reg _ | .n_zeta_samples _ | .random_state _ | .n_iter _ | .opt_cond _ => true
  | .l2_reg _ => e ≠ .portfolio
  | .fit_intercept _ => e = .logistic ∨ e = .linreg ∨ e = .portfolio
  | .sampler_reg _ => e = .logistic ∨ e = .linreg ∨ e = .weber
  | .k _ | .u _ => e = .newsvendor
  | .kappa _ => e = .weber
  | .eta _ | .alpha _ => e = .portfolio

/-- `setattr` -/
def Setting.apply (v : Setting) (e : EstObj) : EstObj :=
  match v with
  | .rho v => { e with args := { e.args with rho := v } }
  | .cost v => { e with args := { e.args with rest := { e.args.rest with cost := v } } }
  | .solver v => { e with args := { e.args with rest := { e.args.rest with solver := v } } }
  | .l2_reg v => { e with args := { e.args with rest := { e.args.rest with l2_reg := v } } }
  | .fit_intercept v => { e with args := { e.args with rest := { e.args.rest with fit_intercept := v } } }
  | .solver_reg v => { e with args := { e.args with rest := { e.args.rest with solver_reg := v } } }
  | .sampler_reg v => { e with args := { e.args with rest := { e.args.rest with sampler_reg := v } } }
  | .n_zeta_samples v => { e with args := { e.args with rest := { e.args.rest with n_zeta_samples := v } } }
  | .random_state v => { e with args := { e.args with rest := { e.args.rest with random_state := v } } }
  | .n_iter v => { e with args := { e.args with rest := { e.args.rest with n_iter := v } } }
  | .k v => { e with args := { e.args with rest := { e.args.rest with k := v } } }
  | .u v => { e with args := { e.args with rest := { e.args.rest with u := v } } }
  | .kappa v => { e with args := { e.args with rest := { e.args.rest with kappa := v } } }
  | .eta v => { e with args := { e.args with rest := { e.args.rest with eta := v } } }
  | .alpha v => { e with args := { e.args with rest := { e.args.rest with alpha := v } } }
  | .opt_cond v => { e with cond := v }

/-- `BaseEstimator.set_params` (external): keywords in order; an unknown one raises `ValueError`, the previous ones being set -/
def setAll : List Setting → EstObj → Except PyErr Unit × EstObj
  | [], e => (.ok (), e)
  | v :: vs, e => if v.known e.kind then setAll vs (v.apply e) else (.error .valueError, e)

/-- the constructors on arguments of any type: the checks of `construct` -/
noncomputable def constructArgs (e : EstKind) (A : EstArgs) : Except PyErr Unit := do
  let r ← A.rho.compared
  let _ ← construct e (A.withRadius r)
  .ok ()

/-- `deepcopy` of a condition (external: torch copies only leaves of the graph; `t_0`, `t_mem`, `delta_t_1`, `delta_l_1` are results of
computations on parameters requiring gradients, optim_cond.py:261,266-269,278,341, and raise `RuntimeError`; the gradients and the multiplier
are leaves) -/
def CondObj.copy (c : CondObj) : Except PyErr CondObj :=
  if c.mem.t.t0.isSome || c.mem.t.tMem.isSome || c.mem.t.deltaT1.isSome || c.mem.l.deltaL1.isSome then .error .runtimeError else .ok c

/-- the five `fit`s, from the type check of the radius on.  `valid`: validation of the data, before it.  `torch`: whether training with
torch is reached, or the exception raised before.  `run`: outcome of the rest, memory of the condition and generator afterwards. -/
structure Fits (G Data Res : Type) where
  valid : EstKind → Data → Except PyErr Unit
  torch : EstKind → EstParams → Data → Except PyErr Bool
  run : EstKind → EstParams → CondObj → Data → G → Except PyErr Res × OCState × G

/-- operations of a program.  In `construct`, `none` stands for the default of `opt_cond`.  `use` is any other use of a condition, changing
its memory. -/
inductive Op (Data : Type)
  | newCond (cfg : OCConfig)
  | construct (e : EstKind) (A : EstArgs) (c : Option (Option ℕ))
  | setParams (a : ℕ) (vs : List Setting)
  | clone (a : ℕ)
  | fit (a : ℕ) (D : Data)
  | use (c : ℕ) (m : OCState)

/-- what an operation returns -/
inductive Out (Res : Type)
  | unit
  | cond (c : ℕ)
  | est (a : ℕ)
  | fitted (r : Res)

section
variable {G Data Res : Type}

def Session.putEst (s : Session G) (a : ℕ) (e : EstObj) : Session G := { s with ests := s.ests.set a e }
def Session.addEst (s : Session G) (e : EstObj) : Session G := { s with ests := s.ests ++ [e] }
def Session.addCond (s : Session G) (c : CondObj) : Session G := { s with conds := s.conds ++ [c] }

/-- a reference to a condition that exists -/
def Session.hasCond (s : Session G) : Option ℕ → Bool
  | none => true
  | some c => decide (c < s.conds.length)

/-- a value of `set_params` that exists -/
def Session.hasValue (s : Session G) : Setting → Bool
  | .opt_cond c => s.hasCond c
  | _ => true

/-- `fit` on estimator number `a`, now `e` with its radius converted to `r`: _logistic_regression.py:159-346,
_linear_regression.py:145-223, _newsvendor.py:131-199, _portfolio.py:155-257, _weber.py:111-167 -/
noncomputable def fitConverted (F : Fits G Data Res) (s : Session G) (a : ℕ) (e : EstObj) (r : Radius) (D : Data) :
    Except PyErr (Out Res) × Session G :=
  let e := { e with args := { e.args with rho := .float r } }
  match F.torch e.kind (e.args.withRadius r) D with
  | .error x => (.error x, s.putEst a e)
  | .ok false =>
    let o := F.run e.kind (e.args.withRadius r) ⟨stdCond, freshOC⟩ D s.gen
    (o.1.map .fitted, { s.putEst a e with gen := o.2.2 })
  | .ok true =>
    let c := e.cond.getD s.conds.length
    let s := if e.cond.isNone then s.addCond ⟨stdCond, freshOC⟩ else s
    match s.conds[c]? with
    | none => (.error .attributeError, s)
    | some co =>
      let o := F.run e.kind (e.args.withRadius r) co D s.gen
      (o.1.map .fitted, { s.putEst a { e with cond := some c } with conds := s.conds.set c ⟨co.cfg, o.2.1⟩, gen := o.2.2 })

/-- one operation.  Those on objects that do not exist cannot be written; they are given no effect. -/
noncomputable def sessionStep (F : Fits G Data Res) (s : Session G) : Op Data → Except PyErr (Out Res) × Session G
  | .newCond cfg => (.ok (.cond s.conds.length), s.addCond ⟨cfg, freshOC⟩)
  | .construct e A c =>
    let c := c.getD (some e.condRef)
    if s.hasCond c then
      match constructArgs e A with
      | .error x => (.error x, s)
      | .ok () => (.ok (.est s.ests.length), s.addEst ⟨e, A, c⟩)
    else (.error .attributeError, s)
  | .setParams a vs =>
    match s.ests[a]? with
    | none => (.error .attributeError, s)
    | some e =>
      if vs.all s.hasValue then
        ((setAll vs e).1.map fun _ => .est a, s.putEst a (setAll vs e).2)
      else (.error .attributeError, s)
  | .clone a =>
    match s.ests[a]? with
    | none => (.error .attributeError, s)
    | some e =>
      match e.cond with
      | none =>
        match constructArgs e.kind e.args with
        | .error x => (.error x, s)
        | .ok () => (.ok (.est s.ests.length), s.addEst e)
      | some c =>
        match s.conds[c]? with
        | none => (.error .attributeError, s)
        | some co =>
          match co.copy with
          | .error x => (.error x, s)
          | .ok co =>
            match constructArgs e.kind e.args with
            | .error x => (.error x, s)
            | .ok () => (.ok (.est s.ests.length), (s.addCond co).addEst { e with cond := some s.conds.length })
  | .fit a D =>
    match s.ests[a]? with
    | none => (.error .attributeError, s)
    | some e =>
      match F.valid e.kind D with
      | .error x => (.error x, s)
      | .ok () =>
        match e.args.rho.toFloat with
        | .error x => (.error x, s)
        | .ok r => fitConverted F s a e r D
  | .use c m =>
    match s.conds[c]? with
    | none => (.error .attributeError, s)
    | some co => (.ok .unit, { s with conds := s.conds.set c ⟨co.cfg, m⟩ })

/-- a program -/
noncomputable def sessionRun (F : Fits G Data Res) (s : Session G) : List (Op Data) → Session G
  | [] => s
  | o :: os => sessionRun F (sessionStep F s o).2 os

end

/-! ## The five fits -/

/-- data given to `fit` (numeric labels) -/
structure FitData where
  n : ℕ
  d : ℕ
  X : Fin n → Fin d → ℝ
  y : Fin n → ℝ

/-- a fitted estimator -/
inductive AnyFit
  | plain {d : ℕ} (f : Fitted d)
  | log {d : ℕ} (f : LogFitted ℝ d)

/-- fresh modules drawn from torch's generator (external): `nn.Linear(d, K, bias)`, the order of `CustomNewsvendorLoss`, the module of
`SimplePortfolio` -/
structure Draws (G : Type) where
  lin : (d K : ℕ) → Bool → G → LinMap d K × G
  order : G → ℝ × G
  portfolio : ℕ → G → Portfolio × G

/-- what `fit` trains with torch -/
structure TorchJob where
  d : ℕ
  args : Module d → DualizeArgs
  M0 : Module d
  steps : ℤ ⊕ (ℤ × ℤ)

/-- exceptions raised after the type check of the radius and before training, or the solver chosen -/
noncomputable def fitRoute (e : EstKind) (P : EstParams) (D : FitData) : Except PyErr Route :=
  match e with
  | .weber => route .weber P.solver
  | .logistic =>
    if (npUnique D.y).length < 2 then .error .valueError
    else do
      let _ ← cost_from_str P.cost
      match ← route .logistic P.solver with
      | .dedicated => if 2 < (npUnique D.y).length then .error .notImplemented else .ok .dedicated
      | .torch post => .ok (.torch post)
  | .portfolio => do
    regAsFloat P
    let _ ← cost_from_str P.cost
    route .portfolio P.solver
  | e => do
    let _ ← cost_from_str P.cost
    route e P.solver

section
variable {G O : Type}

/-- what is trained, and the generator after the module was drawn -/
noncomputable def torchJob (grads : (d : ℕ) → Autograd d) (draws : Draws G) (e : EstKind) (P : EstParams) (D : FitData) (post : Bool) (g : G) :
    TorchJob × G :=
  match e with
  | .logistic =>
    if (npUnique D.y).length = 2 then
      (⟨D.d, torchArgs (grads D.d) .logistic P post false (matT D.X) (some (matT fun i (_ : Fin 1) => encodeBinary (npUnique D.y) (D.y i))),
        .softMargin (draws.lin D.d 1 P.fit_intercept g).1, trainSteps .logistic P post⟩, (draws.lin D.d 1 P.fit_intercept g).2)
    else
      (⟨D.d, torchArgs (grads D.d) .logistic P post true (matT D.X) (some (matT fun i => encodeOneHot (npUnique D.y) (D.y i))),
        .crossEnt (draws.lin D.d (npUnique D.y).length P.fit_intercept g).1, trainSteps .logistic P post⟩,
        (draws.lin D.d (npUnique D.y).length P.fit_intercept g).2)
  | .linreg =>
    (⟨D.d, torchArgs (grads D.d) .linreg P post false (matT D.X) (some (matT fun i (_ : Fin 1) => D.y i)), .mse (draws.lin D.d 1 true g).1,
      trainSteps .linreg P post⟩, (draws.lin D.d 1 true g).2)
  | .weber =>
    (⟨D.d, torchArgs (grads D.d) .weber P post false (matT D.X) (some (matT fun i (_ : Fin 1) => D.y i)), .weber fun _ => 0,
      trainSteps .weber P post⟩, g)
  | .portfolio =>
    (⟨D.d, torchArgs (grads D.d) .portfolio P post false (matT D.X) none,
      .portfolio { (draws.portfolio D.d g).1 with eta := P.eta, alpha := P.alpha }, trainSteps .portfolio P post⟩, (draws.portfolio D.d g).2)
  | .newsvendor =>
    (⟨1, torchArgs (grads 1) .newsvendor P post false (matT fun i (_ : Fin 1) => rowMeans D.X i) none,
      .newsvendor P.k P.u (draws.order g).1, trainSteps .newsvendor P post⟩, (draws.order g).2)

/-- memory of the condition and generator after training, also when it raises (simplifications: a refused construction of the loss leaves
the generator where it was; multipliers of earlier fits that the memory refers to are read as the present one, which matters only for a
condition on the motion of `lambda` used by several fits) -/
noncomputable def TorchJob.after (ext : TorchExt G) (T : Torch G O) (fl : ℝ → ℝ) (J : TorchJob) (co : CondObj) (g : G) : OCState × G :=
  match dualize ext (J.args J.M0) g with
  | .error _ => (co.mem, g)
  | .ok (L, g) =>
    let s := (solveRun ext T co.cfg fl J.args L J.M0 J.steps co.mem g).2
    (s.w.oc, s.w.gen)

/-- the outcome of `fit` with the drawn modules; `Portfolio` without constraints -/
noncomputable def estFit (ext : TorchExt G) (T : Torch G O) (fl : ℝ → ℝ) (grads : (d : ℕ) → Autograd d) (solve : Oracle) (draws : Draws G)
    (e : EstKind) (P : EstParams) (co : CondObj) (D : FitData) (g : G) : Except PyErr AnyFit :=
  match e with
  | .logistic =>
    let g' := (draws.lin D.d (if (npUnique D.y).length = 2 then 1 else (npUnique D.y).length) P.fit_intercept g).2
    (logisticFit ext (grads D.d) solve (realTrainer ext T co.cfg fl co.mem g') (fun K b => (draws.lin D.d K b g).1) P D.X D.y g').map .log
  | .linreg =>
    let g' := (draws.lin D.d 1 true g).2
    (linregFit ext (grads D.d) solve (realTrainer ext T co.cfg fl co.mem g') (fun K b => (draws.lin D.d K b g).1) P D.X D.y g').map .plain
  | .weber => (weberFit ext (grads D.d) (realTrainer ext T co.cfg fl co.mem g) (fun _ => 0) P D.X D.y g).map .plain
  | .portfolio =>
    let g' := (draws.portfolio D.d g).2
    (portfolioFit ext (grads D.d) solve (realTrainer ext T co.cfg fl co.mem g') (draws.portfolio D.d g).1 P (zeroC D.d) zeroD D.X g').map .plain
  | .newsvendor =>
    let g' := (draws.order g).2
    (newsvendorFit ext (grads 1) solve (realTrainer ext T co.cfg fl co.mem g') (draws.order g).1 P D.X g').map .plain

/-- the fits of the model -/
noncomputable def realFits (ext : TorchExt G) (T : Torch G O) (fl : ℝ → ℝ) (grads : (d : ℕ) → Autograd d) (solve : Oracle) (draws : Draws G) :
    Fits G FitData AnyFit where
  valid _ D := if D.n = 0 ∨ D.d = 0 then .error .valueError else .ok ()
  torch e P D := (fitRoute e P D).map fun r => match r with | .dedicated => false | .torch _ => true
  run e P co D g :=
    (estFit ext T fl grads solve draws e P co D g,
      match fitRoute e P D with
      | .ok (.torch post) => (torchJob grads draws e P D post g).1.after ext T fl co (torchJob grads draws e P D post g).2
      | _ => (co.mem, g))

end

end Skwdro
