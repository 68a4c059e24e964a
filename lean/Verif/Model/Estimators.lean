import Verif.Model.WrapProblem
import Verif.Model.Losses
import Verif.Model.SpecificSolvers
import Verif.Model.Solve
import Mathlib.Data.Finset.Sort

/-!
# Estimators

`/repo/skwdro/linear_models/{_logistic_regression,_linear_regression}.py` and
`/repo/skwdro/operations_research/{_newsvendor,_portfolio,_weber}.py`.

External: scikit-learn's input validation and label encoders, `nn.Linear`, numpy broadcasting, the convex solver, and the training of the
parameters (`Trainer`), whose loops are modelled in Model/Solve.
-/

namespace Skwdro

/-- python `needle in s` on strings -/
def pyIn (needle s : PyStr) : Bool := s.tails.any fun t => needle.isPrefixOf t

inductive EstKind
  | logistic | linreg | weber | portfolio | newsvendor
deriving DecidableEq

/-- constructor arguments (attributes an estimator does not have are ignored).  Infinite numbers are not modelled; the radius may be
NaN. -/
structure EstParams where
  rho : Radius
  cost : PyStr
  solver : PyStr
  l2_reg : ℝ := 0
  fit_intercept : Bool := true
  solver_reg : Option ℝ := none
  sampler_reg : Option ℝ := none
  n_zeta_samples : ℤ := 10
  random_state : ℤ := 0
  n_iter : Option (ℤ ⊕ (ℤ × ℤ)) := none
  /-- `NewsVendor` -/
  k : ℝ := 5
  u : ℝ := 7
  /-- `Weber` -/
  kappa : ℝ := 10
  /-- `Portfolio` -/
  eta : ℝ := 0
  alpha : ℝ := 95 / 100

/-- default arguments: _logistic_regression.py:99-112, _linear_regression.py:93-106, _weber.py:59-73, _portfolio.py:83-102,
_newsvendor.py:77-91 -/
noncomputable def EstKind.defaults : EstKind → EstParams
  | .logistic => { rho := .num (1 / 100), cost := "t-NLC-2-2".toList, solver := "entropic_torch".toList }
  | .linreg => { rho := .num (1 / 100), cost := "t-NLC-2-2".toList, solver := "entropic_torch".toList }
  | .weber => { rho := .num (1 / 10), cost := "t-NLC-2-2".toList, solver := "entropic_torch".toList,
                solver_reg := some (1 / 100), sampler_reg := some (1 / 100) }
  | .portfolio => { rho := .num (1 / 100), cost := "t-NC-1-1".toList, solver := "dedicated".toList, solver_reg := some (1 / 1000) }
  | .newsvendor => { rho := .num (1 / 100), cost := "t-NC-1-2".toList, solver := "entropic".toList, solver_reg := some (1 / 100) }

/-- `rho < 0` (false on NaN) -/
def Radius.neg : Radius → Prop
  | .num r => r < 0
  | .nan => False

open Classical in
/-- the checks of the constructors: _logistic_regression.py:114-121, _linear_regression.py:108-110, _weber.py:75-77,
_newsvendor.py:93-95, _portfolio.py:104-121 (where comparing `solver_reg=None` to zero is a `TypeError`) -/
noncomputable def construct : EstKind → EstParams → Except PyErr EstParams
  | .portfolio, P =>
      if P.rho.neg then .error .valueError
      else if P.eta < 0 then .error .valueError
      else if P.alpha ≤ 0 ∨ 1 < P.alpha then .error .valueError
      else match P.solver_reg with
        | none => .error .typeError
        | some r =>
          if r < 0 then .error .valueError
          else if P.n_zeta_samples < 0 then .error .valueError
          else .ok P
  | _, P => if P.rho.neg then .error .valueError else .ok P

/-- what `fit` runs -/
inductive Route
  | dedicated
  | torch (post : Bool)
deriving DecidableEq

/-- the tests on `self.solver` in `fit`, and the value given to `post_sample`: _logistic_regression.py:229-262,334;
_linear_regression.py:172-181,210-218; _weber.py:122-131,162; _portfolio.py:198-226,252; _newsvendor.py:149-164,182-194 -/
def route (e : EstKind) (solver : PyStr) : Except PyErr Route :=
  if solver = "entropic".toList then .error .deprecationWarning
  else match e with
    | .logistic =>
        if solver = "dedicated".toList then .ok .dedicated
        else if pyIn "torch".toList solver then
          .ok (.torch (decide (solver = "entropic_torch".toList) || decide (solver = "entropic_torch_post".toList)))
        else .error .notImplemented
    | .linreg =>
        if pyIn "torch".toList solver then
          .ok (.torch (decide (solver = "entropic_torch".toList) || decide (solver = "entropic_torch_post".toList)))
        else if solver = "dedicated".toList then .ok .dedicated
        else .error .notImplemented
    | .weber =>
        if pyIn "torch".toList solver then
          .ok (.torch (decide (solver = "entropic_torch".toList) || decide (solver = "entropic_torch_post".toList)))
        else .error .notImplemented
    | .portfolio =>
        if solver = "dedicated".toList then .ok .dedicated
        else if pyIn "torch".toList solver then .ok (.torch (!pyIn "post".toList solver))
        else .error .notImplemented
    | .newsvendor =>
        if pyIn "torch".toList solver then .ok (.torch (decide (solver = "entropic_torch_post".toList)))
        else if solver = "dedicated".toList then .ok .dedicated
        else .error .notImplemented

/-! ## Trainable modules -/

/-- `nn.Linear(d, K, bias)` (external) -/
structure LinMap (d K : ℕ) where
  weight : Fin K → Fin d → ℝ
  bias : Option (Fin K → ℝ)

/-- one output of the layer -/
def LinMap.out {d K : ℕ} (l : LinMap d K) (x : Fin d → ℝ) (c : Fin K) : ℝ :=
  ∑ k, l.weight c k * x k + (match l.bias with | some b => b c | none => 0)

/-- application to a batch `(..., d)`, giving `(..., K)`; a wrong last dimension raises `RuntimeError` -/
noncomputable def LinMap.apply {d K : ℕ} (l : LinMap d K) (t : Tensor ℝ) : Except PyErr (Tensor ℝ) :=
  if t.shape.getLast? = some d then
    .ok ⟨t.shape.dropLast ++ [K], fun i =>
      if h : i.getLastD 0 < K then l.out (fun k => t.get (i.dropLast ++ [k.1])) ⟨i.getLastD 0, h⟩ else 0⟩
  else .error .runtimeError

/-- parameters in the order of `parameters()`, flattened -/
def LinMap.params {d K : ℕ} (l : LinMap d K) : List ℝ :=
  (List.ofFn fun c => List.ofFn (l.weight c)).flatten ++ (match l.bias with | some b => List.ofFn b | none => [])

/-- `nn.CrossEntropyLoss(reduction='none')` on logits `(N, K)` and class probabilities `(N, K)` (external).  Shapes other than
these two equal ones are refused. -/
noncomputable def crossEntropy (input target : Tensor ℝ) : Except PyErr (Tensor ℝ) :=
  match input.shape with
  | [N, K] =>
    if target.shape = [N, K] then
      .ok ⟨[N], fun i => -∑ c ∈ Finset.range K, target.get (i ++ [c]) *
        Real.log (Real.exp (input.get (i ++ [c])) / ∑ c' ∈ Finset.range K, Real.exp (input.get (i ++ [c'])))⟩
    else .error .runtimeError
  | _ => .error .runtimeError

/-- the pairs (loss, transform) handed to `dualize_primal_loss` by the estimators, with current parameters:
_logistic_regression.py:267-278, _linear_regression.py:183-184, _weber.py:133-134, _portfolio.py:220-222, _newsvendor.py:159-160 -/
inductive Module (d : ℕ)
  | softMargin (l : LinMap d 1)
  | crossEnt {K : ℕ} (l : LinMap d K)
  | mse (l : LinMap d 1)
  | weber (pos : Fin d → ℝ)
  | portfolio (p : Portfolio)
  | newsvendor (k u theta : ℝ)

/-- `loss(transform(x), y)` -/
noncomputable def Module.flat {d : ℕ} : Module d → Tensor ℝ → Option (Tensor ℝ) → Except PyErr (Tensor ℝ)
  | .softMargin l, x, some y => l.apply x >>= fun s => biDiffSoftMargin s y
  | .crossEnt l, x, some y => l.apply x >>= fun s => crossEntropy s y
  | .mse l, x, some y => l.apply x >>= fun s => s.zipWith (fun a b => (a - b) ^ 2) y
  | .weber pos, x, some y => weberForward (List.ofFn pos) x y
  | .portfolio p, x, none => p.forward x
  | .newsvendor k u theta, x, none => newsvendorCustom k u theta x
  | _, _, _ => .error .typeError

/-- `WrappedPrimalLoss.theta`, wrapper.py:99-116: every parameter, biases included -/
noncomputable def Module.theta {d : ℕ} : Module d → List ℝ
  | .softMargin l => l.params
  | .crossEnt l => l.params
  | .mse l => l.params
  | .weber pos => List.ofFn pos
  | .portfolio p => p.tau :: p.raw
  | .newsvendor _ _ theta => [theta]

/-- input gradients of the loss (external: autograd) -/
abbrev Autograd (d : ℕ) := Module d → Tensor ℝ → Option (Tensor ℝ) → Tensor ℝ × Option (Tensor ℝ)

/-- the call of `dualize_primal_loss` in `fit`: _logistic_regression.py:272-296, _linear_regression.py:182-199, _weber.py:132-148,
_portfolio.py:219-235, _newsvendor.py:158-172.  Simplifications: data keep full precision (the code converts to float32); a negative
number of samples is replaced by zero. -/
noncomputable def torchArgs {d : ℕ} (grads : Autograd d) (e : EstKind) (P : EstParams) (post multiclass : Bool) (X : Tensor ℝ)
    (y : Option (Tensor ℝ)) (M : Module d) : DualizeArgs where
  flat := M.flat
  theta := M.theta
  grads := grads M
  rho := P.rho
  xi := X
  xi_labels := y
  post_sample := post
  cost_spec := some P.cost
  n_samples := P.n_zeta_samples.toNat
  seed := some P.random_state
  epsilon := P.solver_reg
  sigma := match e with | .logistic | .linreg | .weber => P.sampler_reg | _ => none
  l2reg := match e with | .logistic | .linreg | .weber => some P.l2_reg | .portfolio => some 0 | .newsvendor => none
  imp_samp := match e with | .logistic | .linreg => post | _ => true
  loss_reduces_spatial_dims := multiclass

/-- the schedule of the training: wrap_problem.py:220-222, and _weber.py:149-151 -/
def trainSteps (e : EstKind) (P : EstParams) (post : Bool) : ℤ ⊕ (ℤ × ℤ) :=
  if e = .weber ∧ P.n_iter = none then .inl 300 else defaultSteps post P.n_iter

/-- `entTorch.solve_dual_wdro` (Model/Solve) as seen by an estimator: from the arguments of `dualize_primal_loss` (as a function of
the module) and the schedule, the trained module -/
abbrev Trainer (d : ℕ) := (Module d → DualizeArgs) → Module d → (ℤ ⊕ (ℤ × ℤ)) → Except PyErr (Module d)

/-- `dualize_primal_loss` then `solve_dual_wdro`; `M0` is the freshly initialised module -/
noncomputable def fitTorch {G : Type} {d : ℕ} (ext : TorchExt G) (grads : Autograd d) (train : Trainer d) (e : EstKind) (P : EstParams)
    (post multiclass : Bool) (X : Tensor ℝ) (y : Option (Tensor ℝ)) (M0 : Module d) (g : G) : Except PyErr (Module d) := do
  let _ ← dualize ext (torchArgs grads e P post multiclass X y M0) g
  train (torchArgs grads e P post multiclass X y) M0 (trainSteps e P post)

/-! ## Arrays -/

/-- a sample matrix as a numpy array -/
def matT {n d : ℕ} (X : Fin n → Fin d → ℝ) : Tensor ℝ :=
  ⟨[n, d], fun i => if h : i.headD 0 < n ∧ i.tail.headD 0 < d then X ⟨i.headD 0, h.1⟩ ⟨i.tail.headD 0, h.2⟩ else 0⟩

/-- a one-dimensional array -/
def listT (v : List ℝ) : Tensor ℝ := ⟨[v.length], fun i => v.getD (i.headD 0) 0⟩

/-- numpy broadcasting (incompatible shapes: `ValueError`) -/
def npZip {α β γ : Type} (f : α → β → γ) (a : Tensor α) (b : Tensor β) : Except PyErr (Tensor γ) :=
  match a.zipWith f b with
  | .ok t => .ok t
  | .error _ => .error .valueError

/-- `X.dot(c)` for a matrix `X`: a 0-dimensional `c` multiplies, a vector or matrix contracts -/
noncomputable def npDot {n d : ℕ} (X : Fin n → Fin d → ℝ) (c : Tensor ℝ) : Except PyErr (Tensor ℝ) :=
  match c.shape with
  | [] => .ok ((matT X).map fun x => x * c.get [])
  | [k] => if k = d then .ok ⟨[n], fun i => if h : i.headD 0 < n then ∑ j : Fin d, X ⟨i.headD 0, h⟩ j * c.get [j.1] else 0⟩
           else .error .valueError
  | k :: s => if k = d then .ok ⟨n :: s, fun i => if h : i.headD 0 < n then ∑ j : Fin d, X ⟨i.headD 0, h⟩ j * c.get (j.1 :: i.tail) else 0⟩
           else .error .valueError

/-- `np.atleast_2d` -/
def atleast2d (t : Tensor ℝ) : Tensor ℝ :=
  match t.shape with
  | [] => ⟨[1, 1], fun _ => t.get []⟩
  | [_] => t.unsqueeze0
  | _ => t

/-- `np.vstack((a, b))` of two arrays of the same shape -/
def vstack2 (a b : Tensor ℝ) : Tensor ℝ :=
  let a := atleast2d a
  let b := atleast2d b
  ⟨(a.size0 + b.size0) :: a.shape.tail, fun i => if i.headD 0 < a.size0 then a.get i else b.get ((i.headD 0 - a.size0) :: i.tail)⟩

/-- `.T` -/
def npT (t : Tensor ℝ) : Tensor ℝ := ⟨t.shape.reverse, fun i => t.get i.reverse⟩

/-- `scipy.special.expit` -/
noncomputable def expit (x : ℝ) : ℝ := 1 / (1 + Real.exp (-x))

/-! ## Results -/

/-- a value returned by a dedicated solver, as an array -/
def SVal.toTensor : SVal → Tensor ℝ
  | .num x => Tensor.scalar x
  | .vec v => listT v

/-- attributes set by `fit`.  `torch` is the trained module inside `wdro_loss_` / `_wdro_loss`, `None` when the attribute does not
exist. -/
structure Fitted (d : ℕ) where
  coef : Option (Tensor ℝ)
  intercept : Option (Tensor ℝ) := none
  tau : Option (Tensor ℝ) := none
  dual_var : Option (Tensor ℝ) := none
  torch : Option (Module d × DualizeArgs) := none

/-- `a, b, c, d = result` -/
def unpack4 (r : SolverResult SVal) : Except PyErr (Option SVal × Option SVal × Option SVal × Option SVal) := do
  match ← r.toList with
  | [a, b, c, e] => .ok (a, b, c, e)
  | _ => .error .valueError

/-- `a, b, c = result` -/
def unpack3 (r : SolverResult SVal) : Except PyErr (Option SVal × Option SVal × Option SVal) := do
  match ← r.toList with
  | [a, b, c] => .ok (a, b, c)
  | _ => .error .valueError

/-- `a, b = result` -/
def unpack2 (r : SolverResult SVal) : Except PyErr (Option SVal × Option SVal) := do
  match ← r.toList with
  | [a, b] => .ok (a, b)
  | _ => .error .valueError

/-- the radius as a number, for the convex programs of the logistic regression and the portfolio (cvxpy refuses problem data with NaN; which
exception is a guess) -/
def Radius.toNum : Radius → Except PyErr ℝ
  | .num r => .ok r
  | .nan => .error .valueError

/-- `WDROLinRegSpecificSolver` for any radius, specific_solvers.py:159: `assert rho > 0` fails for NaN -/
noncomputable def linregAt {n d : ℕ} (solve : Oracle) (rho : Radius) (X : Fin n → Fin d → ℝ) (y : Fin n → ℝ) (fit_intercept : Bool) :
    Except PyErr (SolverResult SVal) :=
  match rho with
  | .num r => linregDedicated solve r X y fit_intercept
  | .nan => .error .assertionError

/-- `WDRONewsvendorSpecificSolver` for any radius, specific_solvers.py:14-22: with NaN no entry of `lower_bound` is true, and the
sample-average program is solved instead -/
noncomputable def newsvendorAt (solve : Oracle) (k u : ℝ) (rho : Radius) (samples : Option (List ℝ)) : Except PyErr (SolverResult SVal) :=
  match rho, samples with
  | .num r, _ => newsvendorDedicated solve k u r samples
  | .nan, none => .error .assertionError
  | .nan, some _ => saaNewsvendor2 solve k u samples >>= fun r => wrapResult (.result r)

/-! ## Logistic regression -/

/-- `unique_labels(y)` / `LabelEncoder.classes_` / `OneHotEncoder.categories_` (external): sorted distinct labels -/
def npUnique {L : Type} [LinearOrder L] {n : ℕ} (y : Fin n → L) : List L := (Finset.univ.image y).sort (· ≤ ·)

/-- binary labels, lines 178-188: `LabelEncoder` then `y[y == 0.] = -1.` -/
noncomputable def encodeBinary {L : Type} [DecidableEq L] (classes : List L) (l : L) : ℝ :=
  if (classes.idxOf l : ℝ) = 0 then -1 else classes.idxOf l

/-- one-hot labels, lines 189-198 -/
def encodeOneHot {L : Type} [DecidableEq L] (classes : List L) (l : L) (k : Fin classes.length) : ℝ := if classes[k] = l then 1 else 0

/-- a fitted logistic regression: attributes and encoder -/
structure LogFitted (L : Type) (d : ℕ) extends Fitted d where
  classes : List L

/-- freshly initialised linear layer (external: random numbers): only sizes and the presence of the bias matter -/
abbrev LinInit (d : ℕ) := (K : ℕ) → Bool → LinMap d K

/-- `.weight.detach().cpu().squeeze().numpy()` -/
def LinMap.weightArray {d K : ℕ} (l : LinMap d K) : Tensor ℝ := (matT l.weight).squeeze

/-- `.bias.detach().cpu().squeeze().numpy()` -/
def LinMap.biasArray {d K : ℕ} (l : LinMap d K) : Except PyErr (Tensor ℝ) :=
  match l.bias with
  | some b => .ok (listT (List.ofFn b)).squeeze
  | none => .error .attributeError

/-- attributes read from the trained layer, lines 305-331 -/
def logisticRead {d : ℕ} (fit_intercept : Bool) (M : Module d) : Except PyErr (Option (Tensor ℝ) × Option (Tensor ℝ)) :=
  match M with
  | .softMargin l => if fit_intercept then l.biasArray.map fun b => (some l.weightArray, some b) else .ok (some l.weightArray, none)
  | .crossEnt l => if fit_intercept then l.biasArray.map fun b => (some l.weightArray, some b) else .ok (some l.weightArray, none)
  | _ => .error .assertionError

/-- `LogisticRegression.fit`, _logistic_regression.py:136-338 -/
noncomputable def logisticFit {G L : Type} [LinearOrder L] {n d : ℕ} (ext : TorchExt G) (grads : Autograd d) (solve : Oracle)
    (train : Trainer d) (init : LinInit d) (P : EstParams) (X : Fin n → Fin d → ℝ) (y : Fin n → L) (g : G) :
    Except PyErr (LogFitted L d) := do
  if n = 0 ∨ d = 0 then .error .valueError
  else
    let classes := npUnique y
    if classes.length < 2 then .error .valueError
    else do
      let _ ← cost_from_str P.cost
      match ← route .logistic P.solver with
      | .dedicated =>
        if 2 < classes.length then .error .notImplemented
        else do
          let rho ← P.rho.toNum
          let r ← logisticDedicated solve rho 1000 X (fun i => encodeBinary classes (y i)) P.fit_intercept
          let t ← unpack4 r
          .ok { coef := t.1.map SVal.toTensor, intercept := t.2.1.map SVal.toTensor, dual_var := t.2.2.1.map SVal.toTensor,
                classes := classes }
      | .torch post =>
        if classes.length = 2 then do
          let yT := matT fun i (_ : Fin 1) => encodeBinary classes (y i)
          let M ← fitTorch ext grads train .logistic P post false (matT X) (some yT) (.softMargin (init 1 P.fit_intercept)) g
          let t ← logisticRead P.fit_intercept M
          .ok { coef := t.1, intercept := t.2, torch := some (M, torchArgs grads .logistic P post false (matT X) (some yT) M),
                classes := classes }
        else do
          let yT := matT fun i => encodeOneHot classes (y i)
          let M ← fitTorch ext grads train .logistic P post true (matT X) (some yT) (.crossEnt (init classes.length P.fit_intercept)) g
          let t ← logisticRead P.fit_intercept M
          .ok { coef := t.1, intercept := t.2, torch := some (M, torchArgs grads .logistic P post true (matT X) (some yT) M),
                classes := classes }

/-- `X.dot(self.coef_)`; `None` has no product -/
noncomputable def dotCoef {n d : ℕ} (X : Fin n → Fin d → ℝ) : Option (Tensor ℝ) → Except PyErr (Tensor ℝ)
  | some c => npDot X c
  | none => .error .typeError

/-- `... + self.intercept_`; adding `None` raises `TypeError` -/
noncomputable def addIntercept (s : Tensor ℝ) : Option (Tensor ℝ) → Except PyErr (Tensor ℝ)
  | some b => npZip (· + ·) s b
  | none => .error .typeError

/-- `predict_proba_2Class`, lines 340-364 -/
noncomputable def LogFitted.proba2 {L : Type} {n d : ℕ} (f : LogFitted L d) (X : Fin n → Fin d → ℝ) : Except PyErr (Tensor ℝ) := do
  let s ← dotCoef X f.coef
  let s ← (if f.intercept.isSome then addIntercept s f.intercept else .ok s)
  .ok (s.map expit)

/-- the trained transform applied to data -/
noncomputable def Module.transform {d : ℕ} : Module d → Tensor ℝ → Except PyErr (Tensor ℝ)
  | .softMargin l, x => l.apply x
  | .crossEnt l, x => l.apply x
  | .mse l, x => l.apply x
  | _, x => .ok x

/-- `predict_proba`, lines 366-391 -/
noncomputable def LogFitted.proba {L : Type} {n d : ℕ} (f : LogFitted L d) (X : Fin n → Fin d → ℝ) : Except PyErr (Tensor ℝ) :=
  if f.torch.isNone ∨ f.classes.length ≤ 2 then do
    let s ← dotCoef X f.coef
    let s ← addIntercept s f.intercept
    let p := s.map expit
    .ok (npT (vstack2 (p.map fun x => 1 - x) p))
  else match f.torch with
    | some (M, _) => M.transform (matT X)
    | none => .error .attributeError

/-- `column_or_1d` (external, scikit-learn) -/
def column1d {α : Type} (t : Tensor α) : Except PyErr (List α) :=
  match t.shape with
  | [n] => .ok ((List.range n).map fun i => t.get [i])
  | [n, 1] => .ok ((List.range n).map fun i => t.get [i, 0])
  | _ => .error .valueError

/-- what `predict` returns: labels of shape `(n,)` or `(n, 1)` -/
inductive Labels (L : Type)
  | flat (l : List L)
  | column (l : List L)

/-- the labels, forgetting the shape -/
def Labels.toList {L : Type} : Labels L → List L
  | .flat l => l
  | .column l => l

/-- `LabelEncoder.inverse_transform` (external): labels out of range raise `ValueError` -/
def decodeLabels {L : Type} (classes : List L) (codes : List ℕ) : Except PyErr (List L) :=
  codes.mapM fun c => match classes[c]? with
    | some l => .ok l
    | none => .error .valueError

open Classical in
/-- `OneHotEncoder.inverse_transform` of `(proba >= max(proba, axis=1)).astype('uint8')` (external argmax: first column holding the
largest value), lines 417-422 -/
noncomputable def rowArgmax (t : Tensor ℝ) (K i : ℕ) : ℕ :=
  (List.range K).findIdx fun c => decide (∀ c' < K, t.get [i, c'] ≤ t.get [i, c])

/-- `(proba >= 0.5).astype('uint8')`, line 416 -/
noncomputable def halfCode (x : ℝ) : ℕ := if x ≥ 1 / 2 then 1 else 0

/-- `predict`, lines 393-427: the encoder is a `LabelEncoder` for two classes, a `OneHotEncoder` otherwise -/
noncomputable def LogFitted.predict {L : Type} {n d : ℕ} (f : LogFitted L d) (X : Fin n → Fin d → ℝ) : Except PyErr (Labels L) :=
  if f.classes.length = 2 then do
    let p ← f.proba2 X
    let codes ← column1d (p.map halfCode)
    let out ← decodeLabels f.classes codes
    .ok (.flat out)
  else do
    let p ← f.proba X
    match p.shape with
    | [N, K] =>
      if K = f.classes.length then do
        let out ← decodeLabels f.classes ((List.range N).map fun i => rowArgmax p K i)
        .ok (.column out)
      else .error .valueError
    | _ => .error .valueError

/-! ## Linear regression -/

/-- `LinearRegression.fit`, _linear_regression.py:125-223 -/
noncomputable def linregFit {G : Type} {n d : ℕ} (ext : TorchExt G) (grads : Autograd d) (solve : Oracle)
    (train : Trainer d) (init : LinInit d) (P : EstParams) (X : Fin n → Fin d → ℝ) (y : Fin n → ℝ) (g : G) : Except PyErr (Fitted d) := do
  if n = 0 ∨ d = 0 then .error .valueError
  else
    let _ ← cost_from_str P.cost
    match ← route .linreg P.solver with
    | .torch post => do
      let yT := matT fun i (_ : Fin 1) => y i
      match ← fitTorch ext grads train .linreg P post false (matT X) (some yT) (.mse (init 1 true)) g with
      | .mse l => .ok { coef := some (listT (List.ofFn (l.weight 0))), intercept := l.bias.map fun b => listT (List.ofFn b),
                        torch := some (.mse l, torchArgs grads .linreg P post false (matT X) (some yT) (.mse l)) }
      | _ => .error .attributeError
    | .dedicated => do
      let r ← linregAt solve P.rho X y P.fit_intercept
      let t ← unpack3 r
      .ok { coef := t.1.map SVal.toTensor, intercept := t.2.1.map SVal.toTensor, dual_var := t.2.2.map SVal.toTensor }

/-- `LinearRegression.predict`, lines 225-244 (a `None` anywhere raises `TypeError`) -/
noncomputable def linregPredict {n d : ℕ} (f : Fitted d) (X : Fin n → Fin d → ℝ) : Except PyErr (Tensor ℝ) := do
  let s ← dotCoef X f.coef
  match f.intercept with
  | some b => npZip (· + ·) b s
  | none => .error .typeError

/-! ## Newsvendor -/

/-- `X.mean(axis=1, keepdims=True)`, _newsvendor.py:141 -/
noncomputable def rowMeans {n d : ℕ} (X : Fin n → Fin d → ℝ) (i : Fin n) : ℝ := (∑ j, X i j) / d

/-- a 0-dimensional array read as a number -/
def SVal.toNum : SVal → ℝ
  | .num x => x
  | .vec v => v.getD 0 0

open Classical in
/-- `NewsVendor.fit`, _newsvendor.py:110-199; `theta0` is the random initial order -/
noncomputable def newsvendorFit {G : Type} {n d : ℕ} (ext : TorchExt G) (grads : Autograd 1) (solve : Oracle) (train : Trainer 1)
    (theta0 : ℝ) (P : EstParams) (X : Fin n → Fin d → ℝ) (g : G) : Except PyErr (Fitted 1) := do
  if n = 0 ∨ d = 0 then .error .valueError
  else
    let _ ← cost_from_str P.cost
    let X1 := fun i (_ : Fin 1) => rowMeans X i
    match ← route .newsvendor P.solver with
    | .torch post => do
      match ← fitTorch ext grads train .newsvendor P post false (matT X1) none (.newsvendor P.k P.u theta0) g with
      | .newsvendor k u th => .ok { coef := some (listT [th]), torch := some (.newsvendor k u th,
          torchArgs grads .newsvendor P post false (matT X1) none (.newsvendor k u th)) }
      | _ => .error .attributeError
    | .dedicated => do
      let r ← newsvendorAt solve P.k P.u P.rho (some (List.ofFn (rowMeans X)))
      let t ← unpack2 r
      match t.1 with
      | some c => .ok { coef := some c.toTensor, dual_var := some (Tensor.scalar (if c.toNum = 0 then 0 else P.u)) }
      | none => .ok { coef := none, dual_var := some (Tensor.scalar P.u) }

/-- `self._wdro_loss.primal_loss.forward(X).mean()`: no labels are passed -/
noncomputable def torchEval {d : ℕ} (f : Fitted d) (X : Tensor ℝ) : Except PyErr ℝ :=
  match f.torch with
  | some (_, a) => do
    let v ← a.wloss.value X none
    .ok (v.mean.get [])
  | none => .error .attributeError

/-- `NewsVendor.eval`, lines 215-237 (numpy's mean of an empty array is not modelled) -/
noncomputable def newsvendorEval {n d : ℕ} (P : EstParams) (f : Fitted 1) (X : Fin n → Fin d → ℝ) : Except PyErr ℝ :=
  if pyIn "entropic".toList P.solver then torchEval f (matT X)
  else if P.solver = "dedicated".toList then
    match f.coef with
    | some c => .ok ((∑ i, ∑ j, (P.k * c.get [] - P.u * min (c.get []) (X i j))) / (n * d))
    | none => .error .typeError
  else .error .valueError

/-! ## Portfolio -/

/-- the polytope of returns used when the user gives none, _portfolio.py:180-182 -/
def zeroC (m : ℕ) (_ : Fin 1) (_ : Fin m) : ℝ := 0
def zeroD (_ : Fin 1) : ℝ := 0

/-- `self.solver_reg_ = float(self.solver_reg)`, _portfolio.py:165: `None` (possible through `set_params`) is a `TypeError` -/
def regAsFloat (P : EstParams) : Except PyErr Unit :=
  match P.solver_reg with
  | none => .error .typeError
  | some _ => .ok ()

/-- `Portfolio.fit`, _portfolio.py:138-257, with constraints `C`, `D` (any number of rows; the column check is in the types);
`p0` is the fresh module -/
noncomputable def portfolioFit {G : Type} {n m J : ℕ} (ext : TorchExt G) (grads : Autograd m) (solve : Oracle) (train : Trainer m)
    (p0 : Portfolio) (P : EstParams) (C : Fin J → Fin m → ℝ) (D : Fin J → ℝ) (X : Fin n → Fin m → ℝ) (g : G) : Except PyErr (Fitted m) := do
  if n = 0 ∨ m = 0 then .error .valueError
  else
    regAsFloat P
    let cost ← cost_from_str P.cost
    match ← route .portfolio P.solver with
    | .dedicated => do
      let rho ← P.rho.toNum
      let r ← portfolioDedicated solve C D (cost.power.map fun q : ℚ => (q : ℝ)) P.eta P.alpha rho X
      let t ← unpack4 r
      .ok { coef := t.1.map SVal.toTensor, tau := t.2.1.map SVal.toTensor, dual_var := t.2.2.1.map SVal.toTensor }
    | .torch post => do
      match ← fitTorch ext grads train .portfolio P post false (matT X) none (.portfolio { p0 with eta := P.eta, alpha := P.alpha }) g with
      | .portfolio q => .ok { coef := some (listT q.weights), torch := some (.portfolio q,
          torchArgs grads .portfolio P post false (matT X) none (.portfolio q)) }
      | _ => .error .attributeError

/-- `-np.mean(X, axis=0) @ self.coef_`, _portfolio.py:291 and _weber.py:201, for coefficients of at most one dimension (the only ones `fit`
stores): `matmul` refuses other lengths -/
noncomputable def meanDot {n m : ℕ} (X : Fin n → Fin m → ℝ) (c : Tensor ℝ) : Except PyErr ℝ :=
  if c.shape = [m] then .ok (∑ j : Fin m, -((∑ i, X i j) / n) * c.get [j.1]) else .error .valueError

/-- `Portfolio.eval`, lines 273-293.  `float32` says whether the evaluation data has the dtype of the trained layer (`nn.Linear` refuses
another one). -/
noncomputable def portfolioEval {n m : ℕ} (P : EstParams) (f : Fitted m) (float32 : Bool) (X : Fin n → Fin m → ℝ) : Except PyErr ℝ :=
  if pyIn "entropic".toList P.solver then
    if f.torch.isSome ∧ float32 = false then .error .runtimeError else torchEval f (matT X)
  else if P.solver = "dedicated".toList then
    match f.coef with
    | some c => meanDot X c
    | none => .error .typeError
  else .error .valueError

/-! ## Weber -/

/-- `Weber.fit`, _weber.py:92-167 -/
noncomputable def weberFit {G : Type} {n d : ℕ} (ext : TorchExt G) (grads : Autograd d) (train : Trainer d)
    (pos0 : Fin d → ℝ) (P : EstParams) (X : Fin n → Fin d → ℝ) (w : Fin n → ℝ) (g : G) : Except PyErr (Fitted d) := do
  if n = 0 ∨ d = 0 then .error .valueError
  else
    match ← route .weber P.solver with
    | .torch post => do
      let yT := matT fun i (_ : Fin 1) => w i
      match ← fitTorch ext grads train .weber P post false (matT X) (some yT) (.weber pos0) g with
      | .weber pos => .ok { coef := some (listT (List.ofFn pos)), torch := some (.weber pos,
          torchArgs grads .weber P post false (matT X) (some yT) (.weber pos)) }
      | _ => .error .attributeError
    | .dedicated => .error .notImplemented

/-- `Weber.eval`, lines 183-203 -/
noncomputable def weberEval {n d : ℕ} (P : EstParams) (f : Fitted d) (X : Fin n → Fin d → ℝ) : Except PyErr ℝ :=
  if pyIn "entropic".toList P.solver then torchEval f (matT X)
  else if P.solver = "dedicated".toList then
    match f.coef with
    | some c => meanDot X c
    | none => .error .typeError
  else .error .valueError

/-- `score(X) = -eval(X)` of the three operations-research estimators -/
noncomputable def score (eval : Except PyErr ℝ) : Except PyErr ℝ := eval.map fun v => -v

end Skwdro
