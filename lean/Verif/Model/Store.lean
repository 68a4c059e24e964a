import Verif.Model.Fit

/-! # Attributes of an estimator object across several calls of `fit`

`fit` assigns attributes one after the other, so a call that raises leaves those it had assigned; the methods read what they find.
`Fitted` (Model/Estimators) is what one successful call assigns; here the attributes of the object before the call are kept.  Attributes no
method reads (`cost_`, `n_features_in_`, `result_`, `C_`, `d_`, `rho_`, ...) are left out. -/

namespace Skwdro

/-- the attributes; `none` when there is no such attribute (an attribute may also be `None`).  `data` stands for `X_` and `y_`, `loss` for
`wdro_loss_` (logistic regression) and `_wdro_loss` (operations research), with the module it holds -/
structure Store (L : Type) where
  data : Bool := false
  fitted : Bool := false
  classes : Option (List L) := none
  encoder : Option (List L) := none
  coef : Option (Option (Tensor ℝ)) := none
  intercept : Option (Option (Tensor ℝ)) := none
  tau : Option (Option (Tensor ℝ)) := none
  dual_var : Option (Option (Tensor ℝ)) := none
  robust_loss : Option (XNum ℝ) := none
  loss : Option ((d : ℕ) × Module d × DualizeArgs) := none

/-- one assignment `self.attribute = value` -/
inductive Write (L : Type)
  | data
  | fitted
  | classes (l : List L)
  | encoder (l : List L)
  | coef (v : Option (Tensor ℝ))
  | intercept (v : Option (Tensor ℝ))
  | tau (v : Option (Tensor ℝ))
  | dual_var (v : Option (Tensor ℝ))
  | robust_loss (v : XNum ℝ)
  | loss (v : (d : ℕ) × Module d × DualizeArgs)

/-- python's attribute assignment (external) -/
def Store.write {L : Type} (s : Store L) : Write L → Store L
  | .data => { s with data := true }
  | .fitted => { s with fitted := true }
  | .classes l => { s with classes := some l }
  | .encoder l => { s with encoder := some l }
  | .coef v => { s with coef := some v }
  | .intercept v => { s with intercept := some v }
  | .tau v => { s with tau := some v }
  | .dual_var v => { s with dual_var := some v }
  | .robust_loss v => { s with robust_loss := some v }
  | .loss v => { s with loss := some v }

/-- the assignments made by a call of `fit`, in order, and whether it returns or raises.  No branch of the five `fit` reads an attribute
set by an earlier call (but `opt_cond`, see Model/Session) -/
abbrev FitRun (L : Type) := List (Write L) × Except PyErr Unit

/-- the object after the call -/
def Store.after {L : Type} (s : Store L) (r : FitRun L) : Store L := r.1.foldl Store.write s

/-- assignments `w`, then a computation that may raise, then the rest -/
def FitRun.andThen {L α : Type} (w : List (Write L)) : Except PyErr α → (α → FitRun L) → FitRun L
  | .error x, _ => (w, .error x)
  | .ok a, k => (w ++ (k a).1, (k a).2)

/-- `solve_dual_wdro` as seen by an estimator: outcome, and the module afterwards (it is trained in place, so an exception during training
leaves it where it was) -/
abbrev InPlace (d : ℕ) := (Module d → DualizeArgs) → Module d → (ℤ ⊕ (ℤ × ℤ)) → Except PyErr (Solved (List ℝ)) × Module d

/-- the trained module when training returns -/
def InPlace.trainer {d : ℕ} (t : InPlace d) : Trainer d := fun args M0 steps =>
  match t args M0 steps with
  | (.ok _, M) => .ok M
  | (.error x, _) => .error x

/-- the training of Model/Fit -/
noncomputable def realInPlace {G O : Type} {d : ℕ} (ext : TorchExt G) (T : Torch G O) (cfg : OCConfig) (fl : ℝ → ℝ) (oc : OCState) (g : G) :
    InPlace d := fun args M0 steps =>
  match dualize ext (args M0) g with
  | .error x => (.error x, M0)
  | .ok (D, g) =>
    let r := solveRun ext T cfg fl args D M0 steps oc g
    (r.1, r.2.w.mod)

/-- the torch branch of `fit`: `dualize_primal_loss` (assigned to an attribute if `keep`; linear regression uses a local variable), then
`self.coef_, self.intercept_, self.dual_var_, self.robust_loss_ = solve_dual_wdro(...)`, then the attributes `read` from the trained module:
_logistic_regression.py:272-331, _linear_regression.py:182-209, _weber.py:132-159, _portfolio.py:219-250, _newsvendor.py:158-180 -/
noncomputable def torchWrites {G L : Type} {d : ℕ} (ext : TorchExt G) (grads : Autograd d) (train : InPlace d) (e : EstKind) (P : EstParams)
    (post multiclass : Bool) (X : Tensor ℝ) (y : Option (Tensor ℝ)) (M0 : Module d) (g : G) (keep : Bool)
    (read : Module d → Except PyErr (List (Write L))) : FitRun L :=
  let args := torchArgs grads e P post multiclass X y
  let lossOf := fun M : Module d => if keep then [Write.loss ⟨d, M, args M⟩] else []
  FitRun.andThen [] (dualize ext (args M0) g) fun _ =>
    match train args M0 (trainSteps e P post) with
    | (.error x, M) => (lossOf M, .error x)
    | (.ok r, M) =>
      FitRun.andThen (lossOf M ++ [.coef (some (listT r.coef)), .intercept (r.intercept.map listT), .dual_var (some (Tensor.scalar r.dual_var)),
        .robust_loss r.robust_loss]) (read M) fun w => (w ++ [.fitted], .ok ())

/-- attributes read from the trained layer, _logistic_regression.py:305-331 -/
def layerRead {L : Type} {d : ℕ} (fit_intercept : Bool) (M : Module d) : Except PyErr (List (Write L)) :=
  (logisticRead fit_intercept M).map fun t => [.coef t.1, .intercept t.2]

/-- `LogisticRegression.fit`, _logistic_regression.py:136-338 -/
noncomputable def logisticRun {G L : Type} [LinearOrder L] {n d : ℕ} (ext : TorchExt G) (grads : Autograd d) (solve : Oracle)
    (train : InPlace d) (init : LinInit d) (P : EstParams) (X : Fin n → Fin d → ℝ) (y : Fin n → L) (g : G) : FitRun L :=
  if n = 0 ∨ d = 0 then ([], .error .valueError)
  else
    let classes := npUnique y
    if classes.length < 2 then ([.classes classes], .error .valueError)
    else
      FitRun.andThen [.classes classes, .encoder classes, .data]
        (do let _ ← cost_from_str P.cost; route .logistic P.solver) fun
      | .dedicated =>
        if 2 < classes.length then ([], .error .notImplemented)
        else
          FitRun.andThen []
            (do
              let rho ← P.rho.toNum
              let r ← logisticDedicated solve rho 1000 X (fun i => encodeBinary classes (y i)) P.fit_intercept
              unpack4 r) fun t =>
          ([.coef (t.1.map SVal.toTensor), .intercept (t.2.1.map SVal.toTensor), .dual_var (t.2.2.1.map SVal.toTensor), .fitted], .ok ())
      | .torch post =>
        if classes.length = 2 then
          torchWrites ext grads train .logistic P post false (matT X) (some (matT fun i (_ : Fin 1) => encodeBinary classes (y i)))
            (.softMargin (init 1 P.fit_intercept)) g true (layerRead P.fit_intercept)
        else
          torchWrites ext grads train .logistic P post true (matT X) (some (matT fun i => encodeOneHot classes (y i)))
            (.crossEnt (init classes.length P.fit_intercept)) g true (layerRead P.fit_intercept)

/-- attributes read from the trained layer, _linear_regression.py:206-209 -/
def linregRead {L : Type} {d : ℕ} : Module d → Except PyErr (List (Write L))
  | .mse l => .ok [.coef (some (listT (List.ofFn (l.weight 0)))), .intercept (l.bias.map fun b => listT (List.ofFn b))]
  | _ => .error .attributeError

/-- _newsvendor.py:179-180 -/
def orderRead {L : Type} {d : ℕ} : Module d → Except PyErr (List (Write L))
  | .newsvendor _ _ th => .ok [.coef (some (listT [th]))]
  | _ => .error .attributeError

/-- _portfolio.py:247-249 -/
noncomputable def weightsRead {L : Type} {d : ℕ} : Module d → Except PyErr (List (Write L))
  | .portfolio q => .ok [.coef (some (listT q.weights))]
  | _ => .error .attributeError

/-- _weber.py:157-159 -/
def positionRead {L : Type} {d : ℕ} : Module d → Except PyErr (List (Write L))
  | .weber pos => .ok [.coef (some (listT (List.ofFn pos)))]
  | _ => .error .attributeError

/-- `LinearRegression.fit`, _linear_regression.py:125-223 -/
noncomputable def linregRun {G L : Type} {n d : ℕ} (ext : TorchExt G) (grads : Autograd d) (solve : Oracle) (train : InPlace d)
    (init : LinInit d) (P : EstParams) (X : Fin n → Fin d → ℝ) (y : Fin n → ℝ) (g : G) : FitRun L :=
  if n = 0 ∨ d = 0 then ([], .error .valueError)
  else
    FitRun.andThen [.data] (do let _ ← cost_from_str P.cost; route .linreg P.solver) fun
    | .torch post =>
      torchWrites ext grads train .linreg P post false (matT X) (some (matT fun i (_ : Fin 1) => y i)) (.mse (init 1 true)) g false linregRead
    | .dedicated =>
      FitRun.andThen []
        (do
          let r ← linregAt solve P.rho X y P.fit_intercept
          unpack3 r) fun t =>
      ([.coef (t.1.map SVal.toTensor), .intercept (t.2.1.map SVal.toTensor), .dual_var (t.2.2.map SVal.toTensor), .fitted], .ok ())

open Classical in
/-- `NewsVendor.fit`, _newsvendor.py:110-199 -/
noncomputable def newsvendorRun {G L : Type} {n d : ℕ} (ext : TorchExt G) (grads : Autograd 1) (solve : Oracle) (train : InPlace 1)
    (theta0 : ℝ) (P : EstParams) (X : Fin n → Fin d → ℝ) (g : G) : FitRun L :=
  if n = 0 ∨ d = 0 then ([], .error .valueError)
  else
    FitRun.andThen [] (do let _ ← cost_from_str P.cost; route .newsvendor P.solver) fun
    | .torch post =>
      torchWrites ext grads train .newsvendor P post false (matT fun i (_ : Fin 1) => rowMeans X i) none (.newsvendor P.k P.u theta0) g true
        orderRead
    | .dedicated =>
      FitRun.andThen []
        (do
          let r ← newsvendorAt solve P.k P.u P.rho (some (List.ofFn (rowMeans X)))
          unpack2 r) fun t =>
      ([.coef (t.1.map SVal.toTensor), .dual_var (t.2.map SVal.toTensor),
        .dual_var (some (Tensor.scalar (match t.1 with | some c => if c.toNum = 0 then 0 else P.u | none => P.u))), .fitted], .ok ())

/-- `Portfolio.fit`, _portfolio.py:138-257 -/
noncomputable def portfolioRun {G L : Type} {n m J : ℕ} (ext : TorchExt G) (grads : Autograd m) (solve : Oracle) (train : InPlace m)
    (p0 : Portfolio) (P : EstParams) (C : Fin J → Fin m → ℝ) (D : Fin J → ℝ) (X : Fin n → Fin m → ℝ) (g : G) : FitRun L :=
  if n = 0 ∨ m = 0 then ([], .error .valueError)
  else
    FitRun.andThen [] (regAsFloat P) fun _ =>
    FitRun.andThen [.data] (do let c ← cost_from_str P.cost; let r ← route .portfolio P.solver; .ok (c, r)) fun
    | (cost, .dedicated) =>
      FitRun.andThen []
        (do
          let rho ← P.rho.toNum
          let r ← portfolioDedicated solve C D (cost.power.map fun q : ℚ => (q : ℝ)) P.eta P.alpha rho X
          unpack4 r) fun t =>
      ([.coef (t.1.map SVal.toTensor), .tau (t.2.1.map SVal.toTensor), .dual_var (t.2.2.1.map SVal.toTensor), .fitted], .ok ())
    | (_, .torch post) =>
      torchWrites ext grads train .portfolio P post false (matT X) none (.portfolio { p0 with eta := P.eta, alpha := P.alpha }) g true
        weightsRead

/-- `Weber.fit`, _weber.py:92-167 -/
noncomputable def weberRun {G L : Type} {n d : ℕ} (ext : TorchExt G) (grads : Autograd d) (train : InPlace d) (pos0 : Fin d → ℝ)
    (P : EstParams) (X : Fin n → Fin d → ℝ) (w : Fin n → ℝ) (g : G) : FitRun L :=
  if n = 0 ∨ d = 0 then ([], .error .valueError)
  else
    FitRun.andThen [] (route .weber P.solver) fun
    | .torch post =>
      torchWrites ext grads train .weber P post false (matT X) (some (matT fun i (_ : Fin 1) => w i)) (.weber pos0) g true
        positionRead
    | .dedicated => ([], .error .notImplemented)

/-! ## What the methods read -/

/-- `check_is_fitted(self, ['X_', 'y_'])` (external) -/
def Store.checkFitted {L : Type} (s : Store L) : Except PyErr Unit := if s.data then .ok () else .error .notFitted

/-- reading an attribute that may not exist -/
def getAttr {α : Type} : Option α → Except PyErr α
  | some v => .ok v
  | none => .error .attributeError

/-- `LogisticRegression.predict_proba_2Class`, _logistic_regression.py:340-364 -/
noncomputable def Store.proba2 {L : Type} {n d : ℕ} (s : Store L) (X : Fin n → Fin d → ℝ) : Except PyErr (Tensor ℝ) := do
  s.checkFitted
  let b ← getAttr s.intercept
  let c ← getAttr s.coef
  let t ← dotCoef X c
  let t ← (if b.isSome then addIntercept t b else .ok t)
  .ok (t.map expit)

/-- `LogisticRegression.predict_proba`, lines 366-391 -/
noncomputable def Store.proba {L : Type} {n d : ℕ} (s : Store L) (X : Fin n → Fin d → ℝ) : Except PyErr (Tensor ℝ) := do
  s.checkFitted
  let two ← (match s.loss with
    | none => Except.ok true
    | some _ => (getAttr s.classes).map fun l => decide (l.length ≤ 2))
  if two then
    let c ← getAttr s.coef
    let t ← dotCoef X c
    let b ← getAttr s.intercept
    let t ← addIntercept t b
    let p := t.map expit
    .ok (npT (vstack2 (p.map fun x => 1 - x) p))
  else
    let l ← getAttr s.loss
    l.2.1.transform (matT X)

/-- `LogisticRegression.predict`, lines 393-427: the class of the encoder tells the number of classes it was fitted on -/
noncomputable def Store.predict {L : Type} {n d : ℕ} (s : Store L) (X : Fin n → Fin d → ℝ) : Except PyErr (Labels L) := do
  s.checkFitted
  let le ← getAttr s.encoder
  if le.length = 2 then
    let p ← s.proba2 X
    let codes ← column1d (p.map halfCode)
    let out ← decodeLabels le codes
    .ok (.flat out)
  else
    let p ← s.proba X
    match p.shape with
    | [N, K] =>
      if K = le.length then
        let out ← decodeLabels le ((List.range N).map fun i => rowArgmax p K i)
        .ok (.column out)
      else .error .valueError
    | _ => .error .valueError

/-- `LinearRegression.predict`, _linear_regression.py:225-244 -/
noncomputable def Store.predictReal {L : Type} {n d : ℕ} (s : Store L) (X : Fin n → Fin d → ℝ) : Except PyErr (Tensor ℝ) := do
  s.checkFitted
  let b ← getAttr s.intercept
  let c ← getAttr s.coef
  let t ← dotCoef X c
  match b with
  | some b => npZip (· + ·) b t
  | none => .error .typeError

/-- `self._wdro_loss.primal_loss.forward(X).mean()` -/
noncomputable def Store.lossEval {L : Type} (s : Store L) (X : Tensor ℝ) : Except PyErr ℝ := do
  let l ← getAttr s.loss
  let v ← l.2.2.wloss.value X none
  .ok (v.mean.get [])

/-- `assert self.is_fitted_` -/
def Store.assertFitted {L : Type} (s : Store L) : Except PyErr Unit := if s.fitted then .ok () else .error .attributeError

/-- `NewsVendor.eval`, _newsvendor.py:215-237 -/
noncomputable def Store.newsvendorEval {L : Type} {n d : ℕ} (P : EstParams) (s : Store L) (X : Fin n → Fin d → ℝ) : Except PyErr ℝ := do
  s.assertFitted
  if pyIn "entropic".toList P.solver then s.lossEval (matT X)
  else if P.solver = "dedicated".toList then
    match ← getAttr s.coef with
    | some c => .ok ((∑ i, ∑ j, (P.k * c.get [] - P.u * min (c.get []) (X i j))) / (n * d))
    | none => .error .typeError
  else .error .valueError

/-- `Portfolio.eval`, _portfolio.py:273-293 -/
noncomputable def Store.portfolioEval {L : Type} {n m : ℕ} (P : EstParams) (s : Store L) (float32 : Bool) (X : Fin n → Fin m → ℝ) :
    Except PyErr ℝ := do
  s.assertFitted
  if pyIn "entropic".toList P.solver then
    if s.loss.isSome ∧ float32 = false then .error .runtimeError else s.lossEval (matT X)
  else if P.solver = "dedicated".toList then
    match ← getAttr s.coef with
    | some c => meanDot X c
    | none => .error .typeError
  else .error .valueError

/-- `Weber.eval`, _weber.py:183-203 -/
noncomputable def Store.weberEval {L : Type} {n d : ℕ} (P : EstParams) (s : Store L) (X : Fin n → Fin d → ℝ) : Except PyErr ℝ := do
  s.assertFitted
  if pyIn "entropic".toList P.solver then s.lossEval (matT X)
  else if P.solver = "dedicated".toList then
    match ← getAttr s.coef with
    | some c => meanDot X c
    | none => .error .typeError
  else .error .valueError

end Skwdro
