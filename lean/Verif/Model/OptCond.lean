import Verif.Model.Costs

/-!
# Optimality conditions: `/repo/skwdro/solvers/optim_cond.py`
-/

namespace Skwdro

/-- accepted monitoring settings, optim_cond.py:10-13 -/
def L_AND_T : List PyStr := ["both".toList, "theta_and_lambda".toList, "t&l".toList, "lambda_and_theta".toList, "l&t".toList]
def L_OR_T : List PyStr := ["one".toList, "theta_or_lambda".toList, "tUl".toList, "lambda_or_theta".toList, "lUt".toList]
def JUST_T : List PyStr := ["theta".toList, "t".toList]
def JUST_L : List PyStr := ["lambda".toList, "l".toList]

/-- attributes of an `OptCondTorch`, optim_cond.py:95-110; the order is a positive number or infinity, see `condOrder` -/
structure OCConfig where
  order : XNum ℝ
  tolTheta : ℝ
  tolLambda : ℝ
  monitoring : PyStr
  mode : PyStr
  metric : PyStr

/-- the `order` given by the user: a number or a string -/
inductive OrderArg
  | num (x : XNum ℝ)
  | str (s : PyStr)

/-- the checks on `order`, optim_cond.py:95-102.  Simplification: other python objects, for which `float` raises `TypeError`, are left out. -/
noncomputable def condOrder : OrderArg → Except PyErr (XNum ℝ)
  | .str s => if s = "inf".toList then .ok .pinf else .error .assertionError
  | .num (.fin x) => if 0 < x then .ok (.fin x) else .error .assertionError
  | .num .pinf => .ok .pinf
  | .num .ninf => .error .assertionError
  | .num .nan => .error .assertionError

/-- memory about `lambda`: `l_0`, `l_mem`, `delta_l_1`, `l_grad_0`, optim_cond.py:112-119.  `l_0` and `l_mem` hold whatever
`dual_loss.lam` returned, that is the parameter object itself (dual_loss.py:196-204), not a copy: they are references. -/
structure LMem where
  l0 : Option ℕ
  lMem : Option ℕ
  deltaL1 : Option ℝ
  lGrad0 : Option ℝ

/-- memory about `theta`: `t_0`, `t_mem`, `delta_t_1`, `t_grad_0`.  `pt.concat` copies, so these are values. -/
structure TMem where
  t0 : Option (List ℝ)
  tMem : Option (List ℝ)
  deltaT1 : Option ℝ
  tGrad0 : Option ℝ

structure OCState where
  l : LMem
  t : TMem

/-- memory of a new condition -/
def freshOC : OCState := ⟨⟨none, none, none, none⟩, ⟨none, none, none, none⟩⟩

/-- `OptCondTorch(order, tol_theta, tol_lambda, monitoring=, mode=, metric=)`, optim_cond.py:81-119 (`max_iter` is overwritten at each call,
lines 138-141) -/
noncomputable def mkCond (order : OrderArg) (tolTheta : ℝ := 1 / 10 ^ 8) (tolLambda : ℝ := 1 / 10 ^ 8) (monitoring : PyStr := "theta".toList)
    (mode : PyStr := "rel".toList) (metric : PyStr := "grad".toList) : Except PyErr (OCConfig × OCState) :=
  match condOrder order with
  | .ok o => .ok (⟨o, tolTheta, tolLambda, monitoring, mode, metric⟩, freshOC)
  | .error e => .error e

/-- what a call sees of the dual loss: the multiplier object (`lamRef`) and the present content of all such objects, its
gradient, the flattened primal parameters with their gradients, and `n_iter` (its second component for a pair).
Simplification: all these numbers are finite. -/
structure OCView where
  lamRef : ℕ
  heap : ℕ → ℝ
  lamGrad : Option ℝ
  params : List (List ℝ × Option (List ℝ))
  maxIter : ℤ

/-- `get_flat_param`, optim_cond.py:417-426 (`pt.concat([])` raises `RuntimeError`) -/
def flatParam (v : OCView) : Except PyErr (List ℝ) :=
  if v.params = [] then .error .runtimeError else .ok (v.params.map Prod.fst).flatten

/-- `get_flat_grad`, optim_cond.py:428-447, with `maybe_flatten_grad_else_raise`, utils.py:72-76 -/
def flatGrad (v : OCView) : Except PyErr (List ℝ) :=
  if v.params.all (fun p => p.2.isSome) then
    if v.params = [] then .error .runtimeError else .ok (v.params.map (fun p => p.2.getD [])).flatten
  else .error .valueError

/-- `maybe_flatten_grad_else_raise(dual_loss._lam)`: `NoneGradError`, a `ValueError` -/
def lamGrad (v : OCView) : Except PyErr ℝ :=
  match v.lamGrad with
  | some g => .ok g
  | none => .error .valueError

/-- difference of two flat vectors, optim_cond.py:269,280: one of them is stretched if it has length one, other lengths raise
`RuntimeError` -/
def vsub (a b : List ℝ) : Except PyErr (List ℝ) :=
  if a.length = b.length then .ok (List.zipWith (· - ·) a b)
  else match a, b with
    | a, [y] => .ok (a.map (· - y))
    | [x], b => .ok (b.map (x - ·))
    | _, _ => .error .runtimeError

/-- `check_metric`, optim_cond.py:366-404 -/
noncomputable def checkMetric (cfg : OCConfig) (new mem tol : ℝ) : Except PyErr Bool :=
  if cfg.mode = "rel".toList then .ok (decide (new < tol * mem))
  else if cfg.mode = "abs".toList then .ok (decide (new < tol))
  else .error .valueError

/-- `check_t`, optim_cond.py:212-293 -/
noncomputable def checkT (cfg : OCConfig) (s : TMem) (v : OCView) : Except PyErr Bool × TMem :=
  if cfg.tolTheta ≤ 0 then (.ok false, s)
  else if cfg.metric = "grad".toList then
    match flatGrad v with
    | .error e => (.error e, s)
    | .ok g =>
        match s.tGrad0 with
        | none => (.ok false, { s with tGrad0 := some (vnorm cfg.order g) })
        | some mem => (checkMetric cfg (vnorm cfg.order g) mem cfg.tolTheta, s)
  else if cfg.metric = "param".toList then
    match flatParam v with
    | .error e => (.error e, s)
    | .ok new =>
        match s.t0, s.deltaT1, s.tMem with
        | none, _, _ => (.ok false, { s with t0 := some new })
        | some t0, none, _ =>
            match vsub new t0 with
            | .error e => (.error e, { s with tMem := some new })
            | .ok d => (.ok false, { s with tMem := some new, deltaT1 := some (vnorm cfg.order d) })
        | some _, some _, none => (.error .assertionError, s)
        | some _, some d1, some mem =>
            match vsub new mem with
            | .error e => (.error e, { s with tMem := some new })
            | .ok d => (checkMetric cfg (vnorm cfg.order d) d1 cfg.tolTheta, { s with tMem := some new })
  else (.error .valueError, s)

/-- `check_l`, optim_cond.py:295-364 -/
noncomputable def checkL (cfg : OCConfig) (s : LMem) (v : OCView) : Except PyErr Bool × LMem :=
  if cfg.tolLambda ≤ 0 then (.ok false, s)
  else if cfg.metric = "grad".toList then
    match lamGrad v with
    | .error e => (.error e, s)
    | .ok g =>
        match s.lGrad0 with
        | none => (.ok false, { s with lGrad0 := some |g| })
        | some mem => (checkMetric cfg |g| mem cfg.tolLambda, s)
  else if cfg.metric = "param".toList then
    match s.l0, s.deltaL1, s.lMem with
    | none, _, _ => (.ok false, { s with l0 := some v.lamRef })
    | some l0, none, _ =>
        (.ok false, { s with lMem := some v.lamRef, deltaL1 := some |v.heap v.lamRef - v.heap l0| })
    | some _, some _, none => (.error .assertionError, s)
    | some _, some d1, some mem =>
        (checkMetric cfg |v.heap v.lamRef - v.heap mem| d1 cfg.tolLambda, { s with lMem := some v.lamRef })
  else (.error .valueError, s)

/-- `combine_intersect`/`combine_union` of both checks, evaluated left to right, optim_cond.py:16-21,191-200 -/
noncomputable def checkBoth (f : Bool → Bool → Bool) (cfg : OCConfig) (s : OCState) (v : OCView) : Except PyErr Bool × OCState :=
  match checkL cfg s.l v with
  | (.error e, l) => (.error e, { s with l := l })
  | (.ok a, l) =>
      match checkT cfg s.t v with
      | (.error e, t) => (.error e, ⟨l, t⟩)
      | (.ok b, t) => (.ok (f a b), ⟨l, t⟩)

/-- `check_all_params`, optim_cond.py:161-210 -/
noncomputable def checkAllParams (cfg : OCConfig) (s : OCState) (v : OCView) : Except PyErr Bool × OCState :=
  if cfg.monitoring ∈ L_AND_T then checkBoth (fun a b => a && b) cfg s v
  else if cfg.monitoring ∈ L_OR_T then checkBoth (fun a b => a || b) cfg s v
  else if cfg.monitoring ∈ JUST_L then ((checkL cfg s.l v).1, { s with l := (checkL cfg s.l v).2 })
  else if cfg.monitoring ∈ JUST_T then ((checkT cfg s.t v).1, { s with t := (checkT cfg s.t v).2 })
  else (.error .valueError, s)

/-- `check_iter`, optim_cond.py:406-415, after `max_iter` was overwritten by `n_iter`, lines 138-141 -/
def checkIter (maxIter it : ℤ) : Bool := if maxIter ≤ 0 then false else decide (maxIter ≤ it)

/-- `__call__`, optim_cond.py:121-159 -/
noncomputable def ocCall (cfg : OCConfig) (s : OCState) (v : OCView) (it : ℤ) : Except PyErr Bool × OCState :=
  match checkAllParams cfg s v with
  | (.ok cp, s) => (.ok (checkIter v.maxIter it || cp), s)
  | (.error e, s) => (.error e, s)

/-- memory before call `k` of a sequence of calls with iteration numbers 0, 1, 2, ... (as made by the training loops),
starting from memory `s` -/
noncomputable def ocState (cfg : OCConfig) (s : OCState) (v : ℕ → OCView) : ℕ → OCState
  | 0 => s
  | k + 1 => (ocCall cfg (ocState cfg s v k) (v k) k).2

/-- outcome of call `k` -/
noncomputable def ocResult (cfg : OCConfig) (s : OCState) (v : ℕ → OCView) (k : ℕ) : Except PyErr Bool :=
  (ocCall cfg (ocState cfg s v k) (v k) k).1

end Skwdro
