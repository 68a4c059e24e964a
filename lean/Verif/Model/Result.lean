import Verif.Model.Basic

/-!
# Legacy solver results (`/repo/skwdro/solvers/result.py`)
-/

namespace Skwdro

/-- attribute names: the ones occurring in the code, those python treats specially, and all others (whose spelling is any string
different from these) -/
inductive AName
  | coef | intercept | dualVar | robustLoss | self | iterAttrs | cls | dict | weakref
  | other (s : PyStr)
deriving DecidableEq

/-- keys of a python dictionary: strings or anything else -/
inductive PyKey
  | str (s : AName)
  | other (n : Nat)
deriving DecidableEq

/-- `SolverResult`: attributes (values in `V`, an `Option` being `None` when absent) and the names iterated over.
Simplifications: attributes are the instance attributes; `_iter_attrs` is a snapshot of the keys (the code keeps a live view of
the dictionary, which nobody else holds when a solver returns a fresh dictionary). -/
structure SolverResult (V : Type) where
  attrs : AName → Option (Option V)
  iterAttrs : List AName

/-- lookup in a dictionary with string keys -/
def dictGet {V : Type} (d : List (AName × V)) (k : AName) : Option V := (d.find? fun e => e.1 = k).map Prod.snd

/-- attributes the instance dictionary cannot hold (data descriptors of `object`); simplification: always refused -/
def descriptors : List AName := [.cls, .dict, .weakref]

/-- `SolverResult.__init__(coef=None, intercept=None, dual_var=None, robust_loss=None, _iter_attrs=..., **kwargs)`, lines 6-14,
called as `SolverResult(**d, _iter_attrs=it)`: keys `self` and `_iter_attrs` clash with the arguments already passed -/
def SolverResult.init {V : Type} (d : List (AName × Option V)) (it : List AName) : Except PyErr (SolverResult V) :=
  if (dictGet d .self).isSome ∨ (dictGet d .iterAttrs).isSome then .error .typeError
  else if ∃ e ∈ d, e.1 ∈ descriptors then .error .typeError
  else
    let named : List AName := [AName.coef, .intercept, .dualVar, .robustLoss]
    .ok { attrs := fun k => match dictGet d k with
                            | some v => some v
                            | none => if k ∈ named then some none else none
          iterAttrs := it }

/-- `list(result)`, lines 16-20: `getattr` of every name -/
def SolverResult.toList {V : Type} (r : SolverResult V) : Except PyErr (List (Option V)) :=
  r.iterAttrs.mapM fun a => match r.attrs a with
    | some v => .ok v
    | none => .error .attributeError

/-- what a legacy solver returns -/
inductive Legacy (V : Type)
  | result (r : SolverResult V)
  | tuple (t : List (Option V))
  | dict (d : List (PyKey × Option V))
  | other

/-- string keys of a dictionary; `**d` refuses other keys -/
def strKeys {V : Type} : List (PyKey × Option V) → Except PyErr (List (AName × Option V))
  | [] => .ok []
  | (.str s, v) :: d => (strKeys d).map ((s, v) :: ·)
  | (.other _, _) :: _ => .error .typeError

/-- the dictionary built from a tuple, lines 35-42 -/
def tupleDict {V : Type} : List (Option V) → List (AName × Option V)
  | [a] => [(.coef, a)]
  | [a, b] => [(.coef, a), (.dualVar, b)]
  | [a, b, c] => [(.coef, a), (.intercept, b), (.dualVar, c)]
  | [a, b, c, e] => [(.coef, a), (.intercept, b), (.dualVar, c), (.robustLoss, e)]
  | _ => []

/-- the wrapper of `wrap_solver_result`, lines 28-47 -/
def wrapResult {V : Type} : Legacy V → Except PyErr (SolverResult V)
  | .result r => .ok r
  | .tuple t =>
    if 1 ≤ t.length then
      if t.length ≤ 4 then SolverResult.init (tupleDict t) ((tupleDict t).map Prod.fst) else .error .assertionError
    else .error .assertionError
  | .dict d => do
    let d ← strKeys d
    SolverResult.init d (d.map Prod.fst)
  | .other => .error .runtimeError

end Skwdro
