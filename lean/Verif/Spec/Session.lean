import Verif.Model.Session

/-! Vocabulary for statements about programs using several estimators. -/

namespace Skwdro.Spec

/-- the number written by a value given for the radius -/
inductive Writes : RhoArg → Radius → Prop
  | int (n : ℤ) : Writes (.int n) (.num n)
  | float (r : Radius) : Writes (.float r) r
  | text (r : Radius) : Writes (.text (some r)) r

/-- name of a keyword -/
def nameOf : Setting → String
  | .rho _ => "rho"
  | .cost _ => "cost"
  | .solver _ => "solver"
  | .l2_reg _ => "l2_reg"
  | .fit_intercept _ => "fit_intercept"
  | .solver_reg _ => "solver_reg"
  | .sampler_reg _ => "sampler_reg"
  | .n_zeta_samples _ => "n_zeta_samples"
  | .random_state _ => "random_state"
  | .n_iter _ => "n_iter"
  | .k _ => "k"
  | .u _ => "u"
  | .kappa _ => "kappa"
  | .eta _ => "eta"
  | .alpha _ => "alpha"
  | .opt_cond _ => "opt_cond"

/-- `get_params` returns this value for this keyword -/
def Reads (e : EstObj) : Setting → Prop
  | .rho v => e.args.rho = v
  | .cost v => e.args.rest.cost = v
  | .solver v => e.args.rest.solver = v
  | .l2_reg v => e.args.rest.l2_reg = v
  | .fit_intercept v => e.args.rest.fit_intercept = v
  | .solver_reg v => e.args.rest.solver_reg = v
  | .sampler_reg v => e.args.rest.sampler_reg = v
  | .n_zeta_samples v => e.args.rest.n_zeta_samples = v
  | .random_state v => e.args.rest.random_state = v
  | .n_iter v => e.args.rest.n_iter = v
  | .k v => e.args.rest.k = v
  | .u v => e.args.rest.u = v
  | .kappa v => e.args.rest.kappa = v
  | .eta v => e.args.rest.eta = v
  | .alpha v => e.args.rest.alpha = v
  | .opt_cond v => e.cond = v

/-- arguments named in the constructors of each class (common ones first) -/
def argNames : EstKind → List String
  | .logistic | .linreg => ["rho", "cost", "solver", "solver_reg", "n_zeta_samples", "random_state", "n_iter", "opt_cond", "l2_reg",
      "fit_intercept", "sampler_reg"]
  | .weber => ["rho", "cost", "solver", "solver_reg", "n_zeta_samples", "random_state", "n_iter", "opt_cond", "l2_reg", "sampler_reg", "kappa"]
  | .portfolio => ["rho", "cost", "solver", "solver_reg", "n_zeta_samples", "random_state", "n_iter", "opt_cond", "fit_intercept", "eta", "alpha"]
  | .newsvendor => ["rho", "cost", "solver", "solver_reg", "n_zeta_samples", "random_state", "n_iter", "opt_cond", "l2_reg", "k", "u"]

/-- the arguments read after are those before, up to the python type of the radius, and except that a condition may stand for `None` -/
structure Kept (e e' : EstObj) : Prop where
  kind : e'.kind = e.kind
  rho : e'.args.rho = e.args.rho ∨ ∃ r, Writes e.args.rho r ∧ e'.args.rho = .float r
  rest : ∀ v, (∀ x, v ≠ .rho x) → (∀ x, v ≠ .opt_cond x) → (Reads e v ↔ Reads e' v)
  cond : e'.cond = e.cond ∨ e.cond = none

/-- every estimator refers to a condition that exists -/
def Sound {G : Type} (s : Session G) : Prop := 5 ≤ s.conds.length ∧ ∀ (a : ℕ) (e : EstObj) (c : ℕ), s.ests[a]? = some e → e.cond = some c → c < s.conds.length

/-- no other estimator refers to the condition of estimator `a` -/
def Unshared {G : Type} (s : Session G) (a : ℕ) : Prop :=
  ∀ (b : ℕ) (e e' : EstObj) (c : ℕ), s.ests[a]? = some e → e.cond = some c → b ≠ a → s.ests[b]? = some e' → e'.cond ≠ some c

/-- an operation which neither changes estimator `a`, nor uses its condition `c` or gives it to another estimator -/
def LeavesAlone {Data : Type} (a : ℕ) (c : Option ℕ) : Op Data → Prop
  | .newCond _ => True
  | .construct e _ none => c ≠ some e.condRef
  | .construct _ _ (some c') => c = none ∨ c' ≠ c
  | .setParams b vs => b ≠ a ∧ ∀ c', .opt_cond (some c') ∈ vs → c ≠ some c'
  | .clone _ => True
  | .fit b _ => b ≠ a
  | .use c' _ => c ≠ some c'

/-- the outcome of training does not depend on torch's generator -/
def Seeded {G Data Res : Type} (F : Fits G Data Res) (e : EstKind) (P : EstParams) (D : Data) : Prop :=
  ∀ co g g', (F.run e P co D g).1 = (F.run e P co D g').1

end Skwdro.Spec
