import Verif.Model.Store
import Verif.Spec.Estimators

/-! Calls of `fit` on the same object, one after the other. -/

namespace Skwdro.Spec

/-- one call of `LinearRegression.fit`: settings and data at that time (any number of features), initial layer, training procedure -/
structure LinCall (G : Type) where
  n : ℕ
  d : ℕ
  grads : Autograd d
  train : InPlace d
  init : LinInit d
  P : EstParams
  X : Fin n → Fin d → ℝ
  y : Fin n → ℝ
  g : G

/-- its outcome -/
noncomputable def LinCall.outcome {G : Type} (ext : TorchExt G) (solve : Oracle) (c : LinCall G) : Except PyErr (Fitted c.d) :=
  linregFit ext c.grads solve c.train.trainer c.init c.P c.X c.y c.g

/-- its assignments -/
noncomputable def LinCall.run {G : Type} (ext : TorchExt G) (solve : Oracle) (c : LinCall G) : FitRun Unit :=
  linregRun ext c.grads solve c.train c.init c.P c.X c.y c.g

/-- training keeps the architecture -/
def LinCall.Good {G : Type} (c : LinCall G) : Prop := GoodTrainer c.train.trainer

/-- one call of `LogisticRegression.fit` -/
structure LogCall (G L : Type) where
  n : ℕ
  d : ℕ
  grads : Autograd d
  train : InPlace d
  init : LinInit d
  P : EstParams
  X : Fin n → Fin d → ℝ
  y : Fin n → L
  g : G

noncomputable def LogCall.outcome {G L : Type} [LinearOrder L] (ext : TorchExt G) (solve : Oracle) (c : LogCall G L) :
    Except PyErr (LogFitted L c.d) := logisticFit ext c.grads solve c.train.trainer c.init c.P c.X c.y c.g

noncomputable def LogCall.run {G L : Type} [LinearOrder L] (ext : TorchExt G) (solve : Oracle) (c : LogCall G L) : FitRun L :=
  logisticRun ext c.grads solve c.train c.init c.P c.X c.y c.g

def LogCall.Good {G L : Type} (c : LogCall G L) : Prop := GoodTrainer c.train.trainer ∧ GoodInit c.init

/-- one call of `NewsVendor.fit` -/
structure NvCall (G : Type) where
  n : ℕ
  d : ℕ
  grads : Autograd 1
  train : InPlace 1
  theta0 : ℝ
  P : EstParams
  X : Fin n → Fin d → ℝ
  g : G

noncomputable def NvCall.outcome {G : Type} (ext : TorchExt G) (solve : Oracle) (c : NvCall G) : Except PyErr (Fitted 1) :=
  newsvendorFit ext c.grads solve c.train.trainer c.theta0 c.P c.X c.g

noncomputable def NvCall.run {G : Type} (ext : TorchExt G) (solve : Oracle) (c : NvCall G) : FitRun Unit :=
  newsvendorRun ext c.grads solve c.train c.theta0 c.P c.X c.g

def NvCall.Good {G : Type} (c : NvCall G) : Prop := GoodTrainer c.train.trainer

/-- one call of `Portfolio.fit` -/
structure PfCall (G : Type) where
  n : ℕ
  m : ℕ
  J : ℕ
  grads : Autograd m
  train : InPlace m
  p0 : Portfolio
  P : EstParams
  C : Fin J → Fin m → ℝ
  D : Fin J → ℝ
  X : Fin n → Fin m → ℝ
  g : G

noncomputable def PfCall.outcome {G : Type} (ext : TorchExt G) (solve : Oracle) (c : PfCall G) : Except PyErr (Fitted c.m) :=
  portfolioFit ext c.grads solve c.train.trainer c.p0 c.P c.C c.D c.X c.g

noncomputable def PfCall.run {G : Type} (ext : TorchExt G) (solve : Oracle) (c : PfCall G) : FitRun Unit :=
  portfolioRun ext c.grads solve c.train c.p0 c.P c.C c.D c.X c.g

def PfCall.Good {G : Type} (c : PfCall G) : Prop := GoodTrainer c.train.trainer

/-- one call of `Weber.fit` -/
structure WebCall (G : Type) where
  n : ℕ
  d : ℕ
  grads : Autograd d
  train : InPlace d
  pos0 : Fin d → ℝ
  P : EstParams
  X : Fin n → Fin d → ℝ
  w : Fin n → ℝ
  g : G

noncomputable def WebCall.outcome {G : Type} (ext : TorchExt G) (c : WebCall G) : Except PyErr (Fitted c.d) :=
  weberFit ext c.grads c.train.trainer c.pos0 c.P c.X c.w c.g

noncomputable def WebCall.run {G : Type} (ext : TorchExt G) (c : WebCall G) : FitRun Unit :=
  weberRun ext c.grads c.train c.pos0 c.P c.X c.w c.g

def WebCall.Good {G : Type} (c : WebCall G) : Prop := GoodTrainer c.train.trainer

/-- a new estimator -/
def newStore {L : Type} : Store L := {}

/-- the estimator after calls of `fit`, whether they returned or raised -/
def replay {L : Type} (s : Store L) (runs : List (FitRun L)) : Store L := runs.foldl Store.after s

end Skwdro.Spec
