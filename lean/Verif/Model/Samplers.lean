import Verif.Model.Costs

/-!
# Samplers: `/repo/skwdro/base/samplers/torch/*.py`, `/repo/skwdro/distributions/dirac_distribution.py`

Randomness: torch's global generator is an explicit state of type `G`.
-/

namespace Skwdro

/-- torch as seen by the samplers (external): generator seeding, standard noise, factorisations and the log-density of
centred multivariate normal noise.  Nothing is assumed about these functions here. -/
structure TorchExt (G : Type) where
  /-- `torch.manual_seed` -/
  seed : ℤ → G
  /-- standard normal draws of a given shape -/
  stdNormal : G → List ℕ → Tensor ℝ × G
  /-- standard Laplace draws of a given shape -/
  stdLaplace : G → List ℕ → Tensor ℝ × G
  /-- Bernoulli draws of a given probability and shape -/
  bernoulli : G → ℝ → List ℕ → Tensor Bool × G
  /-- lower-triangular factor computed by `MultivariateNormal.__init__` for each keyword -/
  cholesky : Tensor ℝ → Tensor ℝ
  precisionToTril : Tensor ℝ → Tensor ℝ
  /-- whether the constraint `positive_definite` accepts a matrix -/
  posDef : Tensor ℝ → Bool := fun _ => true
  /-- log-density of `N(0, L L^T)` at a vector -/
  mvnLogDensity : Tensor ℝ → List ℝ → ℝ

variable {G : Type}

/-- `MultivariateNormal._unbroadcasted_scale_tril` (external) -/
def TorchExt.tril (ext : TorchExt G) : Covar → Tensor ℝ
  | .scaleTril l => l
  | .covariance c => ext.cholesky c
  | .precision q => ext.precisionToTril q

/-- `dist.mean`.  For the flip law: `-y + 2 y p`. -/
def Dist.mean : Dist → Tensor ℝ
  | .laplace l _ => l
  | .normal l _ => l
  | .dirac l _ => l
  | .mvn l _ => l
  | .flip p y => y.map (fun v => -v + 2 * v * p)

/-- numerical value of a scale.  Simplification: an infinite or NaN scale (label weight 0) is 0 here; statements about
drawn values are made for finite scales. -/
def scaleVal : XNum ℝ → ℝ
  | .fin x => x
  | _ => 0

/-- `L @ noise` for one row; entries of `L` are read inside its `(d,d)` shape. -/
def trilRow (l : Tensor ℝ) (row : List ℝ) : List ℝ :=
  (List.range row.length).map (fun r => ((List.range row.length).map (fun c => l.get [r, c] * row.getD c 0)).sum)

/-- matrix product applied to every last-dimension row of a noise tensor -/
def applyTril (l e : Tensor ℝ) : Tensor ℝ :=
  ⟨e.shape, fun i => (trilRow l (e.lastRow i.dropLast)).getD (i.getLastD 0) 0⟩

/-- `dist.rsample((n,))` (`sample` for the flip law), external torch code except for `Dirac`
(dirac_distribution.py:83-85): shape `(n,) + loc.shape`, value `loc + noise`, broadcast over the new dimension. -/
noncomputable def Dist.rsample (ext : TorchExt G) (g : G) (n : ℕ) : Dist → Tensor ℝ × G
  | .laplace l s =>
      let (e, g') := ext.stdLaplace g (n :: l.shape)
      (⟨n :: l.shape, fun i => l.get i.tail + scaleVal s * e.get i⟩, g')
  | .normal l s =>
      let (e, g') := ext.stdNormal g (n :: l.shape)
      (⟨n :: l.shape, fun i => l.get i.tail + scaleVal s * e.get i⟩, g')
  | .mvn l c =>
      let (e, g') := ext.stdNormal g (n :: l.shape)
      let Le := applyTril (ext.tril c) e
      (⟨n :: l.shape, fun i => l.get i.tail + Le.get i⟩, g')
  | .dirac l _ => (⟨n :: l.shape, fun i => l.get i.tail⟩, g)
  | .flip p y =>
      let (b, g') := ext.bernoulli g p (n :: y.shape)
      (⟨n :: y.shape, fun i => -(y.get i.tail) + 2 * y.get i.tail * (if b.get i then 1 else 0)⟩, g')

/-- log-density of a one-dimensional normal law (torch formula) -/
noncomputable def normalLP (s d : ℝ) : ℝ := -(d ^ 2) / (2 * s ^ 2) - Real.log s - Real.log (Real.sqrt (2 * Real.pi))

/-- log-density of a one-dimensional Laplace law (torch formula) -/
noncomputable def laplaceLP (s d : ℝ) : ℝ := -Real.log (2 * s) - |d| / s

/-- `dist.log_prob(value)`.  `Dirac.log_prob` (dirac_distribution.py:87-91) returns a single number for the whole tensor.
Simplification: the log-probability of the flip law is not modelled. -/
noncomputable def Dist.logProb (ext : TorchExt G) (value : Tensor ℝ) : Dist → Except PyErr (Tensor (XNum ℝ))
  | .laplace l s => Tensor.zipWith (fun v m => XNum.fin (laplaceLP (scaleVal s) (v - m))) value l
  | .normal l s => Tensor.zipWith (fun v m => XNum.fin (normalLP (scaleVal s) (v - m))) value l
  | .mvn l c => do
      let diff ← Tensor.zipWith (· - ·) value l
      .ok ⟨diff.shape.dropLast, fun i => XNum.fin (ext.mvnLogDensity (ext.tril c) (diff.lastRow i))⟩
  | .dirac l _ => do
      let diff ← Tensor.zipWith (fun v m => |v - m|) value l
      .ok (Tensor.scalar (if diff.toList.sum = 0 then XNum.fin 0 else XNum.ninf))
  | .flip _ _ => .error .notImplemented

/-- IEEE addition -/
noncomputable def XNum.add : XNum ℝ → XNum ℝ → XNum ℝ
  | .nan, _ => .nan
  | _, .nan => .nan
  | .pinf, .ninf => .nan
  | .ninf, .pinf => .nan
  | .pinf, _ => .pinf
  | _, .pinf => .pinf
  | .ninf, _ => .ninf
  | _, .ninf => .ninf
  | .fin a, .fin b => .fin (a + b)

/-- IEEE negation -/
noncomputable def XNum.neg : XNum ℝ → XNum ℝ
  | .nan => .nan
  | .pinf => .ninf
  | .ninf => .pinf
  | .fin a => .fin (-a)

noncomputable def XNum.sub (a b : XNum ℝ) : XNum ℝ := a.add b.neg

/-- IEEE sum of a list -/
noncomputable def xsum (l : List (XNum ℝ)) : XNum ℝ := l.foldr XNum.add (.fin 0)

/-- `BaseSampler._format_logprobs`, base_samplers.py:105-117 -/
noncomputable def formatLogprobs (ext : TorchExt G) (d : Dist) (data : Tensor ℝ) : Except PyErr (Tensor (XNum ℝ)) := do
  let lp ← d.logProb ext data
  if lp.dim = 3 then .ok (lp.reduceLast xsum) else .ok lp.unsqueezeLast

/-- which sampler class -/
inductive SamplerKind
  | noLabelsCost       -- cost_samplers.py:8-46
  | labeledCost        -- cost_samplers.py:49-98
  | normalNoLabels     -- newsvendor_sampler.py, portfolio_sampler.py (all three classes have the same body)
  | normalNormal       -- classif_sampler.py:8-79
  | normalId           -- classif_sampler.py:82-148
  | normalBernoulli    -- classif_sampler.py:151-230
deriving DecidableEq

/-- a sampler object: its class, seed, distributions, and the arguments it keeps for `reset_mean` -/
structure Sampler where
  kind : SamplerKind
  seed : Option ℤ
  data_s : Dist
  labels_s : Option Dist
  generating_cost : Option CostR := none
  sigma : Option ℝ := none
  p : Option ℝ := none

/-- `BaseSampler.__init__`, base_samplers.py:13-31: seeds the global generator when a seed is given. -/
def seedGlobal (ext : TorchExt G) (seed : Option ℤ) (g : G) : G :=
  match seed with
  | some s => ext.seed s
  | none => g

/-- `pt.eye(d) * sigma` -/
def eyeTimes (d : ℕ) (sigma : ℝ) : Tensor ℝ :=
  ⟨[d, d], fun i => if i.headD 0 = i.tail.headD 0 then 1 * sigma else 0 * sigma⟩

/-- `IsOptionalCovarianceSampler.init_covar`, base_samplers.py:226-257 (scalar `sigma` only) -/
def initCovar (d : ℕ) (sigma : Option ℝ) (tril prec cov : Option (Tensor ℝ)) : Except PyErr Covar :=
  match sigma, tril, cov, prec with
  | some s, _, _, _ => .ok (.scaleTril (eyeTimes d s))
  | none, some l, _, _ => .ok (.scaleTril l)
  | none, none, some c, _ => .ok (.covariance c)
  | none, none, none, some q => .ok (.precision q)
  | none, none, none, none => .error .valueError

/-- torch's constraint `lower_cholesky` (external): a lower triangular matrix with positive diagonal.  Simplifications: batches of
factors (more than two dimensions) are outside the model; the check of a factor without entries (points without coordinates) passes
here and is an `IndexError` of the reduction in torch.  Like torch, the check does not compare the size of the factor with the points. -/
def LowerCholesky (l : Tensor ℝ) : Prop :=
  l.dim = 2 ∧ ∀ r c, r < l.shape.headD 0 → c < l.shape.getLastD 0 → (r < c → l.get [r, c] = 0) ∧ (r = c → 0 < l.get [r, c])

/-- the covariance arguments accepted by `MultivariateNormal` (external: its argument validation, on by default) -/
def TorchExt.Accepts (ext : TorchExt G) : Covar → Prop
  | .scaleTril l => LowerCholesky l
  | .covariance m => m.dim = 2 ∧ ext.posDef m = true
  | .precision m => m.dim = 2 ∧ ext.posDef m = true

open Classical in
/-- `dst.MultivariateNormal(loc, **covar)` (external): `ValueError` on an invalid covariance argument.  A centre without
dimension already fails in `xi.size(-1)`; here after the choice of the covariance. -/
noncomputable def mkMvn (ext : TorchExt G) (loc : Tensor ℝ) (c : Covar) : Except PyErr Dist :=
  if loc.shape = [] then .error .indexError
  else if ext.Accepts c then .ok (.mvn loc c)
  else .error .valueError

/-- `t.size(-1)` -/
def lastSize (t : Tensor ℝ) : ℕ := t.shape.getLastD 1

/-- `NoLabelsCostSampler.__init__`, cost_samplers.py:9-38 -/
noncomputable def mkNoLabelsCost (ext : TorchExt G) (cost : CostR) (xi : Tensor ℝ) (sigma : Option ℝ)
    (seed : Option ℤ) (g : G) : Except PyErr (Sampler × G) := do
  let d ← samplerData cost xi sigma
  .ok ({ kind := .noLabelsCost, seed, data_s := d, labels_s := none, generating_cost := some cost, sigma },
    seedGlobal ext seed g)

/-- `LabeledCostSampler.__init__`, cost_samplers.py:50-86 -/
noncomputable def mkLabeledCost (ext : TorchExt G) (cost : CostR) (xi xi_labels : Tensor ℝ) (sigma : Option ℝ)
    (seed : Option ℤ) (g : G) : Except PyErr (Sampler × G) := do
  let sd ← samplerData cost xi sigma
  let sl ← samplerLabels cost (some xi_labels) sigma
  match sl with
  | none => .error .valueError
  | some sl =>
    .ok ({ kind := .labeledCost, seed, data_s := sd, labels_s := some sl, generating_cost := some cost, sigma },
      seedGlobal ext seed g)

/-- `NewsVendorNormalSampler.__init__` (newsvendor_sampler.py:12-47), `PortfolioNormalSampler.__init__`
(portfolio_sampler.py:11-47), `PortfolioLaplaceSampler.__init__` (portfolio_sampler.py:67-103): same body -/
noncomputable def mkNormalNoLabels (ext : TorchExt G) (xi : Tensor ℝ) (sigma : Option ℝ) (tril prec cov : Option (Tensor ℝ))
    (seed : Option ℤ) (g : G) : Except PyErr (Sampler × G) := do
  let c ← initCovar (lastSize xi) sigma tril prec cov
  let d ← mkMvn ext xi c
  .ok ({ kind := .normalNoLabels, seed, data_s := d, labels_s := none }, seedGlobal ext seed g)

/-- `ClassificationNormalNormalSampler.__init__`, classif_sampler.py:12-64 -/
noncomputable def mkNormalNormal (ext : TorchExt G) (xi xi_labels : Tensor ℝ) (sigma : Option ℝ)
    (tril prec cov : Option (Tensor ℝ)) (l_sigma : Option ℝ) (l_tril l_prec l_cov : Option (Tensor ℝ))
    (seed : Option ℤ) (g : G) : Except PyErr (Sampler × G) :=
  if xi.dim < 2 ∨ xi_labels.dim < 2 then .error .assertionError
  else do
    let c ← initCovar (lastSize xi) sigma tril prec cov
    let lc ← initCovar (lastSize xi_labels) l_sigma l_tril l_prec l_cov
    let d ← mkMvn ext xi c
    let ld ← mkMvn ext xi_labels lc
    .ok ({ kind := .normalNormal, seed, data_s := d, labels_s := some ld },
      seedGlobal ext seed g)

/-- `ClassificationNormalIdSampler.__init__`, classif_sampler.py:86-128 -/
noncomputable def mkNormalId (ext : TorchExt G) (xi xi_labels : Tensor ℝ) (sigma : Option ℝ) (tril prec cov : Option (Tensor ℝ))
    (seed : Option ℤ) (g : G) : Except PyErr (Sampler × G) := do
  let c ← initCovar (lastSize xi) sigma tril prec cov
  let d ← mkMvn ext xi c
  .ok ({ kind := .normalId, seed, data_s := d, labels_s := some (.dirac xi_labels 1) }, seedGlobal ext seed g)

/-- `ClassificationNormalBernouilliSampler.__init__`, classif_sampler.py:155-206 -/
noncomputable def mkNormalBernoulli (ext : TorchExt G) (p : ℝ) (xi xi_labels : Tensor ℝ) (sigma : Option ℝ)
    (tril prec cov : Option (Tensor ℝ)) (seed : Option ℤ) (g : G) : Except PyErr (Sampler × G) :=
  if 0 ≤ p ∧ p ≤ 1 then do
    let c ← initCovar (lastSize xi) sigma tril prec cov
    let d ← mkMvn ext xi c
    .ok ({ kind := .normalBernoulli, seed, data_s := d, labels_s := some (.flip p xi_labels), p := some p },
      seedGlobal ext seed g)
  else .error .assertionError

/-- `self.data_s._unbroadcasted_scale_tril` (AttributeError on laws without one) -/
def Dist.trilAttr (ext : TorchExt G) : Dist → Except PyErr (Tensor ℝ)
  | .mvn _ c => .ok (ext.tril c)
  | _ => .error .attributeError

/-- `reset_mean`: cost_samplers.py:40-46, 88-98; newsvendor_sampler.py:49-60; portfolio_sampler.py:49-60, 105-116;
classif_sampler.py:66-79, 136-148, 217-230 -/
noncomputable def Sampler.resetMean (ext : TorchExt G) (s : Sampler) (xi : Tensor ℝ) (xi_labels : Option (Tensor ℝ))
    (g : G) : Except PyErr (Sampler × G) :=
  match s.kind, xi_labels with
  | .noLabelsCost, _ =>
      match s.generating_cost with
      | some c => mkNoLabelsCost ext c xi s.sigma s.seed g
      | none => .error .attributeError
  | .labeledCost, some y =>
      match s.generating_cost with
      | some c => mkLabeledCost ext c xi y s.sigma s.seed g
      | none => .error .attributeError
  | .normalNoLabels, _ => do
      let l ← s.data_s.trilAttr ext
      mkNormalNoLabels ext xi none (some l) none none s.seed g
  | .normalNormal, some y => do
      let l ← s.data_s.trilAttr ext
      match s.labels_s with
      | some ls => do
          let ll ← ls.trilAttr ext
          mkNormalNormal ext xi y none (some l) none none none (some ll) none none s.seed g
      | none => .error .attributeError
  | .normalId, some y => do
      let l ← s.data_s.trilAttr ext
      mkNormalId ext xi y none (some l) none none s.seed g
  | .normalBernoulli, some y =>
      match s.p with
      | some p => do
          let l ← s.data_s.trilAttr ext
          mkNormalBernoulli ext p xi y none (some l) none none s.seed g
      | none => .error .attributeError
  | _, none => .error .assertionError

/-- `sampler.sample(n)`: base_samplers.py:133-134 (no labels), 182-191 (labelled), classif_sampler.py:130-134 (labels of
`normalId` are the batch of labels expanded), 208-215 (flip law) -/
noncomputable def Sampler.sample (ext : TorchExt G) (s : Sampler) (n : ℕ) (g : G) :
    Tensor ℝ × Option (Tensor ℝ) × G :=
  let (zeta, g1) := s.data_s.rsample ext g n
  match s.labels_s with
  | none => (zeta, none, g1)
  | some ls =>
    let (zl, g2) := ls.rsample ext g1 n
    (zeta, some zl, g2)

/-- `sampler.produces_labels`, base_samplers.py:136-138, 193-195 -/
def Sampler.producesLabels (s : Sampler) : Bool := s.labels_s.isSome

/-- `sampler.log_prob`: base_samplers.py:140-146, 197-206 -/
noncomputable def Sampler.logProb (ext : TorchExt G) (s : Sampler) (zeta : Tensor ℝ) (zeta_labels : Option (Tensor ℝ)) :
    Except PyErr (Tensor (XNum ℝ)) :=
  match s.labels_s, zeta_labels with
  | none, none => formatLogprobs ext s.data_s zeta
  | none, some _ => .error .assertionError
  | some _, none => .error .assertionError
  | some ls, some zl => do
      let a ← formatLogprobs ext s.data_s zeta
      let b ← formatLogprobs ext ls zl
      Tensor.zipWith XNum.add a b

/-- `sampler.log_prob_recentered`: base_samplers.py:149-157, 208-220 (the labelled version does not use `xi`) -/
noncomputable def Sampler.logProbRecentered (ext : TorchExt G) (s : Sampler) (xi : Tensor ℝ)
    (xi_labels : Option (Tensor ℝ)) (zeta : Tensor ℝ) (zeta_labels : Option (Tensor ℝ)) :
    Except PyErr (Tensor (XNum ℝ)) :=
  match s.labels_s with
  | none =>
      match xi_labels, zeta_labels with
      | none, none => do
          let d ← Tensor.zipWith (· - ·) zeta xi
          let d ← Tensor.zipWith (· + ·) d s.data_s.mean
          formatLogprobs ext s.data_s d
      | _, _ => .error .assertionError
  | some ls =>
      match xi_labels, zeta_labels with
      | some _, some zl => do
          let a ← formatLogprobs ext s.data_s zeta
          let b ← formatLogprobs ext ls zl
          Tensor.zipWith XNum.add a b
      | _, _ => .error .assertionError

end Skwdro
