import Verif.Model.WrapProblem
import Verif.Lemmas.Tensor

/-! Inversion of successful `robustify` calls. -/

namespace Skwdro
variable {G : Type} {ext : TorchExt G}

/-- the object returned by `dualize_primal_loss` -/
noncomputable def dualOf (a : DualizeArgs) (cost : CostR) (imp : Bool) (s : Sampler) : DualLoss :=
  { primal := a.wloss.value
    grads := a.grads
    cost := cost
    rho := a.rho
    epsilon := (expertEpsilon a.rho cost.power a.epsilon EPSILON_SIGMA_FACTOR SIGMA_FACTOR).getD 0
    lam := initialLam a.rho
    reduction := reductionAttr a.reduction
    ermMode := false
    impSamp := imp
    sampler := some s
    hasLabels := a.xi_labels.isSome
    nSamples := a.n_samples }

theorem dualize_ok {a : DualizeArgs} {g g' : G} {D : DualLoss} (h : dualize ext a g = .ok (D, g')) :
    ∃ parsed obj c s, parse_code_torch a.cost_spec a.xi_labels.isSome = .ok parsed ∧
      cost_from_parse_torch parsed = .ok obj ∧ obj.toReal = some c ∧
      dualizeSampler ext c a.xi a.xi_labels (expertSigma a.rho a.sigma SIGMA_FACTOR) a.seed g = .ok (s, g') ∧
      D = dualOf a c (decideOnImpsamp a.imp_samp parsed) s := by
  unfold dualize at h
  cases hp : parse_code_torch a.cost_spec a.xi_labels.isSome with
  | error e => simp [hp] at h
  | ok parsed =>
  cases ho : cost_from_parse_torch parsed with
  | error e => simp [hp, ho] at h
  | ok obj =>
  cases hr : obj.toReal with
  | none => simp [hp, ho, hr] at h
  | some c =>
  simp only [hp, ho, hr, ok_bind] at h
  cases hs : dualizeSampler ext c a.xi a.xi_labels (expertSigma a.rho a.sigma SIGMA_FACTOR) a.seed g with
  | error e => simp [hs] at h
  | ok sg =>
    obtain ⟨s, g1⟩ := sg
    simp only [hs, ok_bind, Except.ok.injEq, Prod.mk.injEq] at h
    obtain ⟨rfl, rfl⟩ := h
    exact ⟨parsed, obj, c, s, rfl, ho, hr, hs, rfl⟩

end Skwdro
