import Verif.Model.OptCond

/-! Vocabulary for statements about optimality conditions. -/

namespace Skwdro.Spec

/-- iteration numbers stay within the schedule, as in the training loops -/
def InLoop (v : ℕ → OCView) : Prop := ∀ k, (v k).maxIter ≤ 0 ∨ (k : ℤ) < (v k).maxIter

/-- the call sees gradient `G` of the primal parameters (at least one parameter, all gradients populated, concatenated) -/
def SeesGrad (v : OCView) (G : List ℝ) : Prop :=
  v.params ≠ [] ∧ ∃ gs : List (List ℝ), v.params.map Prod.snd = gs.map some ∧ G = gs.flatten

/-- the call sees primal parameters `T` (at least one parameter, concatenated) -/
def SeesParam (v : OCView) (T : List ℝ) : Prop := v.params ≠ [] ∧ T = (v.params.map Prod.fst).flatten

/-- the stopping criterion: relative to a reference, or absolute -/
def Below (mode : PyStr) (x ref tol : ℝ) : Prop :=
  (mode = "rel".toList ∧ x < tol * ref) ∨ (mode = "abs".toList ∧ x < tol)

/-- documented modes -/
def IsMode (mode : PyStr) : Prop := mode = "rel".toList ∨ mode = "abs".toList

/-- documented metrics -/
def IsMetric (metric : PyStr) : Prop := metric = "grad".toList ∨ metric = "param".toList

/-- the documented spellings of each setting -/
def bothNames : List String := ["both", "theta_and_lambda", "t&l", "lambda_and_theta", "l&t"]
def oneNames : List String := ["one", "theta_or_lambda", "tUl", "lambda_or_theta", "lUt"]
def thetaNames : List String := ["theta", "t"]
def lambdaNames : List String := ["lambda", "l"]

/-- the condition watches the primal parameters / the multiplier: by its setting, and with a positive tolerance -/
def WatchesTheta (cfg : OCConfig) : Prop :=
  0 < cfg.tolTheta ∧ ∃ n ∈ bothNames ++ oneNames ++ thetaNames, cfg.monitoring = n.toList
def WatchesLambda (cfg : OCConfig) : Prop :=
  0 < cfg.tolLambda ∧ ∃ n ∈ bothNames ++ oneNames ++ lambdaNames, cfg.monitoring = n.toList

/-- a documented setting -/
def IsSetting (m : PyStr) : Prop := ∃ n ∈ bothNames ++ oneNames ++ thetaNames ++ lambdaNames, m = n.toList

/-- what the condition watches can be measured at this call, the parameters having `n` coordinates: gradients of what is watched are
populated (gradient metric); there is at least one parameter if parameters are watched -/
def Measurable (cfg : OCConfig) (n : ℕ) (v : OCView) : Prop :=
  (WatchesTheta cfg → (cfg.metric = "grad".toList → ∃ G, SeesGrad v G) ∧
    (cfg.metric = "param".toList → ∃ T, SeesParam v T ∧ T.length = n)) ∧
  (WatchesLambda cfg → cfg.metric = "grad".toList → v.lamGrad ≠ none)

end Skwdro.Spec
