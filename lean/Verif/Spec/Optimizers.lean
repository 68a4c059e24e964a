import Verif.Model.Optimizers

/-! What hybrid optimizers are documented to do, and cosine annealing. -/

namespace Skwdro.Spec

/-- the schedulers of a composite optimizer, if any, are not over an empty number of iterations -/
def Scheduled {S : Type} (c : Composite S) : Prop := (∀ k ∈ c.cParams, k.tMax ≠ 0) ∧ ∀ k ∈ c.cLam, k.tMax ≠ 0

/-- an inner optimizer whose learning rate is only changed by setting it -/
def KeepsRate {S : Type} (o : InnerOpt S) : Prop := (∀ p g s, o.lr (o.step p g s).2 = o.lr s) ∧ ∀ x s, o.lr (o.setLr x s) = x

/-- cosine annealing over `T` iterations, as documented: share of the initial learning rate in use after `k` iterations, from one
to zero -/
noncomputable def annealed (T : ℤ) (k : ℕ) : ℝ := (1 + Real.cos (Real.pi * k / T)) / 2

/-- values of a tensor after a plain gradient step of rate `lr` under a rule -/
noncomputable def ruleStep (lr : ℝ) (rule : Option Rule) (x g : List ℝ) : List ℝ :=
  match rule with
  | none | some .bound => List.zipWith (fun x d => x - lr * (if rule = some .bound then max (-100) (min 100 d) else d)) x g
  | some .mwu => List.zipWith (fun x d => x * Real.exp (-lr * d)) x g
  | some .mwuSimplex =>
    let y := List.zipWith (fun x d => x * Real.exp (-lr * d)) x g
    y.map (· / y.sum)
  | some .nonNeg => List.zipWith (fun x d => max 0 (x - lr * d)) x g
  | some .max => List.zipWith (fun x d => x + lr * d) x g

/-- at most one rule per group -/
def HSingle (gs : List HGroup) : Prop := ∀ g ∈ gs, ∃ r : Option Rule, g.rules = r.toList

/-- multiplicative groups hold positive values -/
def HPositive (gs : List HGroup) : Prop :=
  ∀ g ∈ gs, (Rule.mwu ∈ g.rules ∨ Rule.mwuSimplex ∈ g.rules) → ∀ p ∈ g.params, ∀ x ∈ p.val, 0 < x

/-- tensors whose gradients are to be clipped have gradients -/
def HReady (gs : List HGroup) : Prop := ∀ g ∈ gs, Rule.bound ∈ g.rules → ∀ p ∈ g.params, p.grad ≠ none

/-- what a group satisfies after a step -/
def HGood (g : HGroup) : Prop :=
  (g.rules = [.mwu] → ∀ p ∈ g.params, ∀ x ∈ p.val, 0 < x) ∧
  (g.rules = [.mwuSimplex] → ∀ p ∈ g.params, (∀ x ∈ p.val, 0 < x) ∧ (p.val ≠ [] → p.val.sum = 1)) ∧
  (g.rules = [.nonNeg] → ∀ p ∈ g.params, ∀ x ∈ p.val, 0 ≤ x)

/-- an inner optimizer that does not raise and keeps the rules of the groups -/
def KeepsRules (inner : List HGroup → Except PyErr Unit × List HGroup) : Prop :=
  ∀ gs, (inner gs).1 = .ok () ∧ (inner gs).2.map HGroup.rules = gs.map HGroup.rules

/-- new gradients between two steps (a backward pass, which may leave out some tensors): values and rules are left alone -/
def regrad (new : HParam → Option (List ℝ)) (gs : List HGroup) : List HGroup :=
  gs.map fun g => ⟨g.rules, g.params.map fun p => ⟨p.val, new p⟩⟩

/-- a sequence of steps, each one after its own backward pass and with its own inner optimizer -/
noncomputable def hybridRun : List ((List HGroup → Except PyErr Unit × List HGroup) × (HParam → Option (List ℝ))) → List HGroup →
    Except PyErr (List HGroup)
  | [], gs => .ok gs
  | s :: steps, gs =>
    match hybridStep s.1 (regrad s.2 gs) with
    | (.ok _, gs) => hybridRun steps gs
    | (.error e, _) => .error e

/-- one accepted step of hybrid SGD on a single tensor under a rule: with values `p` and gradient `g`, the values become `p'` -/
def StepsTo (lr : ℝ) (rule : Option Rule) {n : ℕ} (p g p' : Fin n → ℝ) : Prop :=
  ∃ gs, hybridStep (sgd lr) [⟨rule.toList, [⟨List.ofFn p, some (List.ofFn g)⟩]⟩] = (.ok (), gs) ∧ hvals gs = [[List.ofFn p']]

end Skwdro.Spec
