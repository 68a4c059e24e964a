import Verif.Props.Optimizers

/-! # C114: stepping a hybrid optimizer the way torch's optimizers are stepped -/

namespace Skwdro
open Spec

section C114

/-- a loss of a single number, with its derivative, as a closure over one group holding one tensor of one number -/
def exOneLoss (phi dphi : ℝ → ℝ) (v : List (List (List ℝ))) : ℝ × List (List (Option (List ℝ))) :=
  (phi ((v.flatten.flatten).headD 0), [[some [dphi ((v.flatten.flatten).headD 0)]]])

theorem pre_id {gs : List HGroup} (h : ∀ g ∈ gs, g.rules = [] ∨ g.rules = [.nonNeg]) : applyRules Rule.hasPre Rule.pre gs = (.ok (), gs) := by
  have := applyRules_ok (sel := Rule.hasPre) (rule := Rule.pre) (gs := gs) (F := id) fun g hg => applyToGroup_none (by
    rcases h g hg with h | h <;> rw [h] <;> rfl)
  rwa [List.map_id] at this

theorem closureGrads_rules {f : List (List (List ℝ)) → ℝ × List (List (Option (List ℝ)))} {gs : List HGroup} :
    ∀ g ∈ closureGrads f gs, ∃ g' ∈ gs, g.rules = g'.rules := by
  intro g hg
  unfold closureGrads at hg
  generalize (f (hvals gs)).2 = ds at hg
  induction gs generalizing ds with
  | nil => simp at hg
  | cons a gs ih =>
    cases ds with
    | nil => simp at hg
    | cons d ds =>
      simp only [List.zipWith_cons_cons, List.mem_cons] at hg
      rcases hg with rfl | hg
      · exact ⟨a, by simp, rfl⟩
      · obtain ⟨g', h1, h2⟩ := ih ds hg
        exact ⟨g', List.mem_cons_of_mem _ h1, h2⟩

/-- **C114** (what holds) Groups without rule or kept non-negative: stepping with a closure is calling the closure, then stepping.
(Missing: the other rules; the loss returned by the closure.) -/
theorem C114_closure_partial (lr : ℝ) (f : List (List (List ℝ)) → ℝ × List (List (Option (List ℝ)))) {gs : List HGroup}
    (h : ∀ g ∈ gs, g.rules = [] ∨ g.rules = [.nonNeg]) :
    (hybridClosureStep lr f gs).2 = (hybridStep (sgd lr) (closureGrads f gs)).2 ∧
      ∀ e, (hybridClosureStep lr f gs).1 ≠ .error e := by
  have h' : ∀ g ∈ closureGrads f gs, g.rules = [] ∨ g.rules = [.nonNeg] := by
    intro g hg
    obtain ⟨g', h1, h2⟩ := closureGrads_rules g hg
    rw [h2]; exact h g' h1
  have hs : HSingle (closureGrads f gs) := by
    intro g hg
    rcases h' g hg with e | e
    · exact ⟨none, e⟩
    · exact ⟨some .nonNeg, e⟩
  have hs2 : HSingle (sgd lr (closureGrads f gs)).2 := single_of_rules ((sgd_keeps lr _).2) hs
  constructor
  · simp only [hybridClosureStep, hybridStep, pre_id h, pre_id h', sgdClosure, Except.map]
    rcases hh : sgd lr (closureGrads f gs) with ⟨r, gs'⟩
    cases r <;> rfl
  · intro e
    simp only [hybridClosureStep, hybridStep, pre_id h, sgdClosure, Except.map]
    have hok : (sgd lr (closureGrads f gs)).1 = .ok () := rfl
    simp only [hok, post_ok hs2]
    simp

/-- non-vacuity: a parameter kept non-negative, with a quadratic loss -/
example := C114_closure_partial 1 (exOneLoss (fun x => x ^ 2 / 2) id) (gs := [⟨[.nonNeg], [⟨[3], none⟩]⟩]) (by simp)

/-- **C114** (violated) The value of the closure is never returned: an accepted step returns `None`, for all groups and losses. -/
theorem C114_loss_false (lr : ℝ) (f : List (List (List ℝ)) → ℝ × List (List (Option (List ℝ)))) (gs : List HGroup) {r : Option ℝ}
    (h : (hybridClosureStep lr f gs).1 = .ok r) : r = none ∧ (sgdClosure lr f gs).1 = .ok (some (f (hvals gs)).1) := by
  refine ⟨?_, rfl⟩
  unfold hybridClosureStep at h
  dsimp only at h
  generalize hybridStep _ gs = q at h
  rcases q with ⟨q | q, gs'⟩
  · cases h
  · simp only [Except.map, Except.ok.injEq] at h; exact h.symm

/-- one number under a rule: the result of stepping with a closure -/
theorem closure_mwu (lr : ℝ) (phi dphi : ℝ → ℝ) (x : ℝ) (hx : 0 < x) (g : Option (List ℝ)) :
    hvals (hybridClosureStep lr (exOneLoss phi dphi) [⟨[.mwu], [⟨[x], g⟩]⟩]).2 = [[[x * Real.exp (-lr * dphi (Real.log x))]]] := by
  have hp : ∀ a ∈ [x], 0 < a := by simpa using hx
  simp only [hybridClosureStep, hybridStep, applyRules, applyToGroup, Rule.hasPre, Rule.hasPost, List.filter, applyToParams, Rule.pre,
    if_pos hp, sgdClosure, closureGrads, hvals, exOneLoss, sgd, Rule.post, List.map_cons, List.map_nil, List.zipWith_cons_cons,
    List.zipWith_nil_right, List.flatten_cons, List.flatten_nil, List.append_nil, List.headD_cons, Except.map]
  rw [sub_eq_add_neg, Real.exp_add, Real.exp_log hx, neg_mul]

/-- **C114** (violated) Multiplicative weights: the closure sees the logarithms of the parameters.  Stepping with a closure uses the
derivative of the loss at `log x`; calling the closure and then stepping uses the derivative at `x`.  For the loss `x^2 / 2` at
one, the first does not move whatever the learning rate. -/
theorem C114_mwu_false (lr : ℝ) (phi dphi : ℝ → ℝ) (x : ℝ) (hx : 0 < x) (g : Option (List ℝ)) :
    hvals (hybridClosureStep lr (exOneLoss phi dphi) [⟨[.mwu], [⟨[x], g⟩]⟩]).2 = [[[x * Real.exp (-lr * dphi (Real.log x))]]] ∧
    hvals (hybridStep (sgd lr) (closureGrads (exOneLoss phi dphi) [⟨[.mwu], [⟨[x], g⟩]⟩])).2 = [[[x * Real.exp (-lr * dphi x)]]] ∧
    (lr ≠ 0 → hvals (hybridClosureStep lr (exOneLoss (fun x => x ^ 2 / 2) id) [⟨[.mwu], [⟨[1], g⟩]⟩]).2 ≠
      hvals (hybridStep (sgd lr) (closureGrads (exOneLoss (fun x => x ^ 2 / 2) id) [⟨[.mwu], [⟨[1], g⟩]⟩])).2) := by
  have key : ∀ (phi dphi : ℝ → ℝ) (x : ℝ), 0 < x →
      hvals (hybridStep (sgd lr) (closureGrads (exOneLoss phi dphi) [⟨[.mwu], [⟨[x], g⟩]⟩])).2 = [[[x * Real.exp (-lr * dphi x)]]] := by
    intro phi dphi x hx
    have hp : ∀ a ∈ [x], 0 < a := by simpa using hx
    simp only [hybridStep, applyRules, applyToGroup, Rule.hasPre, Rule.hasPost, List.filter, applyToParams, Rule.pre,
      if_pos hp, closureGrads, hvals, exOneLoss, sgd, Rule.post, List.map_cons, List.map_nil, List.zipWith_cons_cons,
      List.zipWith_nil_right, List.flatten_cons, List.flatten_nil, List.append_nil, List.headD_cons]
    rw [sub_eq_add_neg, Real.exp_add, Real.exp_log hx, neg_mul]
  refine ⟨closure_mwu lr phi dphi x hx g, key phi dphi x hx, fun hl => ?_⟩
  rw [closure_mwu lr _ _ 1 one_pos g, key _ _ 1 one_pos]
  simp only [Real.log_one, id, mul_zero, Real.exp_zero, mul_one, one_mul, ne_eq, List.cons.injEq, and_true]
  intro h
  exact hl (neg_eq_zero.1 ((Real.exp_eq_one_iff _).1 h.symm))

example := C114_mwu_false (1 / 10) (fun x => x ^ 2) (fun x => 2 * x) 3 (by norm_num) none

/-- **C114** (violated) Maximisation: the closure sees the opposite of the parameters.  For an even loss, such as `x^2 / 2`, stepping
with a closure therefore descends where it should ascend. -/
theorem C114_max_false (lr : ℝ) (phi dphi : ℝ → ℝ) (x : ℝ) (g : Option (List ℝ)) :
    hvals (hybridClosureStep lr (exOneLoss phi dphi) [⟨[.max], [⟨[x], g⟩]⟩]).2 = [[[x + lr * dphi (-x)]]] ∧
    hvals (hybridStep (sgd lr) (closureGrads (exOneLoss phi dphi) [⟨[.max], [⟨[x], g⟩]⟩])).2 = [[[x + lr * dphi x]]] ∧
    ((∀ y, dphi (-y) = -dphi y) →
      hvals (hybridClosureStep lr (exOneLoss phi dphi) [⟨[.max], [⟨[x], g⟩]⟩]).2 =
        hvals (hybridClosureStep lr (exOneLoss phi dphi) [⟨[], [⟨[x], g⟩]⟩]).2) := by
  have k1 : hvals (hybridClosureStep lr (exOneLoss phi dphi) [⟨[.max], [⟨[x], g⟩]⟩]).2 = [[[x + lr * dphi (-x)]]] := by
    simp only [hybridClosureStep, hybridStep, applyRules, applyToGroup, Rule.hasPre, Rule.hasPost, List.filter, applyToParams, Rule.pre,
      sgdClosure, closureGrads, hvals, exOneLoss, sgd, Rule.post, List.map_cons, List.map_nil, List.zipWith_cons_cons,
      List.zipWith_nil_right, List.flatten_cons, List.flatten_nil, List.append_nil, List.headD_cons, Except.map]
    congr 3
    ring
  refine ⟨k1, ?_, fun h => ?_⟩
  · simp only [hybridStep, applyRules, applyToGroup, Rule.hasPre, Rule.hasPost, List.filter, applyToParams, Rule.pre,
      closureGrads, hvals, exOneLoss, sgd, Rule.post, List.map_cons, List.map_nil, List.zipWith_cons_cons,
      List.zipWith_nil_right, List.flatten_cons, List.flatten_nil, List.append_nil, List.headD_cons]
    congr 3
    ring
  · rw [k1, h]
    simp only [hybridClosureStep, hybridStep, applyRules, applyToGroup, List.filter,
      sgdClosure, closureGrads, hvals, exOneLoss, sgd, List.map_cons, List.map_nil, List.zipWith_cons_cons,
      List.zipWith_nil_right, List.flatten_cons, List.flatten_nil, List.append_nil, List.headD_cons, Except.map]
    congr 3
    ring

example := (C114_max_false (1 / 10) (fun x => x ^ 2 / 2) id 3 none).2.2 (fun _ => rfl)

/-- **C114** (violated) Clipping: the gradients present before the step are clipped, then the closure replaces them by new ones,
which are followed unclipped; and without previous gradients the step is refused. -/
theorem C114_bound_false (lr : ℝ) (phi dphi : ℝ → ℝ) (x : ℝ) (g : List ℝ) :
    hvals (hybridClosureStep lr (exOneLoss phi dphi) [⟨[.bound], [⟨[x], some g⟩]⟩]).2 = [[[x - lr * dphi x]]] ∧
    hvals (hybridStep (sgd lr) (closureGrads (exOneLoss phi dphi) [⟨[.bound], [⟨[x], some g⟩]⟩])).2 =
      [[[x - lr * max (-100) (min 100 (dphi x))]]] ∧
    (hybridClosureStep lr (exOneLoss phi dphi) [⟨[.bound], [⟨[x], none⟩]⟩]).1 = .error .attributeError := by
  refine ⟨?_, ?_, ?_⟩ <;>
    simp only [hybridClosureStep, hybridStep, applyRules, applyToGroup, Rule.hasPre, Rule.hasPost, List.filter, applyToParams, Rule.pre,
      sgdClosure, closureGrads, hvals, exOneLoss, sgd, List.map_cons, List.map_nil, List.zipWith_cons_cons,
      List.zipWith_nil_right, List.flatten_cons, List.flatten_nil, List.append_nil, List.headD_cons, Except.map, BOUND]

example := C114_bound_false 1 (fun x => 1000 * x) (fun _ => 1000) 3 [0]

/-- **C114** (violated) Setting the key of a rule to `False` does not switch the rule off: for every optimizer, the step is the one
of `True`; for multiplicative weights, non-positive values are refused. -/
theorem C114_switch_false (inner) (r : Rule) (ps : List HParam) :
    hybridStep inner [.ofDict [(r, false)] ps] = hybridStep inner [.ofDict [(r, true)] ps] ∧
      (hybridStep inner [.ofDict [(Rule.mwu, false)] [⟨[-1], none⟩]]).1 = .error .assertionError := by
  refine ⟨rfl, ?_⟩
  have hn : ¬ ∀ x ∈ [(-1 : ℝ)], 0 < x := by simp
  simp only [HGroup.ofDict, List.map_cons, List.map_nil, hybridStep, applyRules, applyToGroup, Rule.hasPre, List.filter, applyToParams,
    Rule.pre, if_neg hn]

end C114
end Skwdro
