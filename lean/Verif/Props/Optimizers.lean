import Verif.Spec.Optimizers
import Mathlib.Tactic.Linarith
import Mathlib.Tactic.FieldSimp
import Mathlib.Algebra.BigOperators.Group.List.Basic
import Mathlib.Algebra.Order.BigOperators.Group.List

/-! # C53–C56: optimizers -/

namespace Skwdro
open Spec

section C53
variable {S : Type} (o : InnerOpt S)

theorem schedStep_ok {k : Option Cosine} (h : ∀ c ∈ k, c.tMax ≠ 0) (s : S) :
    ∃ s', schedStep o k s = (.ok (), k.map (fun c => { c with last := c.last + 1 }), s') := by
  cases k with
  | none => exact ⟨s, rfl⟩
  | some c =>
    have h0 := h c rfl
    simp only [schedStep, Cosine.rate, Nat.succ_ne_zero, if_false, h0, Option.map_some]
    split_ifs <;> exact ⟨_, rfl⟩

theorem Composite.step_ok {c : Composite S} (h : Scheduled c) (gp : List ℝ) (gl : ℝ) :
    (c.step o gp gl).1 = .ok () ∧ Scheduled (c.step o gp gl).2 ∧ (c.step o gp gl).2.lam = max 0 ((o.step [c.lam] [gl] c.sLam).1.headD 0) ∧
      (c.step o gp gl).2.params = (o.step c.params gp c.sParams).1 := by
  obtain ⟨h1, h2⟩ := h
  obtain ⟨s1, e1⟩ := schedStep_ok o h1 (o.step c.params gp c.sParams).2
  obtain ⟨s2, e2⟩ := schedStep_ok o h2 (o.step [c.lam] [gl] c.sLam).2
  simp only [Composite.step, e1, e2, Scheduled, Option.mem_def, Option.map_eq_some_iff, true_and, and_true]
  exact ⟨fun k ⟨a, ha, he⟩ => he ▸ h1 a ha, fun k ⟨a, ha, he⟩ => he ▸ h2 a ha⟩

/-- **C53** (composite optimizer) Starting from a non-negative multiplier, any history of steps (any inner optimizer, any gradients, with
or without schedulers over at least one iteration), state loadings and resets goes through, and the multiplier is
non-negative. -/
theorem C53_composite_partial (ops : List (CompositeOp S)) (c : Composite S) (hs : Scheduled c) (h : 0 ≤ c.lam) :
    (CompositeOp.runAll o ops c).1 = .ok () ∧ 0 ≤ (CompositeOp.runAll o ops c).2.lam := by
  induction ops generalizing c with
  | nil => exact ⟨rfl, h⟩
  | cons op ops ih =>
    cases op with
    | step gp gl =>
      obtain ⟨h1, h2, h3, -⟩ := c.step_ok o hs gp gl
      rcases he : c.step o gp gl with ⟨r, c'⟩
      rw [he] at h1 h2 h3
      simp only at h1 h2 h3
      subst h1
      simp only [CompositeOp.runAll, CompositeOp.run, he]
      exact ih c' h2 (by rw [h3]; exact le_max_left _ _)
    | load d => exact ih _ hs h
    | reset => exact ih _ hs h

/-- **C53** (composite optimizer) Even from a negative multiplier, one step suffices.  (Missing: the default optimizers without
adaptation, AdamW and LBFGS.) -/
theorem C53_one_step_partial (gp : List ℝ) (gl : ℝ) (c : Composite S) (hs : Scheduled c) : 0 ≤ (c.step o gp gl).2.lam := by
  rw [(c.step_ok o hs gp gl).2.2.1]
  exact le_max_left _ _

/-- the projection does not alter non-negative updates, nor the parameters -/
theorem C53_projection_exact_partial (gp : List ℝ) (gl : ℝ) (c : Composite S) (hs : Scheduled c) (l : ℝ) (sl : S)
    (h : o.step [c.lam] [gl] c.sLam = ([l], sl)) :
    (c.step o gp gl).2.lam = max 0 l ∧ (c.step o gp gl).2.params = (o.step c.params gp c.sParams).1 := by
  obtain ⟨-, -, h1, h2⟩ := c.step_ok o hs gp gl
  rw [h1, h2, h]
  exact ⟨rfl, rfl⟩

/-- **C53** (violated) Without robust iterations (`n_iter=(pre, 0)`, "prodigy"), the schedule of the multiplier is empty: every step raises a
ZeroDivisionError, after the parameters were updated and before the multiplier is projected. -/
theorem C53_empty_schedule_false {p : ℤ} (hp : p ≠ 0) (params : List ℝ) (lam : ℝ) (s0p s0l : S) (gp : List ℝ) (gl l : ℝ) (sl : S)
    (h : o.step [lam] [gl] s0l = ([l], sl)) :
    let r := (Composite.init o (some (p, 0)) params lam s0p s0l).step o gp gl
    r.1 = .error .zeroDivision ∧ r.2.lam = l ∧ r.2.params = (o.step params gp s0p).1 := by
  obtain ⟨s1, e1⟩ := schedStep_ok o (k := some ⟨p + 0, o.lr s0p, 0⟩) (by rintro c ⟨⟩; simpa using hp) (o.step params gp s0p).2
  have e2 : schedStep o (some ⟨0, o.lr s0l, 0⟩) sl = (.error .zeroDivision, some ⟨0, o.lr s0l, 1⟩, sl) := by
    simp [schedStep, Cosine.rate]
  simp only [Composite.step, Composite.init, Option.map_some, e1, h, e2, List.headD_cons, and_self]

/-- which optimizers project: with adaptation (post-sampled only), never otherwise -/
theorem C53_who_clamps_partial :
    (∀ a c, postOptimizer a = .ok c → (c.clamps = true ↔ a = some "mechanic".toList ∨ a = some "prodigy".toList)) ∧
    (∀ a c, preOptimizer a = .ok c → c.clamps = false) := by
  constructor
  · intro a c h
    cases a with
    | none => simp only [postOptimizer, Except.ok.injEq] at h; subst h; simp [OptChoice.clamps]
    | some a =>
      simp only [postOptimizer] at h
      split at h
      · rename_i h0
        simp only [Except.ok.injEq] at h
        subst h; subst h0
        simp [OptChoice.clamps]
      · split at h
        · rename_i h1
          simp only [Except.ok.injEq] at h
          subst h
          simpa [OptChoice.clamps] using h1
        · simp at h
  · intro a c h
    simp only [preOptimizer, Except.ok.injEq] at h
    subst h; rfl

/-- **C53** (violated, AdamW) `adapt=None`, post-sampled, default learning rate 5e-2: for every radius `rho >= 1`, from the
multiplier set by the constructor (`1e-3 / rho`), one step on a gradient `rho` (the gradient of the dual in lambda when all
samples sit on the data) makes the multiplier negative, and nothing projects it back. -/
theorem C53_adamw_false (rho : ℝ) (h : 1 ≤ rho) :
    postOptimizer none = .ok .adamw ∧ OptChoice.adamw.lamAfter (adamwFirst (5 / 100) (1 / 10 ^ 8) (1 / 1000 / rho) rho) < 0 := by
  refine ⟨rfl, ?_⟩
  simp only [OptChoice.lamAfter, OptChoice.clamps, Bool.false_eq_true, if_false, adamwFirst]
  have h0 : 0 < rho := by linarith
  rw [Real.sqrt_sq h0.le]
  have h1 : (1 : ℝ) / 1000 / rho ≤ 1 / 1000 := div_le_self (by norm_num) h
  have h2 : (1 : ℝ) / 2 ≤ rho / (rho + 1 / 10 ^ 8) := by
    rw [div_le_div_iff₀ (by norm_num) (by positivity)]
    have : (1 : ℝ) / 10 ^ 8 ≤ 1 := by norm_num
    linarith
  linarith

/-- **C53** (violated, LBFGS) Pre-sampled, default learning rate 1: the same, when only the multiplier has a gradient. -/
theorem C53_lbfgs_false (adapt : Option PyStr) (rho : ℝ) (h : 1 ≤ rho) :
    preOptimizer adapt = .ok .lbfgs ∧ OptChoice.lbfgs.lamAfter (lbfgsFirst 1 |rho| (1 / 1000 / rho) rho) < 0 := by
  refine ⟨rfl, ?_⟩
  simp only [OptChoice.lamAfter, OptChoice.clamps, Bool.false_eq_true, if_false, lbfgsFirst]
  have h0 : 0 < rho := by linarith
  rw [abs_of_pos h0]
  have h1 : (1 : ℝ) / 1000 / rho ≤ 1 / 1000 := div_le_self (by norm_num) h
  have h2 : min 1 (1 / rho) = 1 / rho := min_eq_right (by rw [div_le_one h0]; exact h)
  rw [h2, mul_one, one_div_mul_cancel h0.ne']
  linarith

end C53

section C54
variable {S : Type} (o : InnerOpt S)

/-- **C54** Loading a saved state restores both inner optimizers, learning rates included, whatever happened in between, and touches
neither parameters nor multiplier.  (Missing: the positions of the schedulers, see C110.) -/
theorem C54_roundtrip_partial (c : Composite S) (ops : List (CompositeOp S)) :
    let c' := (CompositeOp.runAll o ops c).2
    (c'.load c.stateDict).stateDict = c.stateDict ∧ (c'.load c.stateDict).params = c'.params ∧ (c'.load c.stateDict).lam = c'.lam :=
  ⟨rfl, rfl, rfl⟩

/-- the initial state of the multiplier's optimizer is never forgotten -/
theorem init_kept (ops : List (CompositeOp S)) (c : Composite S) : (CompositeOp.runAll o ops c).2.initLam = c.initLam := by
  induction ops generalizing c with
  | nil => rfl
  | cons op ops ih =>
    have h : (op.run o c).2.initLam = c.initLam := by
      cases op with
      | step gp gl =>
        simp only [CompositeOp.run, Composite.step]
        split
        · rfl
        · split <;> rfl
      | load d => rfl
      | reset => rfl
    simp only [CompositeOp.runAll]
    split
    · next c' he => rw [ih, ← h, he]
    · next e c' he => rw [← h, he]

/-- **C54** After any history, exceptions included, resetting the multiplier's state restores the state it was created with, and nothing
else changes.  (Missing: the position of its scheduler, see C110.) -/
theorem C54_reset_partial (T : Option (ℤ × ℤ)) (params : List ℝ) (lam : ℝ) (s0p s0l : S) (ops : List (CompositeOp S)) :
    let c := (CompositeOp.runAll o ops (Composite.init o T params lam s0p s0l)).2
    let r := CompositeOp.run o c .reset
    r.1 = .ok () ∧ r.2.sLam = s0l ∧ r.2.sParams = c.sParams ∧ r.2.params = c.params ∧ r.2.lam = c.lam := by
  refine ⟨rfl, ?_, rfl, rfl, rfl⟩
  simp only [CompositeOp.run, Composite.resetLam]
  rw [init_kept]
  rfl

/-- **C54** (violated) Given the generator `module.parameters()`, as the constructor of the post-sampled loss does, the composite
optimizer itself only knows the multiplier, although its inner optimizer trains all parameters: none of the parameters is
visible in its groups. -/
theorem C54_groups_false {α : Type} (ps : List α) (lbd : α) :
    (Composite.groups (.generator ps) lbd).1 = ps ∧ ∀ p ∈ ps, p ≠ lbd → p ∉ (Composite.groups (.generator ps) lbd).2.2 := by
  refine ⟨rfl, fun p _ hp => ?_⟩
  simpa [Composite.groups, PyIter.consume] using hp

/-- **C54** (what holds) Given a list, all parameters are visible. -/
theorem C54_groups_list_partial {α : Type} (ps : List α) (lbd : α) :
    let g := Composite.groups (.list ps) lbd
    ∀ p, p ∈ g.2.2 ↔ p ∈ g.1 ∨ p ∈ g.2.1 := by
  intro g p
  simp [g, Composite.groups, PyIter.consume]

end C54

section C55

theorem applyToParams_ok {rule : HParam → Except PyErr HParam} {ps : List HParam} {f : HParam → HParam}
    (h : ∀ p ∈ ps, rule p = .ok (f p)) : applyToParams rule ps = (.ok (), ps.map f) := by
  induction ps with
  | nil => rfl
  | cons p ps ih =>
    simp only [applyToParams, h p List.mem_cons_self, ih fun q hq => h q (List.mem_cons_of_mem _ hq), List.map_cons]

/-- a group with an optional rule -/
theorem applyToGroup_none {sel rule} {g : HGroup} (h : g.rules.filter sel = []) : applyToGroup sel rule g = (.ok (), g) := by
  simp only [applyToGroup, h]
theorem applyToGroup_one {sel rule} {g : HGroup} {r : Rule} {f : HParam → HParam} (h : g.rules.filter sel = [r])
    (hf : ∀ p ∈ g.params, rule r p = .ok (f p)) : applyToGroup sel rule g = (.ok (), { g with params := g.params.map f }) := by
  simp only [applyToGroup, h, applyToParams_ok hf]

theorem applyRules_ok {sel rule} {gs : List HGroup} {F : HGroup → HGroup}
    (h : ∀ g ∈ gs, applyToGroup sel rule g = (.ok (), F g)) : applyRules sel rule gs = (.ok (), gs.map F) := by
  induction gs with
  | nil => rfl
  | cons g gs ih =>
    simp only [applyRules, h g List.mem_cons_self, ih fun q hq => h q (List.mem_cons_of_mem _ hq), List.map_cons]

/-- effect of the pre-rules on a group with at most one rule -/
noncomputable def preGroup (g : HGroup) : HGroup :=
  match g.rules with
  | [.mwu] | [.mwuSimplex] => { g with params := g.params.map fun p => { p with val := p.val.map Real.log } }
  | [.max] => { g with params := g.params.map fun p => { p with val := p.val.map fun x => -x } }
  | [.bound] => { g with params := g.params.map fun p => { p with grad := p.grad.map (List.map fun d => max (-BOUND) (min BOUND d)) } }
  | _ => g

/-- effect of the post-rules on a group with at most one rule -/
noncomputable def postGroup (g : HGroup) : HGroup :=
  match g.rules with
  | [r] => if r = .bound then g else { g with params := g.params.map r.post }
  | _ => g

theorem preGroup_rules (g : HGroup) : (preGroup g).rules = g.rules := by
  unfold preGroup; split <;> rfl
theorem postGroup_rules (g : HGroup) : (postGroup g).rules = g.rules := by
  unfold postGroup
  split
  · split <;> rfl
  · rfl

theorem pre_ok {gs : List HGroup} (h1 : HSingle gs) (h2 : HPositive gs) (h3 : HReady gs) :
    applyRules Rule.hasPre Rule.pre gs = (.ok (), gs.map preGroup) := by
  apply applyRules_ok
  intro g hg
  obtain ⟨rules, ps⟩ := g
  obtain ⟨r, hr⟩ := h1 _ hg
  simp only at hr
  subst hr
  have hpos := h2 _ hg
  simp only at hpos
  rcases r with _ | (_ | _ | _ | _ | _)
  · exact applyToGroup_none rfl
  · refine applyToGroup_one (r := .mwu) rfl fun p hp => ?_
    simp only [Rule.pre]
    rw [if_pos (hpos (Or.inl (by simp)) p hp)]
  · refine applyToGroup_one (r := .mwuSimplex) rfl fun p hp => ?_
    simp only [Rule.pre]
    rw [if_pos (hpos (Or.inr (by simp)) p hp)]
  · exact applyToGroup_none rfl
  · exact applyToGroup_one (r := .max) rfl fun p hp => rfl
  · refine applyToGroup_one (r := .bound) rfl fun p hp => ?_
    have hg := h3 _ hg (by simp) p hp
    obtain ⟨v, _ | d⟩ := p
    · exact absurd rfl hg
    · rfl

theorem post_ok {gs : List HGroup} (h1 : HSingle gs) :
    applyRules Rule.hasPost (fun r p => .ok (r.post p)) gs = (.ok (), gs.map postGroup) := by
  apply applyRules_ok
  intro g hg
  obtain ⟨rules, ps⟩ := g
  obtain ⟨r, hr⟩ := h1 _ hg
  simp only at hr
  subst hr
  rcases r with _ | (_ | _ | _ | _ | _)
  · exact applyToGroup_none rfl
  · exact applyToGroup_one (r := .mwu) rfl fun p hp => rfl
  · exact applyToGroup_one (r := .mwuSimplex) rfl fun p hp => rfl
  · exact applyToGroup_one (r := .nonNeg) rfl fun p hp => rfl
  · exact applyToGroup_one (r := .max) rfl fun p hp => rfl
  · exact applyToGroup_none rfl

theorem list_sum_pos {l : List ℝ} (h : ∀ x ∈ l, 0 < x) (hn : l ≠ []) : 0 < l.sum := by
  cases l with
  | nil => exact absurd rfl hn
  | cons a l =>
    rw [List.sum_cons]
    have : 0 ≤ l.sum := List.sum_nonneg fun x hx => (h x (List.mem_cons_of_mem _ hx)).le
    have := h a List.mem_cons_self
    linarith

theorem list_sum_div (l : List ℝ) (c : ℝ) : (l.map (· / c)).sum = l.sum / c := by
  induction l with
  | nil => simp
  | cons a l ih => simp [ih, add_div]

theorem postGroup_good (g : HGroup) : HGood (postGroup g) := by
  refine ⟨fun h => ?_, fun h => ?_, fun h => ?_⟩ <;> rw [postGroup_rules] at h <;> intro q hq <;>
    simp only [postGroup, h, reduceCtorEq, if_false, List.mem_map] at hq <;> obtain ⟨p, -, rfl⟩ := hq
  · intro x hx
    simp only [Rule.post, List.mem_map] at hx
    obtain ⟨y, -, rfl⟩ := hx
    exact Real.exp_pos y
  · have hpos : ∀ x ∈ p.val.map Real.exp, 0 < x := by
      intro x hx
      simp only [List.mem_map] at hx
      obtain ⟨y, -, rfl⟩ := hx
      exact Real.exp_pos y
    constructor
    · intro x hx
      simp only [Rule.post] at hx
      obtain ⟨y, hy, rfl⟩ := List.mem_map.1 hx
      exact div_pos (hpos y hy) (list_sum_pos hpos (List.ne_nil_of_mem hy))
    · intro hne
      simp only [Rule.post] at hne ⊢
      have hne' : p.val.map Real.exp ≠ [] := fun h0 => hne (by rw [h0]; rfl)
      rw [list_sum_div]
      exact div_self (list_sum_pos hpos hne').ne'
  · intro x hx
    simp only [Rule.post, List.mem_map] at hx
    obtain ⟨y, -, rfl⟩ := hx
    exact le_max_left _ _

theorem single_of_rules {gs hs : List HGroup} (h : hs.map HGroup.rules = gs.map HGroup.rules) (h1 : HSingle gs) : HSingle hs := by
  intro g hg
  have : g.rules ∈ gs.map HGroup.rules := by rw [← h]; exact List.mem_map_of_mem hg
  obtain ⟨g', hg', he⟩ := List.mem_map.1 this
  obtain ⟨r, hr⟩ := h1 g' hg'
  exact ⟨r, by rw [← he, hr]⟩

theorem hybridStep_ok {inner} (hin : KeepsRules inner) {gs : List HGroup} (h1 : HSingle gs) (h2 : HPositive gs) (h3 : HReady gs) :
    hybridStep inner gs = (.ok (), (inner (gs.map preGroup)).2.map postGroup) := by
  have hmap : (gs.map preGroup).map HGroup.rules = gs.map HGroup.rules := by
    rw [List.map_map]; exact List.map_congr_left fun g _ => preGroup_rules g
  obtain ⟨i1, i2⟩ := hin (gs.map preGroup)
  rcases hi : inner (gs.map preGroup) with ⟨e, gs'⟩
  rw [hi] at i1 i2
  simp only at i1 i2
  subst i1
  have hs : HSingle gs' := single_of_rules (i2.trans hmap) h1
  simp only [hybridStep, pre_ok h1 h2 h3, hi, post_ok hs]

/-- **C55** Groups with at most one rule, multiplicative ones being positive, gradients to be clipped being there: for every inner optimizer, a step is accepted, keeps
the rules of the groups, and afterwards `mwu` groups are positive, `mwu_simplex` groups positive with sum one, `non_neg` groups
non-negative. -/
theorem C55_step {inner} (hin : KeepsRules inner) {gs : List HGroup} (h1 : HSingle gs) (h2 : HPositive gs) (h3 : HReady gs) :
    ∃ gs', hybridStep inner gs = (.ok (), gs') ∧ gs'.map HGroup.rules = gs.map HGroup.rules ∧ (∀ g ∈ gs', HGood g) ∧
      HSingle gs' ∧ HPositive gs' := by
  have hrules : ((inner (gs.map preGroup)).2.map postGroup).map HGroup.rules = gs.map HGroup.rules := by
    rw [List.map_map]
    have : (inner (gs.map preGroup)).2.map (HGroup.rules ∘ postGroup) = (inner (gs.map preGroup)).2.map HGroup.rules :=
      List.map_congr_left fun g _ => postGroup_rules g
    rw [this, (hin _).2, List.map_map]
    exact List.map_congr_left fun g _ => preGroup_rules g
  have hgood : ∀ g ∈ (inner (gs.map preGroup)).2.map postGroup, HGood g := by
    intro g hg
    obtain ⟨g', -, rfl⟩ := List.mem_map.1 hg
    exact postGroup_good g'
  have hsing := single_of_rules hrules h1
  refine ⟨_, hybridStep_ok hin h1 h2 h3, hrules, hgood, hsing, ?_⟩
  intro g hg hr
  obtain ⟨r, hr'⟩ := hsing g hg
  obtain ⟨g1, g2, -⟩ := hgood g hg
  cases r with
  | none => simp [hr'] at hr
  | some r =>
    simp only [hr', Option.toList_some, List.mem_singleton] at hr
    rcases hr with rfl | rfl
    · exact g1 hr'
    · exact fun p hp => (g2 hr' p hp).1

/-- **C55** The same after any number of steps, each with its own inner update and gradients (a backward pass
before each, reaching all tensors if gradients are to be clipped): no step is ever refused. -/
theorem C55_run (steps : List ((List HGroup → Except PyErr Unit × List HGroup) × (HParam → Option (List ℝ))))
    (hin : ∀ s ∈ steps, KeepsRules s.1) {gs : List HGroup} (h1 : HSingle gs) (h2 : HPositive gs)
    (h3 : ∀ s ∈ steps, ∀ p, s.2 p = none → ∀ g ∈ gs, Rule.bound ∉ g.rules) (hne : steps ≠ []) :
    ∃ gs', hybridRun steps gs = .ok gs' ∧ gs'.map HGroup.rules = gs.map HGroup.rules ∧ ∀ g ∈ gs', HGood g := by
  induction steps generalizing gs with
  | nil => exact absurd rfl hne
  | cons s steps ih =>
    have hr0 : (regrad s.2 gs).map HGroup.rules = gs.map HGroup.rules := by rw [regrad, List.map_map]; rfl
    have hp0 : HPositive (regrad s.2 gs) := by
      intro g hg hr p hp
      obtain ⟨g', hg', rfl⟩ := List.mem_map.1 hg
      obtain ⟨p', hp', rfl⟩ := List.mem_map.1 hp
      exact h2 g' hg' hr p' hp'
    have hg0 : HReady (regrad s.2 gs) := by
      intro g hg hr p hp
      obtain ⟨g', hg', rfl⟩ := List.mem_map.1 hg
      obtain ⟨p', hp', rfl⟩ := List.mem_map.1 hp
      exact fun hn => h3 s List.mem_cons_self p' hn g' hg' hr
    obtain ⟨gs1, k1, k2, k3, k4, k5⟩ := C55_step (hin s List.mem_cons_self) (single_of_rules hr0 h1) hp0 hg0
    simp only [hybridRun, k1]
    by_cases hs : steps = []
    · subst hs
      exact ⟨gs1, rfl, k2.trans hr0, k3⟩
    · have h3' : ∀ s ∈ steps, ∀ p, s.2 p = none → ∀ g ∈ gs1, Rule.bound ∉ g.rules := by
        intro t ht p hp g hg
        have : g.rules ∈ gs.map HGroup.rules := by rw [← k2.trans hr0]; exact List.mem_map_of_mem hg
        obtain ⟨g', hg', he⟩ := List.mem_map.1 this
        rw [← he]
        exact h3 t (List.mem_cons_of_mem _ ht) p hp g' hg'
      obtain ⟨gs', j1, j2, j3⟩ := ih (fun t ht => hin t (List.mem_cons_of_mem _ ht)) k4 k5 h3' hs
      exact ⟨gs', j1, j2.trans (k2.trans hr0), j3⟩

theorem sgd_keeps (lr : ℝ) : KeepsRules (sgd lr) := fun gs => ⟨rfl, by simp [sgd, List.map_map, Function.comp_def]⟩

/-- a tensor without gradient is one with gradient zero -/
theorem sgd_eq (lr : ℝ) (gs : List HGroup) : (sgd lr gs).2 = gs.map fun g => { g with params := g.params.map fun p =>
    { p with val := List.zipWith (fun x d => x - lr * d) p.val (p.grad.getD (p.val.map fun _ => 0)) } } := by
  simp only [sgd]
  refine List.map_congr_left fun g _ => ?_
  congr 1
  refine List.map_congr_left fun p _ => ?_
  obtain ⟨v, _ | d⟩ := p
  · have : ∀ v : List ℝ, v = List.zipWith (fun x d => x - lr * d) v (v.map fun _ => 0) := by
      intro v
      induction v with
      | nil => rfl
      | cons a v ih => rw [List.map_cons, List.zipWith_cons_cons, ← ih]; simp
    simp only [Option.getD_none, ← this]
  · rfl

theorem zip_map_left {α β γ δ : Type} (f : β → γ → δ) (g : α → β) (x : List α) (y : List γ) :
    List.zipWith f (x.map g) y = List.zipWith (fun a b => f (g a) b) x y := by
  rw [List.zipWith_map_left]

theorem exp_log_step (lr : ℝ) (x g : List ℝ) (h : ∀ a ∈ x, 0 < a) :
    (List.zipWith (fun x d => x - lr * d) (x.map Real.log) g).map Real.exp = List.zipWith (fun x d => x * Real.exp (-lr * d)) x g := by
  induction x generalizing g with
  | nil => simp
  | cons a x ih =>
    cases g with
    | nil => simp
    | cons d g =>
      simp only [List.map_cons, List.zipWith_cons_cons, ih g fun b hb => h b (List.mem_cons_of_mem _ hb)]
      rw [sub_eq_add_neg, Real.exp_add, Real.exp_log (h a List.mem_cons_self)]
      ring_nf

/-- **C55** With plain SGD the whole step is the documented update of every group: multiplicative weights
`p * exp(-lr * grad)` (normalised on the simplex), projected descent, ascent for `max`, descent on clipped gradients for
`bound`, descent otherwise; values only.  A tensor without gradient is treated as having the gradient zero. -/
theorem C55_sgd (lr : ℝ) {gs : List HGroup} (h1 : HSingle gs) (h2 : HPositive gs) (h3 : HReady gs) :
    ∃ gs', hybridStep (sgd lr) gs = (.ok (), gs') ∧ gs'.map HGroup.rules = gs.map HGroup.rules ∧
      gs'.map (fun g => g.params.map HParam.val) =
        gs.map (fun g => g.params.map fun p => ruleStep lr g.rules.head? p.val (p.grad.getD (p.val.map fun _ => 0))) := by
  obtain ⟨gs', k1, k2, -⟩ := C55_step (sgd_keeps lr) h1 h2 h3
  refine ⟨gs', k1, k2, ?_⟩
  rw [hybridStep_ok (sgd_keeps lr) h1 h2 h3] at k1
  simp only [Prod.mk.injEq, true_and] at k1
  rw [← k1, sgd_eq]
  simp only [List.map_map]
  apply List.map_congr_left
  intro g hg
  obtain ⟨rules, ps⟩ := g
  obtain ⟨r, hr⟩ := h1 _ hg
  simp only at hr
  subst hr
  have hpos := h2 _ hg
  have hready := h3 _ hg
  simp only at hpos hready
  rcases r with _ | (_ | _ | _ | _ | _) <;>
    simp only [Function.comp, preGroup, postGroup, Option.toList_none, Option.toList_some, List.map_map, List.head?_nil,
      List.head?_cons, reduceCtorEq, if_false, if_true, ruleStep] <;> apply List.map_congr_left <;> intro p hp
  · rfl
  · simp only [Function.comp, exp_log_step lr p.val _ (hpos (by simp) p hp), Rule.post, List.map_map]
    rfl
  · simp only [Function.comp, exp_log_step lr p.val _ (hpos (by simp) p hp), Rule.post, List.map_map]
    rfl
  · simp only [Function.comp, Rule.post, List.map_zipWith]
  · simp only [Function.comp, Rule.post, List.map_zipWith, List.zipWith_map_left, List.map_map]
    refine congrArg (fun f => List.zipWith f p.val _) ?_
    funext x d
    ring
  · obtain ⟨v, _ | d⟩ := p
    · exact absurd rfl (hready (by simp) _ hp)
    · simp only [Function.comp, Option.map_some, Option.getD_some, List.zipWith_map_right, BOUND]

end C55

section C56

/-- two multiplicative groups, the second one with a non-positive value -/
noncomputable def exBad : List HGroup := [⟨[.mwu], [⟨[Real.exp 1], some [0]⟩]⟩, ⟨[.mwu], [⟨[-1], some [0]⟩]⟩]

/-- **C56** (violated) Whatever the inner optimizer, stepping two multiplicative groups the second of which holds a non-positive
value is refused, but the first group has been replaced by its logarithm. -/
theorem C56_second_group_false (inner) : (hybridStep inner exBad).1 = .error .assertionError ∧
    (hybridStep inner exBad).2.map (fun g => g.params.map HParam.val) = [[[1]], [[-1]]] ∧
    exBad.map (fun g => g.params.map HParam.val) ≠ [[[1]], [[-1]]] := by
  have hpos : ∀ x ∈ [Real.exp 1], 0 < x := by simp [Real.exp_pos]
  have hneg : ¬ ∀ x ∈ [(-1 : ℝ)], 0 < x := by simp
  have he : applyRules Rule.hasPre Rule.pre exBad =
      (.error .assertionError, [⟨[.mwu], [⟨[1], some [0]⟩]⟩, ⟨[.mwu], [⟨[-1], some [0]⟩]⟩]) := by
    simp only [exBad, applyRules, applyToGroup, Rule.hasPre, List.filter, applyToParams, Rule.pre, if_pos hpos, if_neg hneg,
      List.map_cons, List.map_nil, Real.log_exp]
  refine ⟨by simp only [hybridStep, he], by simp only [hybridStep, he, List.map_cons, List.map_nil], ?_⟩
  simp only [exBad, List.map_cons, List.map_nil]
  intro h
  simp only [List.cons.injEq, and_true] at h
  have := Real.add_one_lt_exp (x := 1) one_ne_zero
  linarith

/-- **C56** (violated) A group marked both `mwu` and `non_neg` is refused *after* the inner step: its values are left in
logarithmic scale and already updated.  With SGD, for all positive values and all gradients. -/
theorem C56_conflict_false (lr : ℝ) (x g : List ℝ) (h : ∀ a ∈ x, 0 < a) :
    hybridStep (sgd lr) [⟨[.mwu, .nonNeg], [⟨x, some g⟩]⟩] =
      (.error .assertionError, [⟨[.mwu, .nonNeg], [⟨List.zipWith (fun a d => Real.log a - lr * d) x g, some g⟩]⟩]) := by
  simp only [hybridStep, applyRules, applyToGroup, Rule.hasPre, Rule.hasPost, List.filter, applyToParams, Rule.pre, if_pos h, sgd,
    List.map_cons, List.map_nil, List.zipWith_map_left]

/-- **C56** (violated) Whatever the inner optimizer, with a multiplicative group followed by one whose gradients are to be clipped
but of which one tensor has no gradient yet: the step is refused with an `AttributeError`, and the first group has been replaced by
its logarithm. -/
theorem C56_missing_gradient_false (inner) (x v : List ℝ) (g : Option (List ℝ)) (h : ∀ a ∈ x, 0 < a) :
    hybridStep inner [⟨[.mwu], [⟨x, g⟩]⟩, ⟨[.bound], [⟨v, none⟩]⟩] =
      (.error .attributeError, [⟨[.mwu], [⟨x.map Real.log, g⟩]⟩, ⟨[.bound], [⟨v, none⟩]⟩]) := by
  simp only [hybridStep, applyRules, applyToGroup, Rule.hasPre, List.filter, applyToParams, Rule.pre, if_pos h]

/-- non-vacuity -/
example := C56_missing_gradient_false (sgd 1) [2, 3] [0] none (by simp)

/-- **C56** (what holds) A single group, without conflicting rules, with a single tensor: if the step is refused, nothing has
changed.  (Missing: several groups, several tensors, conflicting rules.) -/
theorem C56_single_partial {inner} (hin : KeepsRules inner) (r : Option Rule) (p : HParam) {e : PyErr} {gs : List HGroup}
    (h : hybridStep inner [⟨r.toList, [p]⟩] = (.error e, gs)) : gs = [⟨r.toList, [p]⟩] := by
  have h1 : HSingle [⟨r.toList, [p]⟩] := by
    intro g hg
    simp only [List.mem_singleton] at hg
    exact ⟨r, by rw [hg]⟩
  by_cases h2 : HPositive [⟨r.toList, [p]⟩]
  · by_cases h3 : HReady [⟨r.toList, [p]⟩]
    · rw [hybridStep_ok hin h1 h2 h3] at h
      simp at h
    · obtain ⟨v, _ | d⟩ := p
      · have hr : r = some .bound := by
          by_contra hc
          apply h3
          intro g hg hr
          simp only [List.mem_singleton] at hg
          subst hg
          simp only [Option.mem_toList] at hr
          exact absurd hr hc
        subst hr
        simp only [hybridStep, Option.toList_some, applyRules, applyToGroup, Rule.hasPre, List.filter, applyToParams, Rule.pre,
          Prod.mk.injEq] at h
        exact h.2.symm
      · exact absurd (by intro g hg _ q hq; simp only [List.mem_singleton] at hg; subst hg; simp only [List.mem_singleton] at hq
                         rw [hq]; simp) h3
  · have hr : r = some .mwu ∨ r = some .mwuSimplex := by
      by_contra hc
      push Not at hc
      apply h2
      intro g hg hr
      simp only [List.mem_singleton] at hg
      subst hg
      simp only [Option.mem_toList] at hr
      rcases hr with hr | hr
      · exact absurd hr hc.1
      · exact absurd hr hc.2
    have hn : ¬ ∀ x ∈ p.val, 0 < x := by
      intro hp
      apply h2
      intro g hg _ q hq
      simp only [List.mem_singleton] at hg
      subst hg
      simp only [List.mem_singleton] at hq
      rw [hq]; exact hp
    rcases hr with rfl | rfl <;>
    · simp only [hybridStep, Option.toList_some, applyRules, applyToGroup, Rule.hasPre, List.filter, applyToParams, Rule.pre,
        if_neg hn, Prod.mk.injEq] at h
      exact h.2.symm

end C56

section examples

/-- groups with one of each rule -/
noncomputable def exGroups : List HGroup := [⟨[.mwu], [⟨[1, 2], some [3, -4]⟩]⟩, ⟨[.mwuSimplex], [⟨[1 / 2, 1 / 2], some [1, 0]⟩]⟩,
  ⟨[.max], [⟨[-1], some [2]⟩, ⟨[4], none⟩]⟩, ⟨[.bound], [⟨[1], some [200]⟩]⟩, ⟨[], []⟩]

theorem exGroups_ok : HSingle exGroups ∧ HPositive exGroups ∧ HReady exGroups := by
  refine ⟨?_, ?_, ?_⟩ <;> intro g hg <;> simp only [exGroups, List.mem_cons, List.not_mem_nil, or_false] at hg
  · rcases hg with rfl | rfl | rfl | rfl | rfl
    exacts [⟨some .mwu, rfl⟩, ⟨some .mwuSimplex, rfl⟩, ⟨some .max, rfl⟩, ⟨some .bound, rfl⟩, ⟨none, rfl⟩]
  · intro hr
    rcases hg with rfl | rfl | rfl | rfl | rfl <;> simp_all
  · intro hr
    rcases hg with rfl | rfl | rfl | rfl | rfl <;> simp_all

/-- non-vacuity: one group of each kind; SGD keeps rules -/
example := C55_sgd 1 exGroups_ok.1 exGroups_ok.2.1 exGroups_ok.2.2
example := C55_step (sgd_keeps 1) exGroups_ok.1 exGroups_ok.2.1 exGroups_ok.2.2
example := C55_run [(sgd 1, fun p => some p.val), (sgd 2, fun p => p.grad.orElse fun _ => some [])] (by simp [sgd_keeps]) exGroups_ok.1 exGroups_ok.2.1
  (by intro s hs p hp; simp only [List.mem_cons, List.not_mem_nil, or_false] at hs
      rcases hs with rfl | rfl
      · simp at hp
      · obtain ⟨v, _ | d⟩ := p <;> simp at hp) (by simp)

/-- gradient descent whose state is its learning rate -/
noncomputable def exGD : InnerOpt ℝ := ⟨fun x g s => (List.zipWith (fun a b => a - s * b) x g, s), id, fun x _ => x⟩

theorem exGD_keeps : KeepsRate exGD := ⟨fun _ _ _ => rfl, fun _ _ => rfl⟩

/-- non-vacuity of C53: gradient descent as inner optimizer, where the projection is active -/
example : (Composite.step exGD [1] 3 (.init exGD (some (2, 5)) [5] 1 1 1)).2.lam = 0 ∧
    (Composite.step exGD [1] 3 (.init exGD (some (2, 5)) [5] 1 1 1)).2.params = [4] := by
  have h : Scheduled (.init exGD (some (2, 5)) [5] 1 1 1) := by
    constructor <;> (simp [Composite.init]; try norm_num)
  obtain ⟨-, -, h1, h2⟩ := Composite.step_ok exGD h [1] 3
  rw [h1, h2]
  constructor
  · simp [exGD, Composite.init]
  · simp [exGD, Composite.init]; norm_num

end examples
end Skwdro
