import Verif.Props.Optimizers

/-! # C56: what a refused hybrid step has changed, for any number of groups and tensors -/

namespace Skwdro
open Spec

section C56

/-- a group whose preparation is refused: the tensors before the first refused one have been prepared -/
theorem applyToParams_refused {rule : HParam → Except PyErr HParam} {f : HParam → HParam} {ps qs : List HParam} {e : PyErr}
    (hf : ∀ p q, rule p = .ok q → q = f p) (h : applyToParams rule ps = (.error e, qs)) :
    ∃ ps₁ p ps₂, ps = ps₁ ++ p :: ps₂ ∧ qs = ps₁.map f ++ p :: ps₂ ∧ rule p = .error e := by
  induction ps generalizing qs with
  | nil => simp [applyToParams] at h
  | cons p ps ih =>
    simp only [applyToParams] at h
    split at h
    · next e' hp =>
      rw [Prod.mk.injEq, Except.error.injEq] at h
      obtain ⟨rfl, rfl⟩ := h
      exact ⟨[], p, ps, rfl, rfl, hp⟩
    · next p' hp =>
      rcases hr : applyToParams rule ps with ⟨r, qs'⟩
      rw [hr] at h
      simp only [Prod.mk.injEq] at h
      obtain ⟨rfl, rfl⟩ := h
      obtain ⟨ps₁, q, ps₂, h1, h2, h3⟩ := ih hr
      exact ⟨p :: ps₁, q, ps₂, by rw [h1]; rfl, by rw [h2, hf _ _ hp]; rfl, h3⟩

/-- preparation of one tensor -/
noncomputable def prepared (rule : Option Rule) (p : HParam) : HParam :=
  match rule with
  | some .mwu | some .mwuSimplex => { p with val := p.val.map Real.log }
  | some .max => { p with val := p.val.map fun x => -x }
  | some .bound => { p with grad := p.grad.map (List.map fun d => max (-100) (min 100 d)) }
  | _ => p

theorem pre_prepared {r : Rule} {p q : HParam} (h : r.pre p = .ok q) : q = prepared (some r) p := by
  cases r <;> simp only [Rule.pre] at h
  · split at h
    · cases h; rfl
    · cases h
  · split at h
    · cases h; rfl
    · cases h
  · cases h; rfl
  · cases h; rfl
  · obtain ⟨v, _ | d⟩ := p
    · cases h
    · cases h; rfl

theorem pre_refused {r : Rule} {p : HParam} {e : PyErr} (h : r.pre p = .error e) :
    ((r = .mwu ∨ r = .mwuSimplex) ∧ (∃ x ∈ p.val, x ≤ 0) ∧ e = .assertionError) ∨ (r = .bound ∧ p.grad = none ∧ e = .attributeError) := by
  cases r <;> simp only [Rule.pre] at h
  · split at h
    · cases h
    · next hn => cases h; push Not at hn; exact .inl ⟨.inl rfl, hn, rfl⟩
  · split at h
    · cases h
    · next hn => cases h; push Not at hn; exact .inl ⟨.inr rfl, hn, rfl⟩
  · cases h
  · cases h
  · obtain ⟨v, _ | d⟩ := p
    · cases h; exact .inr ⟨rfl, rfl, rfl⟩
    · cases h

theorem pre_group_cases (r : Option Rule) (ps : List HParam) :
    applyToGroup Rule.hasPre Rule.pre ⟨r.toList, ps⟩ = (.ok (), ⟨r.toList, ps.map (prepared r)⟩) ∨
    ∃ e ps₁ p ps₂, ps = ps₁ ++ p :: ps₂ ∧ (((r = some .mwu ∨ r = some .mwuSimplex) ∧ (∃ x ∈ p.val, x ≤ 0) ∧ e = .assertionError) ∨
        (r = some .bound ∧ p.grad = none ∧ e = .attributeError)) ∧
      applyToGroup Rule.hasPre Rule.pre ⟨r.toList, ps⟩ = (.error e, ⟨r.toList, ps₁.map (prepared r) ++ p :: ps₂⟩) := by
  have hnone : (r = none ∨ r = some .nonNeg) ∨ ∃ r', r = some r' ∧ r'.hasPre = true := by
    rcases r with _ | (_ | _ | _ | _ | _)
    exacts [.inl (.inl rfl), .inr ⟨_, rfl, rfl⟩, .inr ⟨_, rfl, rfl⟩, .inl (.inr rfl), .inr ⟨_, rfl, rfl⟩, .inr ⟨_, rfl, rfl⟩]
  rcases hnone with h | ⟨r', rfl, hr⟩
  · left
    rcases h with rfl | rfl
    · rw [applyToGroup_none rfl, show prepared none = id from rfl, List.map_id]
    · rw [applyToGroup_none rfl, show prepared (some .nonNeg) = id from rfl, List.map_id]
  · have hfil : List.filter Rule.hasPre (some r').toList = [r'] := by simp [hr]
    rcases ha : applyToParams r'.pre ps with ⟨⟨e⟩ | u, qs⟩
    · right
      obtain ⟨ps₁, p, ps₂, h1, h2, h3⟩ := applyToParams_refused (f := prepared (some r')) (fun p q => pre_prepared) ha
      refine ⟨e, ps₁, p, ps₂, h1, ?_, ?_⟩
      · simpa only [Option.some.injEq] using pre_refused h3
      · simp only [applyToGroup, hfil, ha, h2]
    · left
      have : qs = ps.map (prepared (some r')) := by
        clear hfil
        induction ps generalizing qs with
        | nil => simp only [applyToParams, Prod.mk.injEq] at ha; rw [← ha.2]; rfl
        | cons p ps ih =>
          simp only [applyToParams] at ha
          split at ha
          · cases ha
          · next p' hp =>
            rcases hr : applyToParams r'.pre ps with ⟨w, qs'⟩
            rw [hr] at ha
            simp only [Prod.mk.injEq] at ha
            obtain ⟨rfl, rfl⟩ := ha
            rw [ih _ hr, pre_prepared hp]; rfl
      simp only [applyToGroup, hfil, ha, this]

/-- **C56** (what holds for any number of groups and tensors) Groups with at most one rule each, any inner optimizer that does not raise:
if a step raises, there is a first tensor to blame — a multiplicative one with a value that is not positive, or one to clip without a
gradient — and the exception tells which.  It and all tensors after it are unchanged.  All tensors before it, in the order of the groups,
are left as prepared: in logarithmic scale, negated, or with clipped gradients. (Missing: that the latter are restored.) -/
theorem C56_where_partial {inner} (hin : KeepsRules inner) {gs gs' : List HGroup} (h1 : HSingle gs) {e : PyErr}
    (h : hybridStep inner gs = (.error e, gs')) :
    ∃ (gs₁ gs₂ : List HGroup) (r : Option Rule) (ps₁ ps₂ : List HParam) (p : HParam),
      gs = gs₁ ++ ⟨r.toList, ps₁ ++ p :: ps₂⟩ :: gs₂ ∧
      (((r = some .mwu ∨ r = some .mwuSimplex) ∧ (∃ x ∈ p.val, x ≤ 0) ∧ e = .assertionError) ∨
        (r = some .bound ∧ p.grad = none ∧ e = .attributeError)) ∧
      gs' = (gs₁.map fun g => ⟨g.rules, g.params.map (prepared g.rules.head?)⟩) ++
        ⟨r.toList, ps₁.map (prepared r) ++ p :: ps₂⟩ :: gs₂ := by
  have key : ∀ gs : List HGroup, HSingle gs →
      (∃ gs'', applyRules Rule.hasPre Rule.pre gs = (.ok (), gs'') ∧ gs''.map HGroup.rules = gs.map HGroup.rules) ∨
      ∃ (e : PyErr) (gs₁ gs₂ : List HGroup) (r : Option Rule) (ps₁ ps₂ : List HParam) (p : HParam),
      gs = gs₁ ++ ⟨r.toList, ps₁ ++ p :: ps₂⟩ :: gs₂ ∧
      (((r = some .mwu ∨ r = some .mwuSimplex) ∧ (∃ x ∈ p.val, x ≤ 0) ∧ e = .assertionError) ∨
        (r = some .bound ∧ p.grad = none ∧ e = .attributeError)) ∧
      applyRules Rule.hasPre Rule.pre gs = (.error e, (gs₁.map fun g => ⟨g.rules, g.params.map (prepared g.rules.head?)⟩) ++
        ⟨r.toList, ps₁.map (prepared r) ++ p :: ps₂⟩ :: gs₂) := by
    intro gs
    induction gs with
    | nil => intro _; exact .inl ⟨[], rfl, rfl⟩
    | cons g gs ih =>
      intro hs
      obtain ⟨rules, ps⟩ := g
      obtain ⟨r, hr⟩ := hs _ (List.mem_cons_self ..)
      simp only at hr
      subst hr
      rcases pre_group_cases r ps with hg | ⟨e, ps₁, p, ps₂, h1, h2, h3⟩
      · rcases ih fun g hg => hs g (List.mem_cons_of_mem _ hg) with ⟨gs'', h4, h5⟩ | ⟨e, gs₁, gs₂, r', ps₁, ps₂, p, h4, h5, h6⟩
        · exact .inl ⟨⟨r.toList, ps.map (prepared r)⟩ :: gs'', by simp only [applyRules, hg, h4], by simp [h5]⟩
        · refine .inr ⟨e, ⟨r.toList, ps⟩ :: gs₁, gs₂, r', ps₁, ps₂, p, by rw [h4]; rfl, h5, ?_⟩
          simp only [applyRules, hg, h6, List.map_cons, List.cons_append]
          congr 3
          cases r <;> rfl
      · exact .inr ⟨e, [], gs, r, ps₁, ps₂, p, by rw [h1]; rfl, h2, by simp only [applyRules, h3]; rfl⟩
  rcases key gs h1 with ⟨gs'', h2, h3⟩ | ⟨e', gs₁, gs₂, r, ps₁, ps₂, p, h2, h3, h4⟩
  · obtain ⟨i1, i2⟩ := hin gs''
    rcases hi : inner gs'' with ⟨e', gs3⟩
    rw [hi] at i1 i2
    simp only at i1 i2
    subst i1
    have hs : HSingle gs3 := single_of_rules (i2.trans h3) h1
    simp only [hybridStep, h2, hi, post_ok hs] at h
    cases h
  · simp only [hybridStep, h4, Prod.mk.injEq, Except.error.injEq] at h
    obtain ⟨rfl, rfl⟩ := h
    exact ⟨gs₁, gs₂, r, ps₁, ps₂, p, h2, h3, rfl⟩

/-- three groups, the second tensor of the second of which is refused -/
noncomputable def exRefused : List HGroup :=
  [⟨[.max], [⟨[5], none⟩]⟩, ⟨[.mwu], [⟨[2], some [0]⟩, ⟨[0], some [0]⟩, ⟨[3], none⟩]⟩, ⟨[], []⟩]

/-- non-vacuity -/
example : (hybridStep (sgd 1) exRefused).1 = .error .assertionError ∧ HSingle exRefused := by
  have h1 : ∀ x ∈ [(2 : ℝ)], 0 < x := by simp
  have h2 : ¬ ∀ x ∈ [(0 : ℝ)], 0 < x := by simp
  refine ⟨by simp only [exRefused, hybridStep, applyRules, applyToGroup, Rule.hasPre, List.filter, applyToParams, Rule.pre, if_pos h1,
    if_neg h2], ?_⟩
  intro g hg
  simp only [exRefused, List.mem_cons, List.not_mem_nil, or_false] at hg
  rcases hg with rfl | rfl | rfl
  exacts [⟨some .max, rfl⟩, ⟨some .mwu, rfl⟩, ⟨none, rfl⟩]

/-- **C56** (violated) Within one group too: whatever the inner optimizer, if the second of two multiplicative tensors holds a value that is
not positive, the first one has been replaced by its logarithm. -/
theorem C56_second_tensor_false (inner) {x y : List ℝ} (d d' : Option (List ℝ)) (hx : ∀ a ∈ x, 0 < a) (hy : ∃ a ∈ y, a ≤ 0) :
    hybridStep inner [⟨[.mwu], [⟨x, d⟩, ⟨y, d'⟩]⟩] = (.error .assertionError, [⟨[.mwu], [⟨x.map Real.log, d⟩, ⟨y, d'⟩]⟩]) := by
  have hy' : ¬ ∀ a ∈ y, 0 < a := by push Not; exact hy
  simp only [hybridStep, applyRules, applyToGroup, Rule.hasPre, List.filter, applyToParams, Rule.pre, if_pos hx, if_neg hy']

/-- non-vacuity -/
example := C56_second_tensor_false (sgd 1) (x := [2, 3]) (y := [1, 0]) none none (by simp) ⟨0, by simp, le_refl _⟩

end C56

end Skwdro
