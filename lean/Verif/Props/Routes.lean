import Verif.Model.Estimators

/-! # Properties of the estimators' arguments: C66 (solver names), C78 (constructors) -/

namespace Skwdro

/-! ## C66 -/

/-- `needle in s` means: `needle` occurs somewhere in `s` -/
theorem pyIn_iff (needle s : PyStr) : pyIn needle s = true ↔ ∃ a b, s = a ++ needle ++ b := by
  simp only [pyIn, List.any_eq_true, List.mem_tails, List.isPrefixOf_iff_prefix]
  constructor
  · rintro ⟨t, ⟨a, ha⟩, ⟨b, hb⟩⟩
    exact ⟨a, b, by rw [← ha, ← hb, List.append_assoc]⟩
  · rintro ⟨a, b, rfl⟩
    exact ⟨needle ++ b, ⟨a, by rw [List.append_assoc]⟩, ⟨b, rfl⟩⟩

theorem entropic_no_torch : pyIn "torch".toList "entropic".toList = false := by decide
theorem dedicated_no_torch : pyIn "torch".toList "dedicated".toList = false := by decide
theorem dedicated_ne_entropic : "dedicated".toList ≠ "entropic".toList := by decide

theorem route_torch (e : EstKind) {s : PyStr} (h : pyIn "torch".toList s = true) : ∃ post, route e s = .ok (.torch post) := by
  have h1 : s ≠ "entropic".toList := fun hs => by rw [hs, entropic_no_torch] at h; cases h
  have h2 : s ≠ "dedicated".toList := fun hs => by rw [hs, dedicated_no_torch] at h; cases h
  unfold route
  rw [if_neg h1]
  cases e <;> simp only [if_neg h2, h, if_true] <;> exact ⟨_, rfl⟩

theorem regAsFloat_ok {P : EstParams} (h : P.solver_reg ≠ none) : regAsFloat P = .ok () := by
  obtain ⟨r, hr⟩ := Option.ne_none_iff_exists'.1 h
  simp only [regAsFloat, hr]

/-- **C66** What every estimator does with every solver name (full characterisation of the accepted ones): the deprecated name raises a
warning as an error, 'dedicated' runs the dedicated solver except for `Weber` which refuses it, a name containing 'torch' runs the torch
solver, any other name is refused. -/
theorem C66_route_partial (e : EstKind) (s : PyStr) :
    (s = "entropic".toList → route e s = .error .deprecationWarning) ∧
    (s = "dedicated".toList → route e s = if e = .weber then .error .notImplemented else .ok .dedicated) ∧
    ((∃ a b, s = a ++ "torch".toList ++ b) → ∃ post, route e s = .ok (.torch post)) ∧
    (s ≠ "entropic".toList → s ≠ "dedicated".toList → (¬ ∃ a b, s = a ++ "torch".toList ++ b) → route e s = .error .notImplemented) := by
  refine ⟨fun h => by simp only [route, h, if_true], fun h => ?_, fun h => route_torch e ((pyIn_iff _ _).2 h), fun h1 h2 h3 => ?_⟩
  · subst h
    cases e <;> simp [route, dedicated_ne_entropic, dedicated_no_torch, -String.reduceToList]
  · have h4 : pyIn "torch".toList s = false := by
      rw [← Bool.not_eq_true, pyIn_iff]; exact h3
    cases e <;> simp only [route, if_neg h1, if_neg h2, h4, Bool.false_eq_true, if_false]

/-- the documented torch solvers -/
def preName : PyStr := "entropic_torch_pre".toList
def postName : PyStr := "entropic_torch_post".toList

/-- **C66** (partial: `Portfolio` is excluded, see `C66_portfolio_false`) The documented names select the documented sampling: '_pre'
pre-samples, '_post' post-samples, for every estimator but `Portfolio`. -/
theorem C66_documented_partial (e : EstKind) (he : e ≠ .portfolio) :
    route e preName = .ok (.torch false) ∧ route e postName = .ok (.torch true) := by
  cases e <;> first | exact absurd rfl he | exact ⟨by decide, by decide⟩

/-- **C66** (violated) `Portfolio` does the opposite: '_pre' post-samples and '_post' pre-samples. -/
theorem C66_portfolio_false :
    route .portfolio preName = .ok (.torch true) ∧ route .portfolio postName = .ok (.torch false) := ⟨by decide, by decide⟩

/-- **C66** (violated) The bare name 'entropic_torch' does not mean the same thing everywhere: it pre-samples for `NewsVendor`,
post-samples for the others. -/
theorem C66_bare_name_false (e : EstKind) : route e "entropic_torch".toList = .ok (.torch (decide (e ≠ .newsvendor))) := by
  cases e <;> decide

/-- **C66** (violated) Unknown names are not all refused: whatever surrounds it, 'torch' is accepted, and a trailing 'post' that is not the
documented name is read as pre-sampling by every estimator. -/
theorem C66_unknown_false :
    (∀ (e : EstKind) (a b : PyStr), ∃ post, route e (a ++ "torch".toList ++ b) = .ok (.torch post)) ∧
    ∀ e : EstKind, route e "torch_post".toList = .ok (.torch false) := by
  refine ⟨fun e a b => route_torch e ((pyIn_iff _ _).2 ⟨a, b, rfl⟩), fun e => ?_⟩
  cases e <;> decide

example : route .logistic "torchlight".toList = .ok (.torch false) := by decide
example : route .weber "dedicated".toList = .error .notImplemented := by decide

/-- **C66** In every `fit`, a refused name stops before anything is fitted, with the exception of the table above (data accepted and
decodable cost). -/
theorem C66_fit {G : Type} {n d : ℕ} (ext : TorchExt G) (grads : Autograd d) (solve : Oracle) (train : Trainer d) (init : LinInit d)
    (P : EstParams) {c : CostObj} {err : PyErr} (hn : 0 < n) (hd : 0 < d) (hc : cost_from_str P.cost = .ok c) (X : Fin n → Fin d → ℝ)
    (y : Fin n → ℝ) (g : G) :
    (route .linreg P.solver = .error err → linregFit ext grads solve train init P X y g = .error err) ∧
    (route .weber P.solver = .error err → ∀ pos0, weberFit ext grads train pos0 P X y g = .error err) ∧
    (route .portfolio P.solver = .error err → P.solver_reg ≠ none → ∀ (J : ℕ) (C : Fin J → Fin d → ℝ) D p0,
      portfolioFit ext grads solve train p0 P C D X g = .error err) ∧
    (route .newsvendor P.solver = .error err → ∀ grads1 train1 th, newsvendorFit ext grads1 solve train1 th P X g = .error err) ∧
    (route .logistic P.solver = .error err → 2 ≤ (npUnique y).length → logisticFit ext grads solve train init P X y g = .error err) := by
  have h0 : ¬ (n = 0 ∨ d = 0) := by omega
  refine ⟨fun h => ?_, fun h pos0 => ?_, fun h hg J C D p0 => ?_, fun h g1 t1 th => ?_, fun h h2 => ?_⟩
  · simp only [linregFit, if_neg h0, hc, h]; rfl
  · simp only [weberFit, if_neg h0, h]; rfl
  · obtain ⟨r, hr⟩ := Option.ne_none_iff_exists'.1 hg
    simp only [portfolioFit, if_neg h0, hc, h, regAsFloat, hr]; rfl
  · simp only [newsvendorFit, if_neg h0, hc, h]; rfl
  · simp only [logisticFit, if_neg h0, hc, h, if_neg (show ¬ (npUnique y).length < 2 by omega)]; rfl

/-! ## C78 -/

/-- the radius is a negative number -/
def NegRadius (r : Radius) : Prop := ∃ x : ℝ, x < 0 ∧ r = .num x

theorem neg_iff (r : Radius) : r.neg ↔ NegRadius r := by
  cases r with
  | nan => simp [Radius.neg, NegRadius]
  | num x => simp [Radius.neg, NegRadius]

/-- **C78** (partial: NaN passes, see `C78_nan_false`) Every constructor refuses a negative radius with `ValueError`; `Portfolio` moreover
refuses exactly the risk aversions below 0, the confidence levels outside (0,1], the negative regularisations and sample counts, and
`solver_reg=None` (with `TypeError`).  What is accepted is stored unchanged. -/
theorem C78_constructors_partial (e : EstKind) (P : EstParams) :
    (NegRadius P.rho → construct e P = .error .valueError) ∧
    (e ≠ .portfolio → ¬ NegRadius P.rho → construct e P = .ok P) ∧
    ((¬ NegRadius P.rho ∧ 0 ≤ P.eta ∧ 0 < P.alpha ∧ P.alpha ≤ 1 ∧ (∃ r, P.solver_reg = some r ∧ 0 ≤ r) ∧ 0 ≤ P.n_zeta_samples) →
      construct .portfolio P = .ok P) ∧
    (¬ (¬ NegRadius P.rho ∧ 0 ≤ P.eta ∧ 0 < P.alpha ∧ P.alpha ≤ 1 ∧ (∀ r, P.solver_reg = some r → 0 ≤ r) ∧ 0 ≤ P.n_zeta_samples) →
      P.solver_reg ≠ none → construct .portfolio P = .error .valueError) ∧
    (P.solver_reg = none → ∃ x, construct .portfolio P = .error x ∧ (x = .valueError ∨ x = .typeError)) := by
  refine ⟨fun h => ?_, fun he h => ?_, fun h => ?_, fun h hg => ?_, fun h => ?_⟩
  · have := (neg_iff _).2 h
    cases e <;> simp only [construct, if_pos this]
  · have := mt (neg_iff _).1 h
    cases e <;> first | exact absurd rfl he | simp only [construct, if_neg this]
  · obtain ⟨h1, h2, h3, h4, ⟨r, hr, h5⟩, h6⟩ := h
    simp only [construct, if_neg (mt (neg_iff _).1 h1), if_neg (not_lt.2 h2), if_neg (not_lt.2 h6), hr, if_neg (not_lt.2 h5),
      if_neg (show ¬ (P.alpha ≤ 0 ∨ 1 < P.alpha) by push Not; exact ⟨h3, h4⟩)]
  · obtain ⟨r, hr⟩ := Option.ne_none_iff_exists'.1 hg
    by_contra h'
    apply h
    simp only [construct, hr] at h'
    refine ⟨fun hn => h' (by rw [if_pos ((neg_iff _).2 hn)]), ?_, ?_, ?_, fun r' hr' => ?_, ?_⟩ <;> by_contra hc <;> apply h'
    · rw [if_pos (lt_of_not_ge hc)]; split <;> rfl
    · rw [if_pos (Or.inl (le_of_not_gt hc))]; split_ifs <;> rfl
    · rw [if_pos (Or.inr (lt_of_not_ge hc))]; split_ifs <;> rfl
    · rw [hr, Option.some.injEq] at hr'
      subst hr'
      rw [if_pos (lt_of_not_ge hc)]; split_ifs <;> rfl
    · rw [if_pos (lt_of_not_ge hc)]; split_ifs <;> rfl
  · simp only [construct, h]
    split_ifs
    exacts [⟨_, rfl, Or.inl rfl⟩, ⟨_, rfl, Or.inl rfl⟩, ⟨_, rfl, Or.inl rfl⟩, ⟨_, rfl, Or.inr rfl⟩]

/-- **C78** (violated) A NaN radius is accepted by every constructor. -/
theorem C78_nan_false (e : EstKind) (P : EstParams) (h : e = .portfolio → 0 ≤ P.eta ∧ 0 < P.alpha ∧ P.alpha ≤ 1 ∧
    (∃ r, P.solver_reg = some r ∧ 0 ≤ r) ∧ 0 ≤ P.n_zeta_samples) :
    construct e { P with rho := .nan } = .ok { P with rho := .nan } := by
  have hn : ¬ NegRadius .nan := by rintro ⟨x, -, hx⟩; cases hx
  by_cases he : e = .portfolio
  · subst he
    exact (C78_constructors_partial .portfolio { P with rho := .nan }).2.2.1 ⟨hn, h rfl⟩
  · exact (C78_constructors_partial e { P with rho := .nan }).2.1 he hn

/-- **C78** (violated) Only `Portfolio` checks anything but the radius: the other constructors accept a negative regularisation and a
negative number of samples. -/
theorem C78_unchecked_false (e : EstKind) (he : e ≠ .portfolio) :
    construct e { e.defaults with n_zeta_samples := -1, solver_reg := some (-1) } =
      .ok { e.defaults with n_zeta_samples := -1, solver_reg := some (-1) } := by
  apply (C78_constructors_partial e _).2.1 he
  rintro ⟨x, hx, h⟩
  cases e <;> simp only [EstKind.defaults, Radius.num.injEq] at h <;> (subst h; norm_num at hx)

/-- **C78** The default arguments are accepted. -/
theorem C78_defaults (e : EstKind) : construct e e.defaults = .ok e.defaults := by
  have hr : ¬ NegRadius e.defaults.rho := by
    rintro ⟨x, hx, h⟩
    cases e <;> simp only [EstKind.defaults, Radius.num.injEq] at h <;> (subst h; norm_num at hx)
  by_cases he : e = .portfolio
  · subst he
    refine (C78_constructors_partial .portfolio _).2.2.1 ⟨hr, ?_, ?_, ?_, ?_, ?_⟩ <;> simp only [EstKind.defaults] <;> norm_num
  · exact (C78_constructors_partial e _).2.1 he hr

end Skwdro
