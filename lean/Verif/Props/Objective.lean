import Verif.Props.Estimators
import Verif.Props.Dual
import Verif.Lemmas.WrapProblem

/-! # C80: the robust objective built by the linear and logistic regressions -/

namespace Skwdro
open Spec Tensor

theorem apply_isMat {N d K : ℕ} (l : LinMap d K) {x : Tensor ℝ} {X : Fin N → Fin d → ℝ} (hx : IsMat x X) :
    ∃ t, l.apply x = .ok t ∧ IsMat t (fun i c => l.out (X i) c) := by
  refine ⟨_, if_pos (by simp [hx.1]), by simp [hx.1], fun i c => ?_⟩
  have e : ∀ k : Fin d, x.get [i.1, k.1] = X i k := fun k => hx.2 i k
  simp [e]

/-- squared error of each sample -/
theorem mse_rows {d : ℕ} (l : LinMap d 1) :
    RowWise (Module.mse l).flat (fun (x : Fin d → ℝ) (y : Fin 1 → ℝ) (_ : Fin 1) => (l.out x 0 - y 0) ^ 2) := by
  intro N x y X Y hx hy
  obtain ⟨t, h1, h2⟩ := apply_isMat l hx
  obtain ⟨c, h3, h4⟩ := zip_rows (f := fun a b => (a - b) ^ 2) (hasRows_of_isMat h2) (hasRows_of_isMat hy)
  refine ⟨c, by simp only [Module.flat, h1, ok_bind, h3], h4.1, fun i k => ?_⟩
  have hk : k = 0 := Subsingleton.elim _ _
  subst hk
  simpa [rowsOf_apply] using h4.2 [i.1] (List.Forall₂.cons i.2 List.Forall₂.nil) 0

/-- logistic loss of the margin of each sample -/
theorem softMargin_rows {d : ℕ} (l : LinMap d 1) :
    RowWise (Module.softMargin l).flat (fun (x : Fin d → ℝ) (y : Fin 1 → ℝ) (_ : Fin 1) => logloss (y 0) (l.out x 0)) := by
  intro N x y X Y hx hy
  obtain ⟨t, h1, h2⟩ := apply_isMat l hx
  have hy' : HasRows y [N] (fun i (_ : Fin 1) => rowsOf Y i 0) := by
    have := hasRows_of_isMat hy
    refine ⟨this.1, fun i hi k => ?_⟩
    rw [this.2 i hi k, Subsingleton.elim k 0]
  obtain ⟨v, h3, h4⟩ := view_same (Or.inl hy')
  obtain ⟨c, h5, h6⟩ := zip_rows (f := fun t s => -logsigmoid (t * s)) h4 (hasRows_of_isMat h2)
  refine ⟨c, ?_, h6.1, fun i k => ?_⟩
  · have hsh : t.shape = [N] ++ [1] := h2.1
    simp only [Module.flat, h1, ok_bind, biDiffSoftMargin, hsh, h3, h5]
  · have hk : k = 0 := Subsingleton.elim _ _
    subst hk
    have := h6.2 [i.1] (List.Forall₂.cons i.2 List.Forall₂.nil) 0
    simpa [rowsOf_apply, neg_logsigmoid] using this

theorem expertEpsilon_pos {rho p : ℝ} {e : Option ℝ} (he : ∀ x, e = some x → 0 < x) :
    0 < (expertEpsilon (.num rho) p e EPSILON_SIGMA_FACTOR SIGMA_FACTOR).getD 0 := by
  cases e with
  | some x => exact he x rfl
  | none => exact lt_of_lt_of_le (by norm_num) (le_max_right _ _)

/-- the robust loss built from a labelled, per-sample loss when importance sampling is off -/
theorem dualize_labelled_off {G : Type} {ext : TorchExt G} {a : DualizeArgs} {g g' : G} {D : DualLoss} (h : dualize ext a g = .ok (D, g'))
    (hl : a.xi_labels.isSome = true) (hsp : a.loss_reduces_spatial_dims = false) (hi : D.impSamp = false)
    (hsig : ∀ s, a.sigma = some s → 0 < s) {rho : ℝ} (hr : a.rho = .num rho) (hpos : 0 < rho) (he : ∀ x, a.epsilon = some x → 0 < x)
    (hred : a.reduction = none) {d k s : ℕ} (hs : 0 < s) {ell : (Fin d → ℝ) → (Fin k → ℝ) → Fin s → ℝ} (hrow : RowWise a.flat ell) (lam : ℝ) :
    Labelled a.wloss { D with lam := lam } ell rho ∧ D.reduction = .mean ∧
      D.epsilon = (expertEpsilon a.rho D.cost.power a.epsilon EPSILON_SIGMA_FACTOR SIGMA_FACTOR).getD 0 ∧
      ∃ parsed obj, parse_code_torch a.cost_spec true = .ok parsed ∧ cost_from_parse_torch parsed = .ok obj ∧ obj.toReal = some D.cost := by
  obtain ⟨parsed, obj, c, smp, hp, ho, hc, -, rfl⟩ := dualize_ok h
  have hsup : Supported obj.power obj.p := by
    by_contra hn
    rw [(C08_supported_costs (ext := ext) a g hp ho hsig).2 hn] at h
    cases h
  have hord : NormOrder c.p := by
    unfold CostObj.toReal at hc
    split at hc
    · simp only [Option.some.injEq] at hc
      subst hc
      rcases hsup with ⟨-, h | h | h⟩ | ⟨-, h⟩ <;> simp only [h, XNum.map]
      · exact Or.inl ⟨1, le_refl _, by simp⟩
      · exact Or.inl ⟨2, by norm_num, by simp⟩
      · exact Or.inr rfl
      · exact Or.inl ⟨2, by norm_num, by simp⟩
    · cases hc
  refine ⟨⟨rfl, hl, by simp [DualizeArgs.wloss, hsp], hs, hrow, ⟨hord, fun hk => kappa_ok ho hc hk⟩, hr, hpos, ?_, rfl, ?_⟩, ?_, rfl,
    parsed, obj, by rw [← hl]; exact hp, ho, hc⟩
  · simp only [dualOf, hr]
    exact expertEpsilon_pos he
  · exact hi
  · simp [dualOf, hred, reductionAttr]

/-- the robust loss built from a labelled, per-sample loss without importance sampling -/
theorem dualize_labelled {G : Type} {ext : TorchExt G} {a : DualizeArgs} {g g' : G} {D : DualLoss} (h : dualize ext a g = .ok (D, g'))
    (hl : a.xi_labels.isSome = true) (hsp : a.loss_reduces_spatial_dims = false) (hi : a.imp_samp = false)
    (hsig : ∀ s, a.sigma = some s → 0 < s) {rho : ℝ} (hr : a.rho = .num rho) (hpos : 0 < rho) (he : ∀ x, a.epsilon = some x → 0 < x)
    (hred : a.reduction = none) {d k s : ℕ} (hs : 0 < s) {ell : (Fin d → ℝ) → (Fin k → ℝ) → Fin s → ℝ} (hrow : RowWise a.flat ell) (lam : ℝ) :
    Labelled a.wloss { D with lam := lam } ell rho ∧ D.reduction = .mean ∧
      D.epsilon = (expertEpsilon a.rho D.cost.power a.epsilon EPSILON_SIGMA_FACTOR SIGMA_FACTOR).getD 0 ∧
      ∃ parsed obj, parse_code_torch a.cost_spec true = .ok parsed ∧ cost_from_parse_torch parsed = .ok obj ∧ obj.toReal = some D.cost := by
  refine dualize_labelled_off h hl hsp ?_ hsig hr hpos he hred hs hrow lam
  obtain ⟨parsed, obj, c, smp, -, -, -, -, rfl⟩ := dualize_ok h
  simp [dualOf, decideOnImpsamp, hi]

/-- **C80** (pre-sampled solvers, written out) Linear regression: whatever the data, the parameters `l`, the noisy
samples `Z`, `W` and the multiplier `lam`, the objective handed to the solver is the soft-max robust loss of the squared error, plus the
ridge penalty on all parameters; its cost is that of the code and its regularisation the one given. -/
theorem C80_linreg_presampled {G : Type} {n m N d : ℕ} {ext : TorchExt G} {grads : Autograd d} {P : EstParams} (hr : route .linreg P.solver = .ok (.torch false))
    (hsig : ∀ s, P.sampler_reg = some s → 0 < s) (heps : ∀ e, P.solver_reg = some e → 0 < e) {rho : ℝ} (hrho : P.rho = .num rho) (hpos : 0 < rho)
    (X : Fin N → Fin d → ℝ) (y : Fin N → ℝ) (l : LinMap d 1) {post : Bool} (hpost : route .linreg P.solver = .ok (.torch post)) {g g' : G} {D : DualLoss}
    (h : dualize ext (torchArgs grads .linreg P post false (matT X) (some (matT fun i (_ : Fin 1) => y i)) (.mse l)) g = .ok (D, g'))
    (hn : 0 < n) (hm : 0 < m) (lam : ℝ) (X0 : Fin m → Fin d → ℝ) (Y0 : Fin m → Fin 1 → ℝ) (Z : Fin n → Fin m → Fin d → ℝ)
    (W : Fin n → Fin m → Fin 1 → ℝ) :
    ReturnsVal (computeDual ext { D with lam := lam } (mat X0) (some (mat Y0)) (ten Z) (some (ten W))) (fun v => IsScalar v
      (lam * rho ^ D.cost.power + (∑ i, D.epsilon * Real.log ((∑ j, Real.exp (((l.out (Z j i) 0 - W j i 0) ^ 2 + ridge (some P.l2_reg) l.params -
        lam * costAt D.cost (X0 i) (Z j i) (Y0 i) (W j i)) / D.epsilon)) / n)) / m)) ∧
    0 < D.epsilon ∧ (∀ e, P.solver_reg = some e → D.epsilon = e) ∧
    ∃ parsed obj, parse_code_torch (some P.cost) true = .ok parsed ∧ cost_from_parse_torch parsed = .ok obj ∧ obj.toReal = some D.cost := by
  have hp : post = false := by rw [hr] at hpost; simpa using hpost.symm
  subst hp
  obtain ⟨hL, hmean, heq, hcode⟩ := dualize_labelled h rfl rfl rfl hsig hrho hpos heps rfl one_pos (mse_rows l) lam
  refine ⟨?_, hL.eps_pos, fun e he => ?_, hcode⟩
  · have := C29_formula_labelled ext hL hmean hn hm (isMat_mat X0) (isTen_ten Z) (isMat_mat Y0) (isTen_ten W)
    have e1 : (torchArgs grads EstKind.linreg P false false (matT X) (some (matT fun i (_ : Fin 1) => y i)) (.mse l)).wloss.l2reg =
      some P.l2_reg := rfl
    have e2 : (torchArgs grads EstKind.linreg P false false (matT X) (some (matT fun i (_ : Fin 1) => y i)) (.mse l)).wloss.theta =
      l.params := rfl
    simpa [lossAt, avg, e1, e2] using this
  · rw [heq, show (torchArgs grads EstKind.linreg P false false (matT X) (some (matT fun i (_ : Fin 1) => y i)) (.mse l)).epsilon = some e from he]
    rfl

/-- **C80** (pre-sampled solvers, two classes, written out) Logistic regression: the same with the logistic loss of the margin. -/
theorem C80_logistic_presampled {G : Type} {n m N d : ℕ} {ext : TorchExt G} {grads : Autograd d} {P : EstParams} (hr : route .logistic P.solver = .ok (.torch false))
    (hsig : ∀ s, P.sampler_reg = some s → 0 < s) (heps : ∀ e, P.solver_reg = some e → 0 < e) {rho : ℝ} (hrho : P.rho = .num rho) (hpos : 0 < rho)
    (X : Fin N → Fin d → ℝ) (y : Fin N → ℝ) (l : LinMap d 1) {post : Bool} (hpost : route .logistic P.solver = .ok (.torch post)) {g g' : G} {D : DualLoss}
    (h : dualize ext (torchArgs grads .logistic P post false (matT X) (some (matT fun i (_ : Fin 1) => y i)) (.softMargin l)) g = .ok (D, g'))
    (hn : 0 < n) (hm : 0 < m) (lam : ℝ) (X0 : Fin m → Fin d → ℝ) (Y0 : Fin m → Fin 1 → ℝ) (Z : Fin n → Fin m → Fin d → ℝ)
    (W : Fin n → Fin m → Fin 1 → ℝ) :
    ReturnsVal (computeDual ext { D with lam := lam } (mat X0) (some (mat Y0)) (ten Z) (some (ten W))) (fun v => IsScalar v
      (lam * rho ^ D.cost.power + (∑ i, D.epsilon * Real.log ((∑ j, Real.exp ((logloss (W j i 0) (l.out (Z j i) 0) + ridge (some P.l2_reg) l.params -
        lam * costAt D.cost (X0 i) (Z j i) (Y0 i) (W j i)) / D.epsilon)) / n)) / m)) ∧
    0 < D.epsilon ∧ (∀ e, P.solver_reg = some e → D.epsilon = e) ∧
    ∃ parsed obj, parse_code_torch (some P.cost) true = .ok parsed ∧ cost_from_parse_torch parsed = .ok obj ∧ obj.toReal = some D.cost := by
  have hp : post = false := by rw [hr] at hpost; simpa using hpost.symm
  subst hp
  obtain ⟨hL, hmean, heq, hcode⟩ := dualize_labelled h rfl rfl rfl hsig hrho hpos heps rfl one_pos (softMargin_rows l) lam
  refine ⟨?_, hL.eps_pos, fun e he => ?_, hcode⟩
  · have := C29_formula_labelled ext hL hmean hn hm (isMat_mat X0) (isTen_ten Z) (isMat_mat Y0) (isTen_ten W)
    have e1 : (torchArgs grads EstKind.logistic P false false (matT X) (some (matT fun i (_ : Fin 1) => y i)) (.softMargin l)).wloss.l2reg =
      some P.l2_reg := rfl
    have e2 : (torchArgs grads EstKind.logistic P false false (matT X) (some (matT fun i (_ : Fin 1) => y i)) (.softMargin l)).wloss.theta =
      l.params := rfl
    simpa [lossAt, avg, e1, e2] using this
  · rw [heq, show (torchArgs grads EstKind.logistic P false false (matT X) (some (matT fun i (_ : Fin 1) => y i)) (.softMargin l)).epsilon = some e from he]
    rfl

/-- the hypotheses are met by the documented pre-sampled solver with the other arguments at their defaults, on all data -/
theorem preSampled_ready {G : Type} {N d : ℕ} (ext : TorchExt G) (grads : Autograd d) (X : Fin N → Fin d → ℝ) (y : Fin N → ℝ) (l : LinMap d 1) (g : G) :
    route .linreg preName = .ok (.torch false) ∧ route .logistic preName = .ok (.torch false) ∧
    (∃ D g', dualize ext (torchArgs grads .linreg { EstKind.linreg.defaults with solver := preName } false false (matT X)
      (some (matT fun i (_ : Fin 1) => y i)) (.mse l)) g = .ok (D, g')) ∧
    ∃ D g', dualize ext (torchArgs grads .logistic { EstKind.logistic.defaults with solver := preName } false false (matT X)
      (some (matT fun i (_ : Fin 1) => y i)) (.softMargin l)) g = .ok (D, g') := by
  obtain ⟨parsed, obj, h1, h2, h3⟩ := default_parse
  have hsig : ∀ s : ℝ, (none : Option ℝ) = some s → 0 < s := by simp
  refine ⟨by decide, by decide, ?_, ?_⟩
  · obtain ⟨D, g', s, hd, -⟩ := (C08_supported_costs (ext := ext) (torchArgs grads .linreg { EstKind.linreg.defaults with solver := preName } false
      false (matT X) (some (matT fun i (_ : Fin 1) => y i)) (.mse l)) g h1 h2 hsig).1 h3
    exact ⟨D, g', hd⟩
  · obtain ⟨D, g', s, hd, -⟩ := (C08_supported_costs (ext := ext) (torchArgs grads .logistic { EstKind.logistic.defaults with solver := preName } false
      false (matT X) (some (matT fun i (_ : Fin 1) => y i)) (.softMargin l)) g h1 h2 hsig).1 h3
    exact ⟨D, g', hd⟩

end Skwdro
