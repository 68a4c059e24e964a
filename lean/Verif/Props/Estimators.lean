import Verif.Props.Classifier
import Verif.Props.Losses
import Verif.Props.Portfolio
import Verif.Props.LinReg
import Verif.Props.WrappedLoss

/-! # Properties of the estimators: C67 (defaults), C76 (cost codes), C77 (scores), C79 (intercepts), C81 (prediction shapes) -/

namespace Skwdro
open Spec Tensor

/-! ## C76 -/

/-- **C76** (violated) Decoding puts the third field in the power and the fourth in the norm order, the opposite of the documented
`engine-id-norm-power`: so a code naming distinct norm order `k` and power `p` gives a cost whose norm order is not `k`. -/
theorem C76_order_false (k p : ℕ) :
    ∃ c, cost_from_str (joinDash ["t".toList, "NLC".toList, decimal k, decimal p]) = .ok c ∧ c.power = .fin k ∧ c.p = .fin p ∧
      (k ≠ p → c.p ≠ .fin k ∧ c.power ≠ .fin p) := by
  refine ⟨_, (C01_decimal_roundtrip k p 1).2.1, rfl, rfl, fun h => ⟨?_, ?_⟩⟩
  · intro h'; simp only [XNum.fin.injEq, Nat.cast_inj] at h'; exact h h'.symm
  · intro h'; simp only [XNum.fin.injEq, Nat.cast_inj] at h'; exact h h'

/-- **C76** (what holds) When both numbers agree — as in the default codes of the regressions — the documented reading is right. -/
theorem C76_equal_partial (k : ℕ) :
    ∃ c, cost_from_str (joinDash ["t".toList, "NLC".toList, decimal k, decimal k]) = .ok c ∧ c.p = .fin k ∧ c.power = .fin k :=
  ⟨_, (C01_decimal_roundtrip k k 1).2.1, rfl, rfl⟩

example : joinDash ["t".toList, "NLC".toList, decimal 2, decimal 2] = EstKind.logistic.defaults.cost := by decide

theorem code_cost (w t : ℕ) : cost_from_str (joinDash ["t".toList, "NC".toList, decimal w, decimal t]) =
    .ok ⟨.normCost, .fin t, .fin w, none, some (joinDash ["t".toList, "NC".toList, decimal w, decimal t])⟩ :=
  (C01_decimal_roundtrip w t 1).2.2

/-- **C76** (what holds) The dedicated portfolio solver does read the third field as its norm order (see C63) and ignores the fourth. -/
theorem C76_portfolio_partial {G : Type} {n m J : ℕ} (ext : TorchExt G) (grads : Autograd m) (solve : Oracle) (train : Trainer m)
    (p0 : Portfolio) (P : EstParams) (hs : P.solver = "dedicated".toList) (C : Fin J → Fin m → ℝ) (D : Fin J → ℝ) (X : Fin n → Fin m → ℝ)
    (g : G) (k p p' : ℕ) :
    portfolioFit ext grads solve train p0 { P with cost := joinDash ["t".toList, "NC".toList, decimal k, decimal p] } C D X g =
    portfolioFit ext grads solve train p0 { P with cost := joinDash ["t".toList, "NC".toList, decimal k, decimal p'] } C D X g := by
  have hr : route .portfolio P.solver = .ok .dedicated := by
    rw [((C66_route_partial .portfolio P.solver).2.1 hs)]; rfl
  simp only [portfolioFit, code_cost, ok_bind, hr, regAsFloat]

/-! ## C67 -/

/-- a fitted logistic regression predicts, on all data, labels seen at training time -/
theorem logistic_predicts {G L : Type} [LinearOrder L] {n d : ℕ} {ext : TorchExt G} {grads : Autograd d} {solve : Oracle}
    {train : Trainer d} (ht : GoodTrainer train) {init : LinInit d} (hi : GoodInit init) {P : EstParams}
    {X : Fin n → Fin d → ℝ} {y : Fin n → L} (h2 : 2 ≤ (npUnique y).length) {g : G} {f : LogFitted L d}
    (hf : logisticFit ext grads solve train init P X y g = .ok f) (N : ℕ) (X' : Fin N → Fin d → ℝ) :
    ∃ labels, f.predict X' = .ok labels ∧ labels.toList.length = N ∧ ∀ l ∈ labels.toList, ∃ i, y i = l := by
  rcases eq_or_lt_of_le h2 with h | h
  · obtain ⟨w, b, c0, c1, -, hc, -, hp⟩ := C64_binary_predict ht hi hf h.symm
    refine ⟨_, hp N X', by simp [Labels.toList], fun l hl => ?_⟩
    simp only [Labels.toList, List.mem_ofFn] at hl
    obtain ⟨i, rfl⟩ := hl
    rw [← mem_npUnique, hc]
    split_ifs <;> simp
  · obtain ⟨w, b, -, hp⟩ := C64_multiclass_predict ht hi hf h
    obtain ⟨best, hb, -⟩ := hp N X'
    refine ⟨_, hb, by simp [Labels.toList], fun l hl => ?_⟩
    simp only [Labels.toList, List.mem_ofFn] at hl
    obtain ⟨i, rfl⟩ := hl
    rw [← mem_npUnique]
    exact List.getElem_mem _

theorem two_le_npUnique {L : Type} [LinearOrder L] {n : ℕ} {y : Fin n → L} {i j : Fin n} (hy : y i ≠ y j) : 2 ≤ (npUnique y).length := by
  rw [npUnique, Finset.length_sort]
  refine Finset.one_lt_card.2 ⟨y i, ?_, y j, ?_, hy⟩ <;> simp

/-- **C67** (partial: see the violations) Logistic regression with default arguments: fits all data with at least two classes, provided the
training itself returns, and then predicts on all data. -/
theorem C67_logistic_partial {G L : Type} [LinearOrder L] {n d : ℕ} (ext : TorchExt G) (grads : Autograd d) (solve : Oracle)
    {train : Trainer d} (htot : TotalTrainer train) (ht : GoodTrainer train) {init : LinInit d} (hi : GoodInit init)
    (hn : 0 < n) (hd : 0 < d) (X : Fin n → Fin d → ℝ) {y : Fin n → L} {i j : Fin n} (hy : y i ≠ y j) (g : G) :
    ∃ f, logisticFit ext grads solve train init EstKind.logistic.defaults X y g = .ok f ∧
      ∀ (N : ℕ) (X' : Fin N → Fin d → ℝ), ∃ labels, f.predict X' = .ok labels ∧ labels.toList.length = N ∧
        ∀ l ∈ labels.toList, ∃ i, y i = l := by
  obtain ⟨f, hf⟩ := logisticFit_total (ext := ext) (grads := grads) (solve := solve) htot ht hi default_ready hn hd X (two_le_npUnique hy) g
  exact ⟨f, hf, logistic_predicts ht hi (two_le_npUnique hy) hf⟩

/-- what a fitted linear regression holds: on the dedicated route, the solution of the convex program (or `None` when the external solver
fails); on the torch route, the trained linear layer, which always has a bias -/
theorem linregFit_ok {G : Type} {n d : ℕ} {ext : TorchExt G} {grads : Autograd d} {solve : Oracle} {train : Trainer d}
    (ht : GoodTrainer train) {init : LinInit d} (hi : GoodInit init) {P : EstParams} {X : Fin n → Fin d → ℝ} {y : Fin n → ℝ} {g : G}
    {f : Fitted d} (h : linregFit ext grads solve train init P X y g = .ok f) :
    (route .linreg P.solver = .ok .dedicated ∧ ∃ rho, P.rho.toNum = .ok rho ∧ 0 < rho ∧
      ((∃ v, solve _ (linregProgram rho X y P.fit_intercept) = some v ∧ f.coef = some (listT (List.ofFn v.1)) ∧
          f.intercept = some (listT [v.2])) ∨
        (solve _ (linregProgram rho X y P.fit_intercept) = none ∧ f.coef = none ∧ f.intercept = none))) ∨
    (∃ post, route .linreg P.solver = .ok (.torch post) ∧ ∃ (l : LinMap d 1) (b : Fin 1 → ℝ), l.bias = some b ∧
      f.coef = some (listT (List.ofFn (l.weight 0))) ∧ f.intercept = some (listT (List.ofFn b)) ∧
      fitTorch ext grads train .linreg P post false (matT X) (some (matT fun i (_ : Fin 1) => y i)) (.mse (init 1 true)) g = .ok (.mse l)) := by
  unfold linregFit at h
  split at h
  · simp at h
  obtain ⟨c, -, h⟩ := bind_ok h
  obtain ⟨r, hr, h⟩ := bind_ok h
  cases r with
  | dedicated =>
    simp only at h
    obtain ⟨res, hres, h⟩ := bind_ok h
    obtain ⟨t, hu, h⟩ := bind_ok h
    obtain ⟨rho, hrho, hres⟩ : ∃ rho, P.rho.toNum = .ok rho ∧ linregDedicated solve rho X y P.fit_intercept = .ok res := by
      unfold linregAt at hres
      split at hres
      next r e => exact ⟨r, by rw [e]; rfl, hres⟩
      · cases hres
    unfold linregDedicated at hres
    split at hres
    · next hpos =>
      refine Or.inl ⟨hr, rho, hrho, hpos, ?_⟩
      cases hv : solve _ (linregProgram rho X y P.fit_intercept) with
      | some v =>
        rw [hv] at hres
        rw [unpack3_tuple hres] at hu
        simp only [Except.ok.injEq] at hu h
        subst hu h
        exact Or.inl ⟨v, rfl, rfl, rfl⟩
      | none =>
        rw [hv] at hres
        rw [unpack3_tuple hres] at hu
        simp only [Except.ok.injEq] at hu h
        subst hu h
        exact Or.inr ⟨rfl, rfl, rfl⟩
    · cases hres
  | torch post =>
    simp only at h
    obtain ⟨M, hM, h⟩ := bind_ok h
    have hs := fitTorch_ok ht hM
    refine Or.inr ⟨post, hr, ?_⟩
    cases M with
    | mse l =>
      simp only [SameShape] at hs
      rw [hi 1 true] at hs
      obtain ⟨b, hb⟩ := Option.isSome_iff_exists.1 hs.symm
      simp only [Except.ok.injEq] at h
      subst h
      exact ⟨l, b, hb, rfl, by simp [hb], hM⟩
    | softMargin l => exact hs.elim
    | crossEnt l => exact hs.elim
    | weber p => exact hs.elim
    | portfolio p => exact hs.elim
    | newsvendor a b c => exact hs.elim

/-- a linear regression with weights `w` and offset `b` predicts the affine function of the data, one number per sample -/
theorem linregPredict_affine {n d : ℕ} {f : Fitted d} {w : Fin d → ℝ} {b : ℝ} (hc : f.coef = some (listT (List.ofFn w)))
    (hb : f.intercept = some (listT [b])) (X : Fin n → Fin d → ℝ) :
    Returns (linregPredict f X) (fun t => IsVec t (fun i => affine w b (X i))) := by
  obtain ⟨s, hs, -, hv, -⟩ := npDot_coef X (Or.inl (listT_ofFn w))
  have hv := hv (listT_ofFn w)
  have hB : Is (listT [b]) [1] (fun _ => b) := ⟨rfl, fun i hi => by
    rcases hi with _ | ⟨hi, hn⟩
    cases hn
    simp [listT, Nat.lt_one_iff.1 hi]⟩
  obtain ⟨r, hr, hI⟩ := Is.zipWith_left (f := (· + ·)) (s := []) hB hv.is
  refine ⟨r, by simp only [linregPredict, dotCoef, hc, hs, ok_bind, hb, npZip, hr], ?_⟩
  have := isVec_iff.1 hI
  refine ⟨this.1, fun k => ?_⟩
  rw [this.2 k]
  simp [affine, add_comm]

/-! ## C79 -/

/-- **C79** (partial: see `C79_torch_linreg_false`) The dedicated linear regression without intercept has none, on all data: with an exact
external solver, whatever is fitted predicts a linear function, zero at the origin. -/
theorem C79_linreg_dedicated_partial {G : Type} {n d : ℕ} {ext : TorchExt G} {grads : Autograd d} {solve : Oracle} (hs : ExactSolver solve)
    {train : Trainer d} (ht : GoodTrainer train) {init : LinInit d} (hi : GoodInit init) {P : EstParams} (hP : P.solver = "dedicated".toList)
    (hf : P.fit_intercept = false) {X : Fin n → Fin d → ℝ} {y : Fin n → ℝ} {g : G} {f : Fitted d}
    (h : linregFit ext grads solve train init P X y g = .ok f) :
    ∃ w : Fin d → ℝ, ∀ (N : ℕ) (X' : Fin N → Fin d → ℝ),
      Returns (linregPredict f X') (fun t => IsVec t (fun i => ∑ j, X' i j * w j)) := by
  have hn : 0 < n := by
    by_contra h0
    simp [linregFit, show n = 0 by omega] at h
  rcases linregFit_ok ht hi h with ⟨-, rho, -, hpos, ⟨v, hv, hc, hb⟩ | ⟨hv, -⟩⟩ | ⟨post, hr, -⟩
  · have hz : v.2 = 0 := by
      have := ((hs _ _).1 v hv).1
      simpa [Program.Feasible, linregProgram, hf] using this
    refine ⟨v.1, fun N X' => ?_⟩
    obtain ⟨t, h1, h2⟩ := linregPredict_affine hc hb X'
    exact ⟨t, h1, by simpa [affine, hz] using h2⟩
  · obtain ⟨v, hv'⟩ := (hs _ _).2 (linreg_exists hn hpos X y P.fit_intercept)
    rw [hv] at hv'
    cases hv'
  · rw [(C66_route_partial .linreg P.solver).2.1 hP] at hr
    simp at hr

/-- **C79** (partial) Binary logistic regression without intercept has a linear score, whatever the solver: on a sample at the origin it
always answers the second class. -/
theorem C79_logistic_partial {G L : Type} [LinearOrder L] {n d : ℕ} {ext : TorchExt G} {grads : Autograd d} {solve : Oracle}
    {train : Trainer d} (ht : GoodTrainer train) {init : LinInit d} (hi : GoodInit init) {P : EstParams} (hf : P.fit_intercept = false)
    {X : Fin n → Fin d → ℝ} {y : Fin n → L} {g : G} {f : LogFitted L d} (h : logisticFit ext grads solve train init P X y g = .ok f)
    (h2 : (npUnique y).length = 2) :
    ∃ (w : Fin d → ℝ) (c0 c1 : L), c0 < c1 ∧ npUnique y = [c0, c1] ∧ (∀ (N : ℕ) (X' : Fin N → Fin d → ℝ),
      f.predict X' = .ok (.flat (List.ofFn fun i => if 0 ≤ ∑ j, X' i j * w j then c1 else c0))) ∧
      f.predict (fun (_ : Fin 1) (_ : Fin d) => (0 : ℝ)) = .ok (.flat [c1]) := by
  obtain ⟨w, b, c0, c1, hlt, hc, hb, hp⟩ := C64_binary_predict ht hi h h2
  have hp' : ∀ (N : ℕ) (X' : Fin N → Fin d → ℝ),
      f.predict X' = .ok (.flat (List.ofFn fun i => if 0 ≤ ∑ j, X' i j * w j then c1 else c0)) := by
    intro N X'
    simpa [affine, hb hf] using hp N X'
  exact ⟨w, c0, c1, hlt, hc, hp', by simpa using hp' 1 fun _ _ => 0⟩

/-- **C79** (partial) Logistic regression with more classes and without intercept has linear scores: at the origin all are zero, and it
always answers the first class. -/
theorem C79_multiclass_partial {G L : Type} [LinearOrder L] {n d : ℕ} {ext : TorchExt G} {grads : Autograd d} {solve : Oracle}
    {train : Trainer d} (ht : GoodTrainer train) {init : LinInit d} (hi : GoodInit init) {P : EstParams} (hf : P.fit_intercept = false)
    {X : Fin n → Fin d → ℝ} {y : Fin n → L} {g : G} {f : LogFitted L d} (h : logisticFit ext grads solve train init P X y g = .ok f)
    (h2 : 2 < (npUnique y).length) :
    (∃ w : Fin (npUnique y).length → Fin d → ℝ, ∀ (N : ℕ) (X' : Fin N → Fin d → ℝ), ∃ best : Fin N → Fin (npUnique y).length,
      f.predict X' = .ok (.column (List.ofFn fun i => (npUnique y)[best i])) ∧
      ∀ i c, ∑ j, X' i j * w c j ≤ ∑ j, X' i j * w (best i) j ∧ (c < best i → ∑ j, X' i j * w c j < ∑ j, X' i j * w (best i) j)) ∧
    f.predict (fun (_ : Fin 1) (_ : Fin d) => (0 : ℝ)) = .ok (.column [(npUnique y)[0]]) := by
  obtain ⟨w, b, hb, hp⟩ := C64_multiclass_predict ht hi h h2
  refine ⟨⟨w, fun N X' => ?_⟩, ?_⟩
  · obtain ⟨best, h1, h3⟩ := hp N X'
    exact ⟨best, h1, fun i c => by simpa [affine, hb hf] using h3 i c⟩
  · obtain ⟨best, h1, h3⟩ := hp 1 fun _ _ => 0
    have h0 : best 0 = ⟨0, by omega⟩ := by
      by_contra hne
      have := (h3 0 ⟨0, by omega⟩).2 (by
        rw [Fin.lt_def]
        exact Nat.pos_of_ne_zero fun h => hne (Fin.ext h))
      simp [affine, hb hf] at this
    rw [h1]
    simp [h0]

/-- **C79** (violated) With torch, the fit of a linear regression does not depend on `fit_intercept` at all. -/
theorem C79_ignored_false {G : Type} {n d : ℕ} (ext : TorchExt G) (grads : Autograd d) (solve : Oracle) (train : Trainer d) (init : LinInit d)
    (P : EstParams) (hP : pyIn "torch".toList P.solver = true) (X : Fin n → Fin d → ℝ) (y : Fin n → ℝ) (g : G) :
    linregFit ext grads solve train init { P with fit_intercept := false } X y g =
    linregFit ext grads solve train init { P with fit_intercept := true } X y g := by
  obtain ⟨post, hr⟩ := route_torch .linreg hP
  simp only [linregFit, hr, ok_bind]
  rfl

/-- training that moves the bias to one -/
def biasTrainer {d : ℕ} : Trainer d := fun _ M _ => match M with
  | .mse l => .ok (.mse { l with bias := l.bias.map fun _ _ => 1 })
  | M => .ok M

theorem biasTrainer_good {d : ℕ} : GoodTrainer (biasTrainer (d := d)) ∧ TotalTrainer (biasTrainer (d := d)) := by
  refine ⟨fun args M0 s M h => ?_, fun _ M _ => ?_⟩
  · cases M0 <;> simp only [biasTrainer, Except.ok.injEq] at h <;> subst h <;> simp [SameShape]
  · cases M <;> exact ⟨_, rfl⟩

/-- **C67** (partial) Linear regression with torch and a supported cost fits all data, if training returns, and then predicts one number
per sample on all data, an affine function of it. -/
theorem C67_linreg_partial {G : Type} {n d : ℕ} (ext : TorchExt G) (grads : Autograd d) (solve : Oracle) {train : Trainer d}
    (htot : TotalTrainer train) (ht : GoodTrainer train) {init : LinInit d} (hi : GoodInit init) (hn : 0 < n) (hd : 0 < d)
    (fi : Bool) (X : Fin n → Fin d → ℝ) (y : Fin n → ℝ) (g : G) :
    ∃ f, linregFit ext grads solve train init { EstKind.linreg.defaults with fit_intercept := fi } X y g = .ok f ∧
      ∃ (w : Fin d → ℝ) (b : ℝ), ∀ (N : ℕ) (X' : Fin N → Fin d → ℝ),
        Returns (linregPredict f X') (fun t => IsVec t (fun i => affine w b (X' i))) := by
  have hr := C66_bare_name_false .linreg
  obtain ⟨c, hc⟩ := default_cost
  obtain ⟨parsed, obj, h1, h2, h3⟩ := default_parse
  have hfit : ∃ f, linregFit ext grads solve train init { EstKind.linreg.defaults with fit_intercept := fi } X y g = .ok f := by
    obtain ⟨M, hM⟩ := fitTorch_total (ext := ext) (grads := grads) htot (e := .linreg) (post := decide (EstKind.linreg ≠ .newsvendor))
      (P := { EstKind.linreg.defaults with fit_intercept := fi })
      (multi := false) (X := matT X) (y := some (matT fun i (_ : Fin 1) => y i)) (.mse (init 1 true)) g h1 h2 h3 (by simp [EstKind.defaults])
    have hs := fitTorch_ok ht hM
    unfold linregFit
    rw [if_neg (by omega), show (({ EstKind.linreg.defaults with fit_intercept := fi } : EstParams)).cost = "t-NLC-2-2".toList from rfl, hc, ok_bind,
      show (({ EstKind.linreg.defaults with fit_intercept := fi } : EstParams)).solver = "entropic_torch".toList from rfl, hr, ok_bind]
    dsimp only
    rw [hM, ok_bind]
    cases M with
    | mse l => exact ⟨_, rfl⟩
    | softMargin l => exact hs.elim
    | crossEnt l => exact hs.elim
    | weber p => exact hs.elim
    | portfolio p => exact hs.elim
    | newsvendor a b c => exact hs.elim
  obtain ⟨f, hf⟩ := hfit
  refine ⟨f, hf, ?_⟩
  rcases linregFit_ok ht hi hf with ⟨hd', -⟩ | ⟨post, -, l, b, -, hc, hb, -⟩
  · rw [show (({ EstKind.linreg.defaults with fit_intercept := fi } : EstParams)).solver = "entropic_torch".toList from rfl, hr] at hd'
    simp at hd'
  · exact ⟨l.weight 0, b 0, fun N X' => linregPredict_affine hc (by simpa using hb) X'⟩

/-- **C79** (violated) With torch, linear regression ignores `fit_intercept=False`: on all data, a default estimator with
`fit_intercept=False` whose training moves the offset to one predicts one at the origin. -/
theorem C79_torch_linreg_false {G : Type} {n d : ℕ} (ext : TorchExt G) (grads : Autograd d) (solve : Oracle) {init : LinInit d}
    (hi : GoodInit init) (hn : 0 < n) (hd : 0 < d) (X : Fin n → Fin d → ℝ) (y : Fin n → ℝ) (g : G) :
    ∃ f, linregFit ext grads solve biasTrainer init { EstKind.linreg.defaults with fit_intercept := false } X y g = .ok f ∧
      Returns (linregPredict f fun (_ : Fin 1) (_ : Fin d) => (0 : ℝ)) (fun t => IsVec t fun _ : Fin 1 => (1 : ℝ)) := by
  obtain ⟨f, hf, -⟩ := C67_linreg_partial ext grads solve biasTrainer_good.2 biasTrainer_good.1 hi hn hd false X y g
  refine ⟨f, hf, ?_⟩
  rcases linregFit_ok biasTrainer_good.1 hi hf with ⟨hd', -⟩ | ⟨post, -, l, b, hl, hc, hb, hM⟩
  · rw [show (({ EstKind.linreg.defaults with fit_intercept := false } : EstParams)).solver = "entropic_torch".toList from rfl,
      C66_bare_name_false .linreg] at hd'
    simp at hd'
  · have h1 : b 0 = 1 := by
      unfold fitTorch at hM
      obtain ⟨_, -, hM⟩ := bind_ok hM
      simp only [biasTrainer, Except.ok.injEq, Module.mse.injEq] at hM
      rw [← hM] at hl
      simp only at hl
      cases hb' : (init 1 true).bias with
      | none => rw [hb'] at hl; simp at hl
      | some b' => rw [hb'] at hl; simp only [Option.map_some, Option.some.injEq] at hl; rw [← hl]
    obtain ⟨t, ht, hv⟩ := linregPredict_affine hc (b := b 0) (by simpa using hb) fun (_ : Fin 1) (_ : Fin d) => (0 : ℝ)
    exact ⟨t, ht, by simpa [affine, h1] using hv⟩

/-- the dedicated linear regression fits all data, with an exact external solver and a positive radius: the assumptions above are met -/
theorem linregFit_dedicated_total {G : Type} {n d : ℕ} (ext : TorchExt G) (grads : Autograd d) {solve : Oracle} (hs : ExactSolver solve)
    (train : Trainer d) (init : LinInit d) (hn : 0 < n) (hd : 0 < d) (fi : Bool) (X : Fin n → Fin d → ℝ) (y : Fin n → ℝ) (g : G) :
    ∃ f, linregFit ext grads solve train init { EstKind.linreg.defaults with solver := "dedicated".toList, fit_intercept := fi } X y g = .ok f := by
  obtain ⟨c, hc⟩ := default_cost
  obtain ⟨v, hv⟩ := (hs _ _).2 (linreg_exists hn (show (0 : ℝ) < 1 / 100 by norm_num) X y fi)
  obtain ⟨r, hr, hu⟩ := wrap3 (some (.vec (List.ofFn v.1))) (some (.vec [v.2])) none
  have hded : linregDedicated solve (1 / 100) X y fi = .ok r := by
    unfold linregDedicated
    rw [if_pos (by norm_num), hv]
    exact hr
  unfold linregFit
  rw [if_neg (by omega)]
  have hroute : route .linreg "dedicated".toList = .ok .dedicated := by decide
  dsimp only
  rw [show EstKind.linreg.defaults.cost = "t-NLC-2-2".toList from rfl, hc, ok_bind, hroute, ok_bind]
  dsimp only
  rw [show EstKind.linreg.defaults.rho = .num (1 / 100) from rfl]
  simp only [linregAt, ok_bind, hded, hu]
  exact ⟨_, rfl⟩

/-! ## C81 -/

/-- shape of an array of labels -/
def Labels.shape {L : Type} : Labels L → List ℕ
  | .flat l => [l.length]
  | .column l => [l.length, 1]

/-- **C81** (partial: two classes, see `C81_multiclass_false`) Binary prediction returns an array of shape `(n_samples,)`, on all data. -/
theorem C81_binary_partial {G L : Type} [LinearOrder L] {n d : ℕ} {ext : TorchExt G} {grads : Autograd d} {solve : Oracle}
    {train : Trainer d} (ht : GoodTrainer train) {init : LinInit d} (hi : GoodInit init) {P : EstParams} {X : Fin n → Fin d → ℝ}
    {y : Fin n → L} {g : G} {f : LogFitted L d} (h : logisticFit ext grads solve train init P X y g = .ok f)
    (h2 : (npUnique y).length = 2) (N : ℕ) (X' : Fin N → Fin d → ℝ) : Returns (f.predict X') (fun l => l.shape = [N]) := by
  obtain ⟨w, b, c0, c1, -, -, -, hp⟩ := C64_binary_predict ht hi h h2
  exact ⟨_, hp N X', by simp [Labels.shape]⟩

/-- **C81** (violated) With more than two classes the array always has shape `(n_samples, 1)` instead. -/
theorem C81_multiclass_false {G L : Type} [LinearOrder L] {n d : ℕ} {ext : TorchExt G} {grads : Autograd d} {solve : Oracle}
    {train : Trainer d} (ht : GoodTrainer train) {init : LinInit d} (hi : GoodInit init) {P : EstParams} {X : Fin n → Fin d → ℝ}
    {y : Fin n → L} {g : G} {f : LogFitted L d} (h : logisticFit ext grads solve train init P X y g = .ok f)
    (h2 : 2 < (npUnique y).length) (N : ℕ) (X' : Fin N → Fin d → ℝ) : Returns (f.predict X') (fun l => l.shape = [N, 1]) := by
  obtain ⟨w, b, -, hp⟩ := C64_multiclass_predict ht hi h h2
  obtain ⟨best, hb, -⟩ := hp N X'
  exact ⟨_, hb, by simp [Labels.shape]⟩

/-- **C81** (partial) The linear regression fitted by torch predicts an array of shape `(n_samples,)`; by the dedicated solver too, if the
external solver is exact. -/
theorem C81_linreg_partial {G : Type} {n d : ℕ} {ext : TorchExt G} {grads : Autograd d} {solve : Oracle} (hs : ExactSolver solve)
    {train : Trainer d} (ht : GoodTrainer train) {init : LinInit d} (hi : GoodInit init) {P : EstParams}
    {X : Fin n → Fin d → ℝ} {y : Fin n → ℝ} {g : G} {f : Fitted d}
    (h : linregFit ext grads solve train init P X y g = .ok f) (N : ℕ) (X' : Fin N → Fin d → ℝ) :
    Returns (linregPredict f X') (fun t => t.shape = [N]) := by
  have hn : 0 < n := by
    by_contra h0
    simp [linregFit, show n = 0 by omega] at h
  rcases linregFit_ok ht hi h with ⟨-, rho, -, hpos, ⟨v, hv, hc, hb⟩ | ⟨hv, -⟩⟩ | ⟨post, -, l, b, -, hc, hb, -⟩
  · obtain ⟨t, h1, h2⟩ := linregPredict_affine hc hb X'
    exact ⟨t, h1, h2.1⟩
  · obtain ⟨v, hv'⟩ := (hs _ _).2 (linreg_exists hn hpos X y P.fit_intercept)
    rw [hv] at hv'
    cases hv'
  · obtain ⟨t, h1, h2⟩ := linregPredict_affine hc (b := b 0) (by simpa using hb) X'
    exact ⟨t, h1, h2.1⟩

end Skwdro
