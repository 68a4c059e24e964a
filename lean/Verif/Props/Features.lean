import Verif.Props.Store

/-! # C119: data with another number of features than the training data -/

namespace Skwdro

open Spec

variable {G L : Type}

theorem npDot_vec_ne {N d d' : ℕ} (X : Fin N → Fin d' → ℝ) (hd : d' ≠ d) {c : Tensor ℝ} (hc : c.shape = [d]) : npDot X c = .error .valueError := by
  unfold npDot
  rw [hc]
  exact if_neg (Ne.symm hd)

theorem layer_ne {N d d' K : ℕ} (X : Fin N → Fin d' → ℝ) (hd : d' ≠ d) (l : LinMap d K) : l.apply (matT X) = .error .runtimeError := by
  unfold LinMap.apply
  exact if_neg (by simpa [matT] using hd)

theorem addIntercept_mat {N d' : ℕ} {t b : Tensor ℝ} (ht : t.shape = [N, d']) (hb : b.shape = []) :
    ∃ r, addIntercept t (some b) = .ok r ∧ r.shape = [N, d'] := by
  refine ⟨⟨[N, d'], fun i => t.get (Tensor.proj [N, d'] i) + b.get (Tensor.proj [] i)⟩, ?_, rfl⟩
  simp [addIntercept, npZip, Tensor.zipWith, ht, hb, Tensor.bcastShape, Tensor.bcastRev]

/-- **C119** Linear regression: after any history of calls of `fit`, data with another number of features than those of the last call that
returned is refused by `predict`. -/
theorem C119_linreg (ext : TorchExt G) (solve : Oracle) (before : List (FitRun Unit)) {c : LinCall G} (hc : c.Good) (hi : GoodInit c.init)
    {f : Fitted c.d} (hf : c.outcome ext solve = .ok f) (failed : List (LinCall G))
    (hfail : ∀ c' ∈ failed, c'.Good ∧ ∃ x, c'.outcome ext solve = .error x) {N d' : ℕ} (hd : d' ≠ c.d) (X : Fin N → Fin d' → ℝ) :
    ∃ x, (replay newStore (before ++ c.run ext solve :: failed.map (·.run ext solve))).predictReal X = .error x := by
  rw [replay_append, replay_cons]
  generalize replay newStore before = s
  have h : ((s.after (c.run ext solve)).data = true ∧ (s.after (c.run ext solve)).coef = some f.coef ∧
      (s.after (c.run ext solve)).intercept = some f.intercept) := by
    have hf := hf
    unfold LinCall.outcome at hf
    unfold LinCall.run
    rcases linregRun_cases (L := Unit) (ext := ext) (grads := c.grads) (solve := solve) hc (init := c.init) (P := c.P) (X := c.X) (y := c.y)
      (g := c.g) with ⟨x, h1, -⟩ | ⟨f', h1, -, h2⟩
    · rw [h1] at hf; cases hf
    · rw [h1, Except.ok.injEq] at hf
      subst hf
      exact ⟨(h2 s).1, (h2 s).2.2.1, (h2 s).2.2.2⟩
  generalize s.after (c.run ext solve) = s at h
  induction failed generalizing s with
  | nil =>
    have hdot : ∃ x, dotCoef X f.coef = .error x := by
      rcases linregFit_ok hc hi hf with ⟨-, _, -, -, ⟨v, -, h, -⟩ | ⟨-, h, -⟩⟩ | ⟨_, -, l, _, -, h, -⟩ <;> rw [h]
      · exact ⟨_, npDot_vec_ne X hd (listT_ofFn v.1).1⟩
      · exact ⟨_, rfl⟩
      · exact ⟨_, npDot_vec_ne X hd (listT_ofFn (l.weight 0)).1⟩
    obtain ⟨x, hx⟩ := hdot
    refine ⟨x, ?_⟩
    simp only [replay, List.map_nil, List.foldl_nil, Store.predictReal, Store.checkFitted, h.1, h.2.1, h.2.2, getAttr, if_true, ok_bind, hx,
      error_bind]
  | cons c' l ih =>
    rw [List.map_cons, replay_cons]
    obtain ⟨hg, x, hx⟩ := hfail c' (List.mem_cons_self ..)
    obtain ⟨e1, e2, e3⟩ := linreg_failed hg hx s
    exact ih (fun c'' hc'' => hfail c'' (List.mem_cons_of_mem _ hc'')) _ ⟨by rw [e3, h.1]; rfl, by rw [e1, h.2.1], by rw [e2, h.2.2]⟩

/-- what the methods of a fitted classifier do with data of `d'` features -/
theorem log_features {s : Store L} {d d' N : ℕ} {f : LogFitted L d} (h : LogView s f) (X : Fin N → Fin d' → ℝ)
    (hl : f.classes.length = 2) : ∀ x, dotCoef X f.coef = .error x →
      s.proba2 X = .error x ∧ s.proba X = .error x ∧ s.predict X = .error x := by
  intro x hx
  have h2 : s.proba2 X = .error x := by
    simp only [Store.proba2, Store.checkFitted, h.data, h.intercept, h.coef, getAttr, if_true, ok_bind, hx, error_bind]
  refine ⟨h2, ?_, ?_⟩
  · simp only [Store.proba, Store.checkFitted, h.data, h.intercept, h.coef, h.classes, getAttr, if_true, ok_bind]
    cases s.loss with
    | none => simp only [ok_bind, if_true, hx, error_bind]
    | some z => simp only [Except.map, ok_bind, hl, le_refl, decide_true, if_true, hx, error_bind]
  · simp only [Store.predict, Store.checkFitted, h.data, h.encoder, getAttr, if_true, ok_bind, hl, h2, error_bind]

/-- **C119** Logistic regression: after any history of calls of `fit` the last of which returned, `predict` refuses data with another number
of features, whatever the number of classes and the solver. -/
theorem C119_predict [LinearOrder L] (ext : TorchExt G) (solve : Oracle) (before : List (FitRun L)) {c : LogCall G L} (hc : c.Good)
    {f : LogFitted L c.d} (hf : c.outcome ext solve = .ok f) {N d' : ℕ} (hd : d' ≠ c.d) (X : Fin N → Fin d' → ℝ) :
    ∃ x, (replay newStore (before ++ [c.run ext solve])).predict X = .error x := by
  rw [replay_append]
  obtain ⟨h, hcl⟩ := log_ok hc hf (replay newStore before)
  change ∃ x, ((replay newStore before).after (c.run ext solve)).predict X = .error x
  generalize (replay newStore before).after (c.run ext solve) = s at h
  obtain ⟨-, -, -, -, ⟨-, hl, -, w, b, hw, -⟩ | ⟨_, -, hl, l, a, -, hr⟩ | ⟨_, -, hl, l, a, ht, -⟩⟩ := logisticFit_ok hc.1 hc.2 hf
  · exact ⟨_, (log_features h X (by rw [hcl, hl]) .valueError (by rw [hw]; exact npDot_vec_ne X hd (listT_ofFn w).1)).2.2⟩
  · rcases weightArray_coef l with hv | ⟨h1, h0, -⟩
    · exact ⟨_, (log_features h X (by rw [hcl, hl]) .valueError (by rw [hr.coef]; exact npDot_vec_ne X hd hv.1)).2.2⟩
    · have hdot : dotCoef X f.coef = .ok ((matT X).map fun x => x * l.weightArray.get []) := by
        rw [hr.coef]
        simp only [dotCoef, npDot, h0]
      have hp : ∀ t : Tensor ℝ, t.shape = [N, d'] → column1d (t.map halfCode) = .error .valueError := by
        intro t ht
        have ht' : (t.map halfCode).shape = [N, d'] := ht
        unfold column1d
        rw [ht']
        split
        · next heq => cases heq
        · next heq => simp only [List.cons.injEq, and_true] at heq; omega
        · rfl
      refine ⟨.valueError, ?_⟩
      have hl2 : f.classes.length = 2 := by rw [hcl, hl]
      simp only [Store.predict, Store.proba2, Store.checkFitted, h.data, h.encoder, h.intercept, h.coef, getAttr, if_true, ok_bind, hl2, hdot]
      cases hb : f.intercept with
      | none => 
        simp only [Option.isSome_none, Bool.false_eq_true, if_false, ok_bind]
        rw [hp _ rfl]; rfl
      | some b =>
        have hb' := hr.intercept
        rw [hb] at hb'
        cases hlb : l.bias with
        | none => rw [hlb] at hb'; cases hb'
        | some bb =>
          rw [hlb] at hb'
          simp only [Option.map_some, Option.some.injEq] at hb'
          subst hb'
          obtain ⟨r, hr1, hr2⟩ := addIntercept_mat (t := (matT X).map fun x => x * l.weightArray.get []) rfl (biasArray_scalar bb).1
          simp only [Option.isSome_some, if_true, hr1, ok_bind]
          rw [hp (r.map expit) hr2]; rfl
  · have hl2 : ¬ f.classes.length = 2 := by rw [hcl]; omega
    have hl3 : ¬ f.classes.length ≤ 2 := by rw [hcl]; omega
    rcases h.loss with ⟨M, a', hM, hs⟩ | ⟨hn, -⟩
    · rw [ht, Option.some.injEq, Prod.mk.injEq] at hM
      obtain ⟨rfl, rfl⟩ := hM
      refine ⟨.runtimeError, ?_⟩
      simp only [Store.predict, Store.proba, Store.checkFitted, h.data, h.encoder, h.classes, getAttr, if_true, ok_bind, hl2, if_false, hs,
        Except.map, decide_eq_true_eq, hl3, Module.transform, layer_ne X hd l, error_bind]
    · rw [ht] at hn; cases hn

/-- **C119** (partial: see `C119_single_feature_false`) Logistic regression: after any history of calls of `fit` the last of which returned,
`predict_proba` refuses data with another number of features when the training data had several features, or more than two classes, or the
solver was the dedicated one. -/
theorem C119_proba_partial [LinearOrder L] (ext : TorchExt G) (solve : Oracle) (before : List (FitRun L)) {c : LogCall G L} (hc : c.Good)
    {f : LogFitted L c.d} (hf : c.outcome ext solve = .ok f)
    (h1 : c.d ≠ 1 ∨ 2 < (npUnique c.y).length ∨ route .logistic c.P.solver = .ok .dedicated) {N d' : ℕ} (hd : d' ≠ c.d) (X : Fin N → Fin d' → ℝ) :
    ∃ x, (replay newStore (before ++ [c.run ext solve])).proba X = .error x := by
  rw [replay_append]
  obtain ⟨h, hcl⟩ := log_ok hc hf (replay newStore before)
  change ∃ x, ((replay newStore before).after (c.run ext solve)).proba X = .error x
  generalize (replay newStore before).after (c.run ext solve) = s at h
  obtain ⟨-, -, -, -, ⟨-, hl, -, w, b, hw, -⟩ | ⟨_, hr0, hl, l, a, -, hr⟩ | ⟨_, -, hl, l, a, ht, -⟩⟩ := logisticFit_ok hc.1 hc.2 hf
  · exact ⟨_, (log_features h X (by rw [hcl, hl]) .valueError (by rw [hw]; exact npDot_vec_ne X hd (listT_ofFn w).1)).2.1⟩
  · rcases weightArray_coef l with hv | ⟨h1', -, -⟩
    · exact ⟨_, (log_features h X (by rw [hcl, hl]) .valueError (by rw [hr.coef]; exact npDot_vec_ne X hd hv.1)).2.1⟩
    · rcases h1 with h1 | h1 | h1
      · exact absurd h1' h1
      · omega
      · rw [h1] at hr0; cases hr0
  · have hl3 : ¬ f.classes.length ≤ 2 := by rw [hcl]; omega
    rcases h.loss with ⟨M, a', hM, hs⟩ | ⟨hn, -⟩
    · rw [ht, Option.some.injEq, Prod.mk.injEq] at hM
      obtain ⟨rfl, rfl⟩ := hM
      refine ⟨.runtimeError, ?_⟩
      simp only [Store.proba, Store.checkFitted, h.data, h.classes, getAttr, if_true, ok_bind, hs,
        Except.map, decide_eq_true_eq, hl3, if_false, Module.transform, layer_ne X hd l]
    · rw [ht] at hn; cases hn

/-- **C119** (violated) A binary classifier trained on a single feature by an entropic solver, with an intercept, accepts data with any
number `d'` of features: `predict_proba` returns an array of shape `(d', 2 N)`. -/
theorem C119_single_feature_false [LinearOrder L] (ext : TorchExt G) (solve : Oracle) (before : List (FitRun L)) {c : LogCall G L} (hc : c.Good)
    {f : LogFitted L c.d} (hf : c.outcome ext solve = .ok f) (h1 : c.d = 1) (h2 : (npUnique c.y).length = 2) {post : Bool}
    (hr : route .logistic c.P.solver = .ok (.torch post)) (hfi : c.P.fit_intercept = true) {N d' : ℕ} (X : Fin N → Fin d' → ℝ) :
    ∃ t, (replay newStore (before ++ [c.run ext solve])).proba X = .ok t ∧ t.shape = [d', 2 * N] := by
  rw [replay_append]
  obtain ⟨h, hcl⟩ := log_ok hc hf (replay newStore before)
  change ∃ t, ((replay newStore before).after (c.run ext solve)).proba X = .ok t ∧ _
  generalize (replay newStore before).after (c.run ext solve) = s at h
  obtain ⟨-, -, -, -, ⟨hr0, -⟩ | ⟨_, hr0, hl, l, a, -, hr⟩ | ⟨_, -, hl, -⟩⟩ := logisticFit_ok hc.1 hc.2 hf
  · rw [hr] at hr0; cases hr0
  · have h0 : l.weightArray.shape = [] := by
      rcases weightArray_coef l with hv | ⟨-, h0, -⟩
      · exfalso
        have := hv.1
        simp [LinMap.weightArray, Tensor.squeeze, matT, h1] at this
      · exact h0
    have hdot : dotCoef X f.coef = .ok ((matT X).map fun x => x * l.weightArray.get []) := by
      rw [hr.coef]
      simp only [dotCoef, npDot, h0]
    obtain ⟨bb, hbb⟩ := Option.isSome_iff_exists.1 (hr.bias.trans hfi)
    have hb : f.intercept = some (listT (List.ofFn bb)).squeeze := by rw [hr.intercept, hbb]; rfl
    have hl2 : f.classes.length ≤ 2 := by rw [hcl, h2]
    obtain ⟨t, ht, hts⟩ := addIntercept_mat (t := (matT X).map fun x => x * l.weightArray.get []) rfl (biasArray_scalar bb).1
    rw [← hb] at ht
    refine ⟨npT (vstack2 ((t.map expit).map fun x => 1 - x) (t.map expit)), ?_, ?_⟩
    · simp only [Store.proba, Store.checkFitted, h.data, h.intercept, h.coef, h.classes, getAttr, if_true, ok_bind]
      cases s.loss with
      | none => simp only [ok_bind, if_true, hdot, ht]
      | some z => simp only [Except.map, ok_bind, hl2, decide_true, if_true, hdot, ht]
    · simp [npT, vstack2, atleast2d, Tensor.map, Tensor.size0, hts]; omega
  · omega

theorem forward_ne {N d' : ℕ} (X : Fin N → Fin d' → ℝ) (p : Portfolio) (hd : d' ≠ p.raw.length) : p.forward (matT X) = .error .runtimeError := by
  have : (⟨p.weights, none⟩ : Lin).apply (matT X) = .error .runtimeError := by
    unfold Lin.apply
    exact if_neg (by simpa [matT, Portfolio.weights, softmaxVec] using hd)
  unfold Portfolio.forward
  rw [this]
  rfl

/-- what a fit of the portfolio that returns leaves: a vector with one weight per asset, and a module of the same size -/
theorem portfolioFit_size {n m J : ℕ} {ext : TorchExt G} {grads : Autograd m} {solve : Oracle} {train : Trainer m} (ht : GoodTrainer train)
    {p0 : Portfolio} (hp : p0.raw.length = m) {P : EstParams} {C : Fin J → Fin m → ℝ} {D : Fin J → ℝ} {X : Fin n → Fin m → ℝ} {g : G} {f : Fitted m}
    (h : portfolioFit ext grads solve train p0 P C D X g = .ok f) :
    (∃ c, f.coef = some c ∧ c.shape = [m]) ∧
    (f.torch = none ∨ ∃ q a, f.torch = some (.portfolio q, a) ∧ q.raw.length = m ∧ a.flat = (Module.portfolio q : Module m).flat ∧ a.xi_labels = none) := by
  unfold portfolioFit at h
  split at h
  · cases h
  obtain ⟨_, -, h⟩ := bind_ok h
  obtain ⟨_, -, h⟩ := bind_ok h
  obtain ⟨r, -, h⟩ := bind_ok h
  cases r with
  | dedicated =>
    simp only at h
    obtain ⟨rho, -, h⟩ := bind_ok h
    obtain ⟨r, hr, h⟩ := bind_ok h
    obtain ⟨t, hu, h⟩ := bind_ok h
    unfold portfolioDedicated at hr
    split at hr
    · cases hr
    split at hr
    · cases hr
    obtain ⟨q, -, hr⟩ := bind_ok hr
    split at hr
    · split at hr
      · rw [unpack4_tuple hr, Except.ok.injEq] at hu
        rw [Except.ok.injEq] at h
        subst hu h
        exact ⟨⟨_, rfl, (listT_ofFn _).1⟩, Or.inl rfl⟩
      · cases hr
    · cases hr
  | torch post =>
    simp only at h
    obtain ⟨M, hM, h⟩ := bind_ok h
    have hs := fitTorch_ok ht hM
    cases M with
    | portfolio q =>
      simp only [Except.ok.injEq] at h
      subst h
      have hq : q.raw.length = m := hs.1.symm.trans hp
      exact ⟨⟨_, rfl, by simp [listT, Portfolio.weights, softmaxVec, hq]⟩, Or.inr ⟨q, _, rfl, hq, rfl, rfl⟩⟩
    | _ => exact hs.elim

/-- **C119** Portfolio: after any history of calls of `fit` the last of which returned, `eval` refuses data with another number of assets. -/
theorem C119_portfolio (ext : TorchExt G) (solve : Oracle) (before : List (FitRun Unit)) {c : PfCall G} (hc : c.Good)
    (hp : c.p0.raw.length = c.m) {f : Fitted c.m} (hf : c.outcome ext solve = .ok f) (float32 : Bool) {N d' : ℕ} (hd : d' ≠ c.m)
    (X : Fin N → Fin d' → ℝ) : ∃ x, (replay newStore (before ++ [c.run ext solve])).portfolioEval c.P float32 X = .error x := by
  rw [replay_append]
  change ∃ x, ((replay newStore before).after (c.run ext solve)).portfolioEval c.P float32 X = .error x
  generalize replay newStore before = s
  obtain ⟨h, hr⟩ : OrView (s.after (c.run ext solve)) f ∧ (f.torch = none ↔ route .portfolio c.P.solver = .ok .dedicated) := by
    have hf := hf
    unfold PfCall.outcome at hf
    unfold PfCall.run
    rcases portfolioRun_cases (L := Unit) (ext := ext) (grads := c.grads) (solve := solve) hc (p0 := c.p0) (P := c.P) (C := c.C) (D := c.D)
      (X := c.X) (g := c.g) with ⟨x, h1, -⟩ | ⟨f', h1, -, h2, h3⟩
    · rw [h1] at hf; cases hf
    · rw [h1, Except.ok.injEq] at hf
      subst hf
      exact ⟨h3 s, h2⟩
  generalize s.after (c.run ext solve) = s at h
  obtain ⟨⟨w, hw, hws⟩, htorch⟩ := portfolioFit_size hc hp hf
  simp only [Store.portfolioEval, Store.assertFitted, h.fitted, if_true, ok_bind, h.coef, getAttr, hw]
  by_cases he : pyIn "entropic".toList c.P.solver = true
  · rw [if_pos he]
    rcases htorch with hn | ⟨q, a, hq, hlen, hflat, hlab⟩
    · exact absurd (hr.1 hn) (entropic_not_dedicated he)
    · split
      · exact ⟨_, rfl⟩
      · refine ⟨.runtimeError, ?_⟩
        have hv : a.wloss.value (matT X) none = .error .runtimeError := by
          have e : (Module.portfolio q : Module c.m).flat (matT X) none = .error .runtimeError := forward_ne X q (by rw [hlen]; exact hd)
          have hdim : (matT X).dim = 2 := rfl
          simp only [WLoss.value, DualizeArgs.wloss, hlab, Option.isSome_none, Bool.false_eq_true, if_false, hdim, lt_irrefl, if_true,
            WLoss.flatValue, hflat, e, error_bind]
        simp only [Store.lossEval, h.loss _ hq, getAttr, ok_bind, hv, error_bind]
  · rw [if_neg he]
    split
    · exact ⟨_, if_neg (by rw [hws]; simpa using Ne.symm hd)⟩
    · exact ⟨_, rfl⟩

end Skwdro
