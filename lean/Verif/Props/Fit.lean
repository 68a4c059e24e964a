import Verif.Lemmas.FitEnv
import Verif.Props.Objective
import Verif.Props.Samplers
import Verif.Props.Scores

/-! # C86-C89: whole fits, from the data to the trained parameters -/

namespace Skwdro
open Spec Tensor

/-- a problem that can be robustified: its cost code is decoded, to a supported cost without labels if there are none, and its noise scale
(if given) is positive -/
structure CostReady (a : DualizeArgs) : Prop where
  code : ∃ parsed obj, parse_code_torch a.cost_spec a.xi_labels.isSome = .ok parsed ∧ cost_from_parse_torch parsed = .ok obj ∧
    Supported obj.power obj.p ∧ (a.xi_labels = none → obj.kind = .normCost)
  sigma : ∀ s, a.sigma = some s → 0 < s

section
variable {G O : Type} {d : ℕ} {ext : TorchExt G} {T : Torch G O} {cfg : OCConfig} {fl : ℝ → ℝ} {args : Module d → DualizeArgs}
  {M0 : Module d} {m k : ℕ} {mc : Bool} {steps : ℤ ⊕ (ℤ × ℤ)}

/-- what a fit on a well-formed problem gives (if `ok`, it raises nothing) -/
theorem solveRun_holds {ok : Bool} (hT : ok = true → GoodTorch T) {g g' : G} {D : DualLoss}
    (hD : dualize ext (args M0) g = .ok (D, g')) (ha : ArgsFit args M0 m k mc) (hcost : (args M0).xi_labels = none → D.cost.kind = .normCost)
    (hrho : ∀ r, (args M0).rho = .num r → 0 ≤ r) (hn : 0 < (toSteps steps).iterations) (oc : OCState) {s : Sampler} (hs : D.sampler = some s)
    (hc : ok = true → CondReady cfg oc M0.theta.length (args M0).rho) :
    (∃ r st, solveRun ext T cfg fl args D M0 steps oc g' = (.ok r, st) ∧ (ok = true → CondReady cfg st.w.oc M0.theta.length (args M0).rho) ∧
      SameShape M0 st.w.mod ∧ st.w.sampler = D.sampler ∧
      r.coef = st.w.mod.theta ∧
      r.dual_var = (if (args M0).rho.isPos then st.w.lam else 0) ∧
      FitVal ext args D (args M0).xi (args M0).xi_labels (args M0).post_sample
        ((s.sample ext D.nSamples g').1, (s.sample ext D.nSamples g').2.1) false (decide (cfg.metric = "grad".toList) && D.impSamp) st.w
        r.robust_loss) ∨
    (ok = false ∧ ∃ e st, solveRun ext T cfg fl args D M0 steps oc g' = (.error e, st)) := by
  have hfits : SamplerFits s m d k (args M0).xi_labels.isSome := by
    obtain ⟨parsed, obj, c, s', -, -, -, hsm, rfl⟩ := dualize_ok hD
    have : s' = s := by simpa [dualOf] using hs
    subst this
    exact dualizeSampler_fits hsm ha.data ha.labels
  obtain ⟨z1, z2, z3⟩ := sample_shapes ext hfits g' D.nSamples
  obtain ⟨⟨p, q⟩, hi⟩ : ∃ a, interpretSteps fl split03 (toSteps steps) = .ok a := by
    cases toSteps steps with
    | one n => exact ⟨_, if_pos (by unfold split03; norm_num)⟩
    | pair p n => exact ⟨_, rfl⟩
  have hE := fitEnv_holds (T := T) (cfg := cfg) (mi := (toSteps steps).iterations) hT hD ha hcost hrho (post := (args M0).post_sample)
    (Z := ((s.sample ext D.nSamples g').1, (s.sample ext D.nSamples g').2.1)) z1 z2 z3
  have key := solveDual_holds (out := fitReadout (d := d) (G := G) (O := O)) (presample := !(args M0).post_sample)
    (rhoPos := (args M0).rho.isPos) (fl := fl) hi
    (P := fun st => st = startState T M0 D g' oc)
    (Q := fun v st => FitMem false (fun oc => ok = true → CondReady cfg oc M0.theta.length (args M0).rho) M0 D (args M0).post_sample ((s.sample ext D.nSamples g').1, (s.sample ext D.nSamples g').2.1) st.w ∧
      FitVal ext args D (args M0).xi (args M0).xi_labels (args M0).post_sample
        ((s.sample ext D.nSamples g').1, (s.sample ext D.nSamples g').2.1) false (decide (cfg.metric = "grad".toList) && D.impSamp) st.w v)
    (ok := ok) (env := fitEnv ext T args D (args M0).xi (args M0).xi_labels (args M0).post_sample cfg (toSteps steps).iterations) (by
      cases hpost : (args M0).post_sample with
      | false =>
        rw [hpost] at hE
        simp only [Bool.not_false, if_true]
        refine (optimPre_holds hE (J0 := fun w => w = freshBox T M0 D g' oc) (fun w hw => ?_) p hn).weaken ?_ ?_
        · subst hw
          refine Or.inl ⟨(), ?_, ?_⟩ <;> simp only [fitEnv, freshBox, hs]
          exact ⟨⟨sameShape_refl M0, hs.symm, fun _ => rfl⟩, hc, by simp⟩
        · rintro st rfl
          exact ⟨rfl, rfl⟩
        · rintro L st ⟨h1, v, h2, h3⟩
          exact ⟨v, h2, h1.1, h3⟩
      | true =>
        rw [hpost] at hE
        simp only [Bool.not_true, Bool.false_eq_true, if_false]
        refine (optimPost_holds hE p (Or.inl hn)).weaken ?_ ?_
        · rintro st rfl
          exact ⟨⟨⟨sameShape_refl M0, rfl, fun h => by cases h⟩, hc, by simp⟩, rfl⟩
        · rintro L st ⟨h1, h2⟩
          exact ⟨L.getLast h2, List.getLast?_eq_some_getLast h2, h1.1, fun h => by cases h⟩)
  rcases key _ rfl with ⟨r, st, h1, h2, h3, h4, h5, h6⟩ | ⟨h1, e, st, h2⟩
  · exact Or.inl ⟨r, st, h1, h5.2.1, h5.1.1, h5.1.2.1, h2, h4, h6⟩
  · exact Or.inr ⟨h1, e, st, h2⟩

theorem costReady_dualize {a : DualizeArgs} (h : CostReady a) (g : G) :
    ∃ D g' s, dualize ext a g = .ok (D, g') ∧ D.sampler = some s ∧ (a.xi_labels = none → D.cost.kind = .normCost) := by
  obtain ⟨parsed, obj, h1, h2, h3, h4⟩ := h.code
  obtain ⟨D, g', s, hd, hs, -⟩ := (C08_supported_costs (ext := ext) a g h1 h2 h.sigma).1 h3
  refine ⟨D, g', s, hd, hs, fun hl => ?_⟩
  obtain ⟨parsed', obj', c, s', h1', h2', hc, -, rfl⟩ := dualize_ok hd
  have : parsed' = parsed := by rw [h1] at h1'; simpa using h1'.symm
  subst this
  have : obj' = obj := by rw [h2] at h2'; simpa using h2'.symm
  subst this
  unfold CostObj.toReal at hc
  split at hc
  · simp only [Option.some.injEq] at hc
    subst hc
    exact h4 hl
  · cases hc

/-! ## C86 -/

/-- **C86** (partial: see `C86_frozen_multiplier_false` and `C86_other_sizes_false` for the two kinds of optimality conditions excluded) Whatever
the data, the loss module, the noise, the optimizer (gradient-based, raising nothing by itself) and the optimality condition (any documented
settings), a fit asked for at least one iteration with a non-negative or NaN radius returns: no shape error, missing gradient or missing sample can occur
on the way.  The parameters returned are those of the trained module, as many as at the start. -/
theorem C86_fits_return_partial (hT : GoodTorch T) (ha : ArgsFit args M0 m k mc) (hr : CostReady (args M0))
    (hrho : ∀ r, (args M0).rho = .num r → 0 ≤ r) (hn : 0 < (toSteps steps).iterations) {oc : OCState}
    (hc : CondReady cfg oc M0.theta.length (args M0).rho) (g : G) :
    ∃ M r, solveTorch ext T cfg fl args M0 steps oc g = .ok (M, r) ∧ SameShape M0 M ∧ r.coef = M.theta ∧
      r.coef.length = M0.theta.length := by
  obtain ⟨D, g', s, hD, hs, hk⟩ := costReady_dualize (ext := ext) hr g
  rcases solveRun_holds (ok := true) (fl := fl) (fun _ => hT) hD ha hk hrho hn oc hs (fun _ => hc) with ⟨r, st, h1, -, h2, -, h3, -⟩ | ⟨h, -⟩
  · exact ⟨st.w.mod, r, by simp only [solveTorch, hD, ok_bind, h1], h2, h3, by rw [h3, theta_length h2]⟩
  · cases h

/-- **C89** Whatever the problem and the optimizer, training changes the values of the parameters only: the kind of module, its sizes, the
presence of a bias and its constants (prices, risk levels) are those of the module given. -/
theorem C89_architecture_kept (oc : OCState) (g : G) : GoodTrainer (realTrainer (d := d) ext T cfg fl oc g) := by
  intro args M0 steps M h
  unfold realTrainer solveTorch at h
  cases hD : dualize ext (args M0) g with
  | error e => rw [hD] at h; cases h
  | ok p =>
    obtain ⟨D, g'⟩ := p
    rw [hD] at h
    simp only [ok_bind] at h
    cases hr : solveRun ext T cfg fl args D M0 steps oc g' with
    | mk a st =>
      rw [hr] at h
      cases a with
      | error e => cases h
      | ok r =>
        simp only [Except.map, Except.ok.injEq] at h
        subst h
        exact solveRun_keeps hr

/-! ## C88 -/

/-- **C88** (partial: from the same initial parameters) With a seed, a fit depends only on its arguments, the initial parameters and the
memory of the optimality condition: not on the state of torch's generator. -/
theorem C88_seeded_partial {sd : ℤ} (hs : (args M0).seed = some sd) (oc : OCState) (g g' : G) :
    solveTorch ext T cfg fl args M0 steps oc g = solveTorch ext T cfg fl args M0 steps oc g' := by
  have : dualize ext (args M0) g = dualize ext (args M0) g' := by
    unfold dualize dualizeSampler
    rw [hs]
    cases (args M0).xi_labels <;> rfl
  simp only [solveTorch, this]

/-! ## C87 -/

theorem dualize_onlyModule {a b : DualizeArgs} (hab : b = { a with flat := b.flat, theta := b.theta, grads := b.grads }) {g g' : G}
    {D : DualLoss} (h : dualize ext a g = .ok (D, g')) :
    dualize ext b g = .ok ({ D with primal := b.wloss.value, grads := b.grads }, g') := by
  obtain ⟨parsed, obj, c, s, h1, h2, h3, h4, rfl⟩ := dualize_ok h
  rw [hab]
  simp only [dualize, h1, ok_bind, h2, h3, h4, dualOf]

/-- **C87** Pre-sampled fits: whatever the optimizer did, the reported robust loss is the one the public construction gives for the returned
module (same arguments, same generator), at the reported multiplier and at the samples drawn from its sampler. -/
theorem C87_reported_loss (hm : OnlyModule args) (ha : ArgsFit args M0 m k mc) (hk : ∀ D g', ∀ g, dualize ext (args M0) g = .ok (D, g') →
      (args M0).xi_labels = none → D.cost.kind = .normCost) (hpost : (args M0).post_sample = false)
    (hrho : ∀ r, (args M0).rho = .num r → 0 ≤ r) (hn : 0 < (toSteps steps).iterations) (oc : OCState) (g : G) {M : Module d}
    {r : Solved (List ℝ)} (h : solveTorch ext T cfg fl args M0 steps oc g = .ok (M, r)) :
    ∃ D g' s lam v, dualize ext (args M) g = .ok (D, g') ∧ D.sampler = some s ∧
      computeDual ext { D with lam := lam, impSamp := decide (cfg.metric = "grad".toList) && D.impSamp } (args M).xi (args M).xi_labels
        (s.sample ext D.nSamples g').1 (s.sample ext D.nSamples g').2.1 = .ok v ∧
      v.item = .ok r.robust_loss ∧ r.dual_var = (if (args M0).rho.isPos then lam else 0) ∧ r.coef = M.theta ∧ SameShape M0 M := by
  unfold solveTorch at h
  cases hD : dualize ext (args M0) g with
  | error e => rw [hD] at h; cases h
  | ok p =>
    obtain ⟨D, g'⟩ := p
    rw [hD] at h
    simp only [ok_bind] at h
    have hs : ∃ s, D.sampler = some s := by
      obtain ⟨parsed, obj, c, s, -, -, -, -, rfl⟩ := dualize_ok hD
      exact ⟨s, rfl⟩
    obtain ⟨s, hs⟩ := hs
    have herm : D.ermMode = false := by
      obtain ⟨parsed, obj, c, s, -, -, -, -, rfl⟩ := dualize_ok hD
      rfl
    rcases solveRun_holds (T := T) (cfg := cfg) (ok := false) (fl := fl) (fun h => by cases h) hD ha (hk D g' g hD) hrho hn oc hs
        (fun h => by cases h) with ⟨r', st, h1, -, h2, hsm, h3, h4, h5⟩ | ⟨-, e, st, h1⟩
    · rw [h1] at h
      simp only [Except.ok.injEq, Prod.mk.injEq] at h
      obtain ⟨rfl, rfl⟩ := h
      obtain ⟨v, h6, h7⟩ := h5 hpost
      have hM := hm M0 st.w.mod
      refine ⟨_, g', s, st.w.lam, v, dualize_onlyModule hM hD, hs, ?_, h7, h4, h3, h2⟩
      rw [show (args st.w.mod).xi = (args M0).xi by rw [hM], show (args st.w.mod).xi_labels = (args M0).xi_labels by rw [hM], ← h6]
      simp only [Box.dual, hsm, herm]
    · rw [h1] at h
      cases h

end

/-! ## The estimators -/

/-- settings under which an estimator trains with torch: a decodable, supported cost (without label part if there are no labels), a positive
noise scale, a non-negative radius and at least one iteration -/
structure FitReady (P : EstParams) (labels : Bool) : Prop where
  code : ∃ c, cost_from_str P.cost = .ok c
  cost : ∃ parsed obj, parse_code_torch (some P.cost) labels = .ok parsed ∧ cost_from_parse_torch parsed = .ok obj ∧
    Supported obj.power obj.p ∧ (labels = false → obj.kind = .normCost)
  sigma : ∀ s, P.sampler_reg = some s → 0 < s
  rho : ∀ r, P.rho = .num r → 0 ≤ r
  iter : ∀ s, P.n_iter = some s → 0 < (toSteps s).iterations

theorem trainSteps_pos {P : EstParams} (h : ∀ s, P.n_iter = some s → 0 < (toSteps s).iterations) (e : EstKind) (post : Bool) :
    0 < (toSteps (trainSteps e P post)).iterations := by
  unfold trainSteps
  split
  · simp [toSteps, Steps.iterations]
  · unfold defaultSteps
    cases hn : P.n_iter with
    | none => cases post <;> simp [toSteps, Steps.iterations]
    | some s => exact h s hn

section estimators
variable {G O : Type} {ext : TorchExt G} {T : Torch G O} {cfg : OCConfig} {fl : ℝ → ℝ} {oc : OCState}

theorem torch_argsFit {d : ℕ} {grads : Autograd d} (hg : ∀ M, GradShapes (grads M)) (e : EstKind) (P : EstParams) (post : Bool)
    {mc : Bool} {X : Tensor ℝ} {y : Option (Tensor ℝ)} {M0 : Module d} {m k : ℕ} (hX : X.shape = [m, d])
    (hy : ∀ t, y = some t → t.shape = [m, k]) (hM : ModFits M0 k y.isSome mc) : ArgsFit (torchArgs grads e P post mc X y) M0 m k mc :=
  ⟨hX, hy, hM, fun _ => ⟨rfl, rfl, rfl⟩, hg, Or.inl rfl⟩

theorem torch_costReady {d : ℕ} {grads : Autograd d} {e : EstKind} {P : EstParams} {post mc : Bool} {X : Tensor ℝ} {y : Option (Tensor ℝ)}
    {M0 : Module d} (h : FitReady P y.isSome) : CostReady (torchArgs grads e P post mc X y M0) := by
  obtain ⟨parsed, obj, h1, h2, h3, h4⟩ := h.cost
  refine ⟨⟨parsed, obj, h1, h2, h3, fun hl => h4 ?_⟩, fun s hs => ?_⟩
  · rw [show y = none from hl]; rfl
  · cases e <;> first | exact h.sigma s hs | exact absurd (show (none : Option ℝ) = some s from hs) (by simp)

theorem fitTorch_real (hT : GoodTorch T) {d : ℕ} {grads : Autograd d} (hg : ∀ M, GradShapes (grads M)) (e : EstKind)
    {P : EstParams} (post : Bool) {mc : Bool} {X : Tensor ℝ} {y : Option (Tensor ℝ)} (hP : FitReady P y.isSome)
    (hc : ∀ n, CondReady cfg oc n P.rho) {M0 : Module d} {m k : ℕ}
    (hX : X.shape = [m, d]) (hy : ∀ t, y = some t → t.shape = [m, k]) (hM : ModFits M0 k y.isSome mc) (g : G) :
    ∃ M, fitTorch ext grads (realTrainer ext T cfg fl oc g) e P post mc X y M0 g = .ok M := by
  have hr := torch_costReady (grads := grads) (e := e) (post := post) (mc := mc) (X := X) (M0 := M0) hP
  obtain ⟨D, g', s, hD, -⟩ := costReady_dualize (ext := ext) hr g
  obtain ⟨M, r, h1, -⟩ := C86_fits_return_partial (ext := ext) (fl := fl) hT (torch_argsFit hg e P post hX hy hM) hr hP.rho
    (trainSteps_pos hP.iter e post) (hc _) g
  refine ⟨M, ?_⟩
  unfold fitTorch
  rw [hD, ok_bind]
  simp only [realTrainer, h1]
  rfl

/-- **C86** Linear regression trained by torch, pre- or post-sampled, fits all data (whatever the initial weights, the noise, the memory of
the optimality condition and the optimizer). -/
theorem C86_linreg_partial (hT : GoodTorch T) {n d : ℕ} {grads : Autograd d} (hg : ∀ M, GradShapes (grads M)) (solve : Oracle)
    (init : LinInit d) {P : EstParams} (hP : FitReady P true) (hc : ∀ n, CondReady cfg oc n P.rho) (hs : pyIn "torch".toList P.solver = true) (hn : 0 < n) (hd : 0 < d)
    (X : Fin n → Fin d → ℝ) (y : Fin n → ℝ) (g : G) :
    ∃ f, linregFit ext grads solve (realTrainer ext T cfg fl oc g) init P X y g = .ok f := by
  obtain ⟨post, hr⟩ := route_torch .linreg hs
  obtain ⟨c, hcode⟩ := hP.code
  obtain ⟨M, hM⟩ := fitTorch_real (ext := ext) (fl := fl) (oc := oc) hT hg .linreg post (mc := false) (X := matT X)
    (y := some (matT fun i (_ : Fin 1) => y i)) hP hc (M0 := .mse (init 1 true)) (k := 1) rfl (by intro t ht; cases ht; rfl) ⟨rfl, rfl, rfl⟩ g
  have hsh := fitTorch_ok (C89_architecture_kept (ext := ext) (T := T) (cfg := cfg) (fl := fl) oc g) hM
  unfold linregFit
  rw [if_neg (by omega), hcode, ok_bind, hr, ok_bind]
  dsimp only
  rw [hM, ok_bind]
  cases M <;> first | exact ⟨_, rfl⟩ | exact hsh.elim

/-- **C86** The Weber problem likewise. -/
theorem C86_weber_partial (hT : GoodTorch T) {n d : ℕ} {grads : Autograd d} (hg : ∀ M, GradShapes (grads M)) (pos0 : Fin d → ℝ)
    {P : EstParams} (hP : FitReady P true) (hc : ∀ n, CondReady cfg oc n P.rho) (hs : pyIn "torch".toList P.solver = true) (hn : 0 < n) (hd : 0 < d) (X : Fin n → Fin d → ℝ)
    (w : Fin n → ℝ) (g : G) : ∃ f, weberFit ext grads (realTrainer ext T cfg fl oc g) pos0 P X w g = .ok f := by
  obtain ⟨post, hr⟩ := route_torch .weber hs
  obtain ⟨M, hM⟩ := fitTorch_real (ext := ext) (fl := fl) (oc := oc) hT hg .weber post (mc := false) (X := matT X)
    (y := some (matT fun i (_ : Fin 1) => w i)) hP hc (M0 := .weber pos0) (k := 1) rfl (by intro t ht; cases ht; rfl) ⟨rfl, rfl, rfl⟩ g
  have hsh := fitTorch_ok (C89_architecture_kept (ext := ext) (T := T) (cfg := cfg) (fl := fl) oc g) hM
  unfold weberFit
  rw [if_neg (by omega), hr, ok_bind]
  dsimp only
  rw [hM, ok_bind]
  cases M <;> first | exact ⟨_, rfl⟩ | exact hsh.elim

/-- **C86** The newsvendor trained by torch likewise, for demand vectors of any length. -/
theorem C86_newsvendor_partial (hT : GoodTorch T) {n d : ℕ} {grads : Autograd 1} (hg : ∀ M, GradShapes (grads M)) (solve : Oracle)
    (theta0 : ℝ) {P : EstParams} (hP : FitReady P false) (hc : ∀ n, CondReady cfg oc n P.rho) (hs : pyIn "torch".toList P.solver = true) (hn : 0 < n) (hd : 0 < d)
    (X : Fin n → Fin d → ℝ) (g : G) : ∃ f, newsvendorFit ext grads solve (realTrainer ext T cfg fl oc g) theta0 P X g = .ok f := by
  obtain ⟨post, hr⟩ := route_torch .newsvendor hs
  obtain ⟨c, hcode⟩ := hP.code
  obtain ⟨M, hM⟩ := fitTorch_real (ext := ext) (fl := fl) (oc := oc) hT hg .newsvendor post (mc := false)
    (X := matT fun i (_ : Fin 1) => rowMeans X i) (y := none) hP hc (M0 := .newsvendor P.k P.u theta0) (k := 1) rfl (by intro t ht; cases ht)
    ⟨rfl, rfl, rfl⟩ g
  have hsh := fitTorch_ok (C89_architecture_kept (ext := ext) (T := T) (cfg := cfg) (fl := fl) oc g) hM
  unfold newsvendorFit
  rw [if_neg (by omega), hcode, ok_bind]
  dsimp only
  rw [hr, ok_bind]
  dsimp only
  rw [hM, ok_bind]
  cases M <;> first | exact ⟨_, rfl⟩ | exact hsh.elim

/-- **C86** The portfolio trained by torch likewise. -/
theorem C86_portfolio_partial (hT : GoodTorch T) {n m J : ℕ} {grads : Autograd m} (hg : ∀ M, GradShapes (grads M)) (solve : Oracle)
    {p0 : Portfolio} (hp : p0.raw.length = m) {P : EstParams} (hP : FitReady P false) (hf : P.solver_reg ≠ none) (hc : ∀ n, CondReady cfg oc n P.rho) (hs : pyIn "torch".toList P.solver = true) (hn : 0 < n)
    (hm : 0 < m) (C : Fin J → Fin m → ℝ) (D : Fin J → ℝ) (X : Fin n → Fin m → ℝ) (g : G) :
    ∃ f, portfolioFit ext grads solve (realTrainer ext T cfg fl oc g) p0 P C D X g = .ok f := by
  obtain ⟨post, hr⟩ := route_torch .portfolio hs
  obtain ⟨c, hcode⟩ := hP.code
  obtain ⟨M, hM⟩ := fitTorch_real (ext := ext) (fl := fl) (oc := oc) hT hg .portfolio post (mc := false) (X := matT X) (y := none) hP hc
    (M0 := .portfolio { p0 with eta := P.eta, alpha := P.alpha }) (k := 1) rfl (by intro t ht; cases ht) ⟨rfl, rfl, hp⟩ g
  have hsh := fitTorch_ok (C89_architecture_kept (ext := ext) (T := T) (cfg := cfg) (fl := fl) oc g) hM
  unfold portfolioFit
  rw [if_neg (by omega), regAsFloat_ok hf, ok_bind, hcode, ok_bind, hr, ok_bind]
  dsimp only
  rw [hM, ok_bind]
  cases M <;> first | exact ⟨_, rfl⟩ | exact hsh.elim

/-- **C86** Logistic regression trained by torch fits all data with at least two classes (any number of classes, with or without
intercept). -/
theorem C86_logistic_partial (hT : GoodTorch T) {L : Type} [LinearOrder L] {n d : ℕ} {grads : Autograd d}
    (hg : ∀ M, GradShapes (grads M)) (solve : Oracle) {init : LinInit d} (hi : GoodInit init) {P : EstParams} (hP : FitReady P true) (hc : ∀ n, CondReady cfg oc n P.rho)
    (hr : ∃ post, route .logistic P.solver = .ok (.torch post)) (hn : 0 < n) (hd : 0 < d) (X : Fin n → Fin d → ℝ) {y : Fin n → L} {i j : Fin n}
    (hy : y i ≠ y j) (g : G) : ∃ f, logisticFit ext grads solve (realTrainer ext T cfg fl oc g) init P X y g = .ok f := by
  have h2 : 2 ≤ (npUnique y).length := by
    rw [npUnique, Finset.length_sort]
    refine Finset.one_lt_card.2 ⟨y i, ?_, y j, ?_, hy⟩ <;> simp
  obtain ⟨post, hr⟩ := hr
  obtain ⟨c, hcode⟩ := hP.code
  obtain ⟨M, hM⟩ := fitTorch_real (ext := ext) (fl := fl) (oc := oc) hT hg .logistic post (mc := false) (X := matT X)
    (y := some (matT fun i (_ : Fin 1) => encodeBinary (npUnique y) (y i))) hP hc (M0 := .softMargin (init 1 P.fit_intercept)) (k := 1) rfl
    (by intro t ht; cases ht; rfl) ⟨rfl, rfl, rfl⟩ g
  obtain ⟨M', hM'⟩ := fitTorch_real (ext := ext) (fl := fl) (oc := oc) hT hg .logistic post (mc := true) (X := matT X)
    (y := some (matT fun i => encodeOneHot (npUnique y) (y i))) hP hc (M0 := .crossEnt (init (npUnique y).length P.fit_intercept))
    (k := (npUnique y).length) rfl (by intro t ht; cases ht; rfl) ⟨rfl, rfl, rfl⟩ g
  have hsh := fitTorch_ok (C89_architecture_kept (ext := ext) (T := T) (cfg := cfg) (fl := fl) oc g) hM
  have hsh' := fitTorch_ok (C89_architecture_kept (ext := ext) (T := T) (cfg := cfg) (fl := fl) oc g) hM'
  have hb : ∀ {K : ℕ} (l : LinMap d K), l.bias.isSome = P.fit_intercept →
      ∃ t, (if P.fit_intercept then l.biasArray.map fun b => (some l.weightArray, some b) else .ok (some l.weightArray, none) :
        Except PyErr (Option (Tensor ℝ) × Option (Tensor ℝ))) = .ok t := by
    intro K l hl
    cases hf : P.fit_intercept with
    | false => exact ⟨_, rfl⟩
    | true =>
      rw [hf] at hl
      obtain ⟨b, hb⟩ := Option.isSome_iff_exists.1 hl
      exact ⟨_, by simp only [if_true, LinMap.biasArray, hb]; rfl⟩
  unfold logisticFit
  rw [if_neg (by omega)]
  dsimp only
  rw [if_neg (by omega), hcode, ok_bind, hr, ok_bind]
  dsimp only
  split
  · rw [hM, ok_bind]
    cases M with
    | softMargin l =>
      obtain ⟨t, ht⟩ := hb l (by rw [← show _ = _ from hsh, hi])
      simp only [logisticRead, ht, ok_bind]
      exact ⟨_, rfl⟩
    | _ => exact hsh.elim
  · rw [hM', ok_bind]
    cases M' with
    | crossEnt l =>
      obtain ⟨t, ht⟩ := hb l (by
        obtain ⟨h1, h2⟩ := hsh'
        rw [← h2, hi])
      simp only [logisticRead, ht, ok_bind]
      exact ⟨_, rfl⟩
    | _ => exact hsh'.elim

/-! ## C67, with the training loops -/

theorem default_fitReady_labelled (e : EstKind) (he : e = .logistic ∨ e = .linreg ∨ e = .weber) : FitReady e.defaults true := by
  have hcode := default_cost
  obtain ⟨parsed, obj, h1, h2, h3⟩ := default_parse
  rcases he with rfl | rfl | rfl <;> refine ⟨hcode, ⟨parsed, obj, h1, h2, h3, by simp⟩, fun s hs => ?_, fun r hr => ?_, fun s hs => ?_⟩ <;>
    simp only [EstKind.defaults, Radius.num.injEq, Option.some.injEq] at * <;> first | (subst hs; norm_num) | (subst hr; norm_num) | cases hs

/-- **C67** Logistic regression with default arguments fits all data with at least two classes, through the actual training loops, and then
predicts on all data labels it has seen. -/
theorem C67_logistic_trained (hT : GoodTorch T) (hc : ∀ n, CondReady cfg oc n EstKind.logistic.defaults.rho) {L : Type} [LinearOrder L] {n d : ℕ} {grads : Autograd d}
    (hg : ∀ M, GradShapes (grads M)) (solve : Oracle) {init : LinInit d} (hi : GoodInit init) (hn : 0 < n) (hd : 0 < d)
    (X : Fin n → Fin d → ℝ) {y : Fin n → L} {i j : Fin n} (hy : y i ≠ y j) (g : G) :
    ∃ f, logisticFit ext grads solve (realTrainer ext T cfg fl oc g) init EstKind.logistic.defaults X y g = .ok f ∧
      ∀ (N : ℕ) (X' : Fin N → Fin d → ℝ), ∃ labels, f.predict X' = .ok labels ∧ labels.toList.length = N ∧
        ∀ l ∈ labels.toList, ∃ i, y i = l := by
  obtain ⟨f, hf⟩ := C86_logistic_partial (ext := ext) (fl := fl) (oc := oc) hT hg solve hi (default_fitReady_labelled .logistic (by simp)) hc
    ⟨_, C66_bare_name_false .logistic⟩ hn hd X hy g
  exact ⟨f, hf, logistic_predicts (C89_architecture_kept oc g) hi (two_le_npUnique hy) hf⟩

/-- **C67** Linear regression with default arguments likewise: it predicts one number per sample, an affine function of it. -/
theorem C67_linreg_trained (hT : GoodTorch T) (hc : ∀ n, CondReady cfg oc n EstKind.linreg.defaults.rho) {n d : ℕ} {grads : Autograd d} (hg : ∀ M, GradShapes (grads M))
    (solve : Oracle) {init : LinInit d} (hi : GoodInit init) (hn : 0 < n) (hd : 0 < d) (X : Fin n → Fin d → ℝ) (y : Fin n → ℝ) (g : G) :
    ∃ f, linregFit ext grads solve (realTrainer ext T cfg fl oc g) init EstKind.linreg.defaults X y g = .ok f ∧
      ∃ (w : Fin d → ℝ) (b : ℝ), ∀ (N : ℕ) (X' : Fin N → Fin d → ℝ),
        Returns (linregPredict f X') (fun t => IsVec t (fun i => affine w b (X' i))) := by
  obtain ⟨f, hf⟩ := C86_linreg_partial (ext := ext) (fl := fl) (oc := oc) hT hg solve init (default_fitReady_labelled .linreg (by simp)) hc
    (by decide) hn hd X y g
  refine ⟨f, hf, ?_⟩
  rcases linregFit_ok (C89_architecture_kept oc g) hi hf with ⟨hd', -⟩ | ⟨post, -, l, b, -, hc, hb, -⟩
  · rw [show EstKind.linreg.defaults.solver = "entropic_torch".toList from rfl, C66_bare_name_false .linreg] at hd'
    simp at hd'
  · exact ⟨l.weight 0, b 0, fun N X' => linregPredict_affine hc (by simpa using hb) X'⟩

/-- **C67** (violated) A Weber estimator with default arguments fits all data through the actual training loops, but can never be scored. -/
theorem C67_weber_trained_false (hT : GoodTorch T) (hc : ∀ n, CondReady cfg oc n EstKind.weber.defaults.rho) {n d : ℕ} {grads : Autograd d} (hg : ∀ M, GradShapes (grads M))
    (hn : 0 < n) (hd : 0 < d) (X : Fin n → Fin d → ℝ) (w : Fin n → ℝ) (g : G) :
    ∃ f, weberProcess ext T cfg fl oc grads EstKind.weber.defaults X w g = .ok f ∧ ∀ (N : ℕ) (X' : Fin N → Fin d → ℝ),
      score (weberEval EstKind.weber.defaults f X') = .error .assertionError := by
  obtain ⟨f, hf⟩ := C86_weber_partial (ext := ext) (fl := fl) (oc := oc) hT hg (fun _ => 0) (default_fitReady_labelled .weber (by simp)) hc
    (by decide) hn hd X w g
  refine ⟨f, hf, fun N X' => ?_⟩
  rw [C77_weber_false (C89_architecture_kept oc g) hf N X', if_pos (by decide)]

/-! ## C87, estimators -/

theorem torchArgs_onlyModule {d : ℕ} (grads : Autograd d) (e : EstKind) (P : EstParams) (post mc : Bool) (X : Tensor ℝ)
    (y : Option (Tensor ℝ)) : OnlyModule (torchArgs grads e P post mc X y) := fun _ _ => rfl

theorem isTen_get {n m d : ℕ} {t : Tensor ℝ} (h : t.shape = [n, m, d]) :
    IsTen t (fun (j : Fin n) (i : Fin m) (k : Fin d) => t.get [j.1, i.1, k.1]) := ⟨h, fun _ _ _ => rfl⟩

/-- the formula for any labelled per-sample loss -/
theorem reported_value {a : DualizeArgs} {g g' : G} {D : DualLoss} {s : Sampler} {v : DualVal} {q : XNum ℝ} {b : Bool} {N d k w n : ℕ} {lam : ℝ}
    {X : Fin N → Fin d → ℝ} {Y : Fin N → Fin k → ℝ} (h : dualize ext a g = .ok (D, g')) (hs : D.sampler = some s) (hx : a.xi = mat X)
    (hy : a.xi_labels = some (mat Y)) (hsp : a.loss_reduces_spatial_dims = false) (hi : a.imp_samp = false)
    (hsig : ∀ s, a.sigma = some s → 0 < s) {rho : ℝ} (hr : a.rho = .num rho) (hpos : 0 < rho) (he : ∀ x, a.epsilon = some x → 0 < x)
    (hred : a.reduction = none) (hw : 0 < w) {ell : (Fin d → ℝ) → (Fin k → ℝ) → Fin w → ℝ} (hrow : RowWise a.flat ell) (hns : a.n_samples = n)
    (hn : 0 < n) (hN : 0 < N)
    (hc : computeDual ext { D with lam := lam, impSamp := b && D.impSamp } a.xi a.xi_labels (s.sample ext D.nSamples g').1
      (s.sample ext D.nSamples g').2.1 = .ok v) (hv : v.item = .ok q) :
    ∃ Z W, (s.sample ext n g').1 = Z ∧ (s.sample ext n g').2.1 = some W ∧ Z.shape = [n, N, d] ∧ W.shape = [n, N, k] ∧
      q = .fin (lam * rho ^ D.cost.power + (∑ i : Fin N, D.epsilon * Real.log ((∑ j : Fin n,
        Real.exp ((lossAt a.wloss ell (fun k => Z.get [j.1, i.1, k.1]) (fun k => W.get [j.1, i.1, k.1]) -
          lam * costAt D.cost (X i) (fun k => Z.get [j.1, i.1, k.1]) (Y i) (fun k => W.get [j.1, i.1, k.1])) / D.epsilon)) / n)) / N) := by
  have hfits : SamplerFits s N d k true := by
    obtain ⟨parsed, obj, c, s', -, -, -, hsm, rfl⟩ := dualize_ok h
    have : s' = s := by simpa [dualOf] using hs
    subst this
    rw [hy] at hsm
    exact dualizeSampler_fits hsm (by rw [hx]; rfl) (by intro t ht; cases ht; rfl)
  have hDn : D.nSamples = n := by
    obtain ⟨parsed, obj, c, s', -, -, -, -, rfl⟩ := dualize_ok h
    exact hns
  have himp : D.impSamp = false := by
    obtain ⟨parsed, obj, c, s', -, -, -, -, rfl⟩ := dualize_ok h
    simp [dualOf, decideOnImpsamp, hi]
  obtain ⟨z1, z2, z3⟩ := sample_shapes ext hfits g' n
  obtain ⟨W, hW⟩ := Option.isSome_iff_exists.1 z2
  have hWs := z3 W hW
  refine ⟨_, W, rfl, hW, z1, hWs, ?_⟩
  have hL := dualize_labelled h (by rw [hy]; rfl) hsp hi hsig hr hpos he hred hw hrow lam
  obtain ⟨t, ht1, ht2, ht3⟩ := C29_formula_labelled ext hL.1 hL.2.1 hn hN (isMat_mat X) (isTen_get z1) (isMat_mat Y) (isTen_get hWs)
  have e : ({ D with lam := lam, impSamp := b && D.impSamp } : DualLoss) = { D with lam := lam } := by simp [himp]
  rw [e, hx, hy] at hc
  simp only [hDn] at hc ht1
  rw [hW, ht1] at hc
  cases hc
  have hl : t.toList = [t.get []] := by
    cases t with
    | mk shape get => cases ht2; rfl
  simp only [DualVal.item, hl, Except.ok.injEq] at hv
  rw [← hv, ht3]

/-- **C87** Linear regression, pre-sampled: the reported robust loss is the soft-max formula at the returned coefficients, at the reported
multiplier and at the sampled data `Z`, `W`. -/
theorem C87_linreg {N d n : ℕ} {grads : Autograd d} (hg : ∀ M, GradShapes (grads M)) {P : EstParams}
    (hsig : ∀ s, P.sampler_reg = some s → 0 < s) (heps : ∀ e, P.solver_reg = some e → 0 < e) {rho : ℝ} (hrho : P.rho = .num rho) (hpos : 0 < rho)
    (hiter : ∀ s, P.n_iter = some s → 0 < (toSteps s).iterations) (hz : P.n_zeta_samples = n) (hn : 0 < n) (hN : 0 < N) (X : Fin N → Fin d → ℝ)
    (y : Fin N → ℝ) (l0 : LinMap d 1) (g : G) {M : Module d} {r : Solved (List ℝ)}
    (h : solveTorch ext T cfg fl (torchArgs grads .linreg P false false (matT X) (some (matT fun i (_ : Fin 1) => y i))) (.mse l0)
      (trainSteps .linreg P false) oc g = .ok (M, r)) :
    ∃ l D g' s Z W, M = .mse l ∧ r.coef = l.params ∧
      dualize ext (torchArgs grads .linreg P false false (matT X) (some (matT fun i (_ : Fin 1) => y i)) (.mse l)) g = .ok (D, g') ∧
      D.sampler = some s ∧ (s.sample ext n g').1 = Z ∧ (s.sample ext n g').2.1 = some W ∧ Z.shape = [n, N, d] ∧ W.shape = [n, N, 1] ∧
      r.robust_loss = .fin (r.dual_var * rho ^ D.cost.power + (∑ i : Fin N, D.epsilon * Real.log ((∑ j : Fin n,
        Real.exp (((l.out (fun k => Z.get [j.1, i.1, k.1]) 0 - W.get [j.1, i.1, 0]) ^ 2 + ridge (some P.l2_reg) l.params -
          r.dual_var * costAt D.cost (X i) (fun k => Z.get [j.1, i.1, k.1]) (fun (_ : Fin 1) => y i) (fun k => W.get [j.1, i.1, k.1])) /
            D.epsilon)) / n)) / N) := by
  have ha : ArgsFit (torchArgs grads .linreg P false false (matT X) (some (matT fun i (_ : Fin 1) => y i))) (.mse l0) N 1 false :=
    torch_argsFit hg .linreg P false rfl (by intro t ht; cases ht; rfl) ⟨rfl, rfl, rfl⟩
  obtain ⟨D, g', s, lam, v, h1, h2, h3, h4, h5, h6, h7⟩ := C87_reported_loss (torchArgs_onlyModule grads .linreg P false false _ _) ha
    (fun _ _ _ _ h => by cases h) rfl (fun r hr => by
      have : Radius.num rho = .num r := hrho.symm.trans hr
      cases this; exact hpos.le) (trainSteps_pos hiter .linreg false) oc g h
  have hdv : r.dual_var = lam := by
    rw [h5, if_pos]
    show P.rho.isPos = true
    rw [hrho]
    simpa [Radius.isPos] using hpos
  cases M with
  | mse l =>
    obtain ⟨Z, W, hZ, hW, hZs, hWs, hq⟩ := reported_value (X := X) (Y := fun i (_ : Fin 1) => y i) (n := n) h1 h2 rfl rfl rfl rfl hsig hrho hpos
      heps rfl one_pos (mse_rows l) (by show P.n_zeta_samples.toNat = n; rw [hz]; simp) hn hN h3 h4
    refine ⟨l, D, g', s, Z, W, rfl, h6, h1, h2, hZ, hW, hZs, hWs, ?_⟩
    have e1 : (torchArgs grads EstKind.linreg P false false (matT X) (some (matT fun i (_ : Fin 1) => y i)) (.mse l)).wloss.l2reg =
      some P.l2_reg := rfl
    have e2 : (torchArgs grads EstKind.linreg P false false (matT X) (some (matT fun i (_ : Fin 1) => y i)) (.mse l)).wloss.theta =
      l.params := rfl
    rw [hq, hdv]
    simp [lossAt, avg, e1, e2]
  | _ => exact h7.elim

/-- **C87** Two-class logistic regression, pre-sampled: the same with the logistic loss of the margin. -/
theorem C87_logistic {N d n : ℕ} {grads : Autograd d} (hg : ∀ M, GradShapes (grads M)) {P : EstParams}
    (hsig : ∀ s, P.sampler_reg = some s → 0 < s) (heps : ∀ e, P.solver_reg = some e → 0 < e) {rho : ℝ} (hrho : P.rho = .num rho) (hpos : 0 < rho)
    (hiter : ∀ s, P.n_iter = some s → 0 < (toSteps s).iterations) (hz : P.n_zeta_samples = n) (hn : 0 < n) (hN : 0 < N) (X : Fin N → Fin d → ℝ)
    (y : Fin N → ℝ) (l0 : LinMap d 1) (g : G) {M : Module d} {r : Solved (List ℝ)}
    (h : solveTorch ext T cfg fl (torchArgs grads .logistic P false false (matT X) (some (matT fun i (_ : Fin 1) => y i))) (.softMargin l0)
      (trainSteps .logistic P false) oc g = .ok (M, r)) :
    ∃ l D g' s Z W, M = .softMargin l ∧ r.coef = l.params ∧
      dualize ext (torchArgs grads .logistic P false false (matT X) (some (matT fun i (_ : Fin 1) => y i)) (.softMargin l)) g = .ok (D, g') ∧
      D.sampler = some s ∧ (s.sample ext n g').1 = Z ∧ (s.sample ext n g').2.1 = some W ∧ Z.shape = [n, N, d] ∧ W.shape = [n, N, 1] ∧
      r.robust_loss = .fin (r.dual_var * rho ^ D.cost.power + (∑ i : Fin N, D.epsilon * Real.log ((∑ j : Fin n,
        Real.exp ((logloss (W.get [j.1, i.1, 0]) (l.out (fun k => Z.get [j.1, i.1, k.1]) 0) + ridge (some P.l2_reg) l.params -
          r.dual_var * costAt D.cost (X i) (fun k => Z.get [j.1, i.1, k.1]) (fun (_ : Fin 1) => y i) (fun k => W.get [j.1, i.1, k.1])) /
            D.epsilon)) / n)) / N) := by
  have ha : ArgsFit (torchArgs grads .logistic P false false (matT X) (some (matT fun i (_ : Fin 1) => y i))) (.softMargin l0) N 1 false :=
    torch_argsFit hg .logistic P false rfl (by intro t ht; cases ht; rfl) ⟨rfl, rfl, rfl⟩
  obtain ⟨D, g', s, lam, v, h1, h2, h3, h4, h5, h6, h7⟩ := C87_reported_loss (torchArgs_onlyModule grads .logistic P false false _ _) ha
    (fun _ _ _ _ h => by cases h) rfl (fun r hr => by
      have : Radius.num rho = .num r := hrho.symm.trans hr
      cases this; exact hpos.le) (trainSteps_pos hiter .logistic false) oc g h
  have hdv : r.dual_var = lam := by
    rw [h5, if_pos]
    show P.rho.isPos = true
    rw [hrho]
    simpa [Radius.isPos] using hpos
  cases M with
  | softMargin l =>
    obtain ⟨Z, W, hZ, hW, hZs, hWs, hq⟩ := reported_value (X := X) (Y := fun i (_ : Fin 1) => y i) (n := n) h1 h2 rfl rfl rfl rfl hsig hrho hpos
      heps rfl one_pos (softMargin_rows l) (by show P.n_zeta_samples.toNat = n; rw [hz]; simp) hn hN h3 h4
    refine ⟨l, D, g', s, Z, W, rfl, h6, h1, h2, hZ, hW, hZs, hWs, ?_⟩
    have e1 : (torchArgs grads EstKind.logistic P false false (matT X) (some (matT fun i (_ : Fin 1) => y i)) (.softMargin l)).wloss.l2reg =
      some P.l2_reg := rfl
    have e2 : (torchArgs grads EstKind.logistic P false false (matT X) (some (matT fun i (_ : Fin 1) => y i)) (.softMargin l)).wloss.theta =
      l.params := rfl
    rw [hq, hdv]
    simp [lossAt, avg, e1, e2]
  | _ => exact h7.elim

/-! ## C88, estimators -/

theorem realTrainer_seeded {d : ℕ} {args : Module d → DualizeArgs} {M0 : Module d} {sd : ℤ} (hs : (args M0).seed = some sd)
    (steps : ℤ ⊕ (ℤ × ℤ)) (g g' : G) : realTrainer ext T cfg fl oc g args M0 steps = realTrainer ext T cfg fl oc g' args M0 steps := by
  unfold realTrainer
  rw [C88_seeded_partial hs oc g g']

theorem fitTorch_seeded {d : ℕ} {grads : Autograd d} (e : EstKind) (P : EstParams) (post mc : Bool) (X : Tensor ℝ) (y : Option (Tensor ℝ))
    (M0 : Module d) (g g' : G) : fitTorch ext grads (realTrainer ext T cfg fl oc g) e P post mc X y M0 g =
      fitTorch ext grads (realTrainer ext T cfg fl oc g') e P post mc X y M0 g' := by
  have h1 : dualize ext (torchArgs grads e P post mc X y M0) g = dualize ext (torchArgs grads e P post mc X y M0) g' := by
    unfold dualize dualizeSampler
    rw [show (torchArgs grads e P post mc X y M0).seed = some P.random_state from rfl]
    cases (torchArgs grads e P post mc X y M0).xi_labels <;> rfl
  unfold fitTorch
  rw [h1, realTrainer_seeded (sd := P.random_state) rfl _ g g']

/-- **C88** Weber fits are reproducible: with the same data, settings and condition, they do not depend on what was drawn before. -/
theorem C88_weber {n d : ℕ} (grads : Autograd d) (P : EstParams) (X : Fin n → Fin d → ℝ) (w : Fin n → ℝ) (g g' : G) :
    weberProcess ext T cfg fl oc grads P X w g = weberProcess ext T cfg fl oc grads P X w g' := by
  unfold weberProcess weberFit
  have h : ∀ post, fitTorch ext grads (realTrainer ext T cfg fl oc g) .weber P post false (matT X) (some (matT fun i (_ : Fin 1) => w i))
      (.weber fun _ => 0) g = fitTorch ext grads (realTrainer ext T cfg fl oc g') .weber P post false (matT X)
      (some (matT fun i (_ : Fin 1) => w i)) (.weber fun _ => 0) g' := fun post => fitTorch_seeded _ _ _ _ _ _ _ _ _
  simp only [h]

/-- an optimizer with learning rate zero: evaluates the loss, changes no parameter -/
def idleTorch (G : Type) : Torch G Unit where
  o0 := ()
  backward _ := (some [], some 0)
  step v := .ok v
  prog _ := .eval fun _ => .done
  resetLbd := none
  composite := false

theorem idle_good : GoodTorch (idleTorch G) :=
  ⟨fun _ => .eval _ fun _ => .done, fun v => ⟨v, rfl, fun h => h, fun h => h⟩, fun f hf => (by cases hf), fun _ _ => rfl, fun _ _ _ _ => rfl⟩

theorem put_view {d : ℕ} (b : Box d G O) : b.put b.view = b := by
  simp only [Box.put, Box.view, withParams_self]

/-- with it, the trained module is the initial one -/
theorem idle_module {d : ℕ} {args : Module d → DualizeArgs} {M0 M : Module d} {steps : ℤ ⊕ (ℤ × ℤ)} {g : G}
    (h : realTrainer ext (idleTorch G) cfg fl oc g args M0 steps = .ok M) : M = M0 := by
  unfold realTrainer solveTorch at h
  cases hD : dualize ext (args M0) g with
  | error e => rw [hD] at h; cases h
  | ok p =>
    obtain ⟨D, g'⟩ := p
    rw [hD] at h
    simp only [ok_bind] at h
    cases hr : solveRun ext (idleTorch G) cfg fl args D M0 steps oc g' with
    | mk a st =>
      rw [hr] at h
      cases a with
      | error e => cases h
      | ok r =>
        simp only [Except.map, Except.ok.injEq] at h
        subst h
        refine solveRun_inv (J := fun M => M = M0) (fun b hb => ?_) (fun b v hb hv => ?_) (fun f hf => ?_) rfl hr
        · exact .eval _ fun _ => .done
        · cases hv
          rw [put_view]
          exact hb
        · cases hf

/-- **C88** (violated) The same `random_state` does not make linear regression reproducible: the initial weights are drawn before the
generator is seeded.  Two fits of the default estimator on the same data, in generator states from which different weights are drawn, return
different coefficients (here with learning rate zero, on all data). -/
theorem C88_initial_weights_false (hc : ∀ n, CondReady cfg oc n EstKind.linreg.defaults.rho) {n d : ℕ} {grads : Autograd d} (hg : ∀ M, GradShapes (grads M)) (solve : Oracle)
    {draw : G → LinInit d × G} (hi : ∀ g, GoodInit (draw g).1) (hn : 0 < n) (hd : 0 < d) (X : Fin n → Fin d → ℝ) (y : Fin n → ℝ) {g g' : G}
    (hdiff : ((draw g).1 1 true).weight 0 ≠ ((draw g').1 1 true).weight 0) :
    ∃ f f', linregProcess ext (idleTorch G) cfg fl oc grads solve draw EstKind.linreg.defaults X y g = .ok f ∧
      linregProcess ext (idleTorch G) cfg fl oc grads solve draw EstKind.linreg.defaults X y g' = .ok f' ∧ f.coef ≠ f'.coef := by
  have key : ∀ g : G, ∃ f, linregProcess ext (idleTorch G) cfg fl oc grads solve draw EstKind.linreg.defaults X y g = .ok f ∧
      f.coef = some (listT (List.ofFn (((draw g).1 1 true).weight 0))) := by
    intro g
    obtain ⟨f, hf⟩ := C86_linreg_partial (ext := ext) (fl := fl) (oc := oc) idle_good hg solve (draw g).1
      (default_fitReady_labelled .linreg (by simp)) hc (by decide) hn hd X y (draw g).2
    refine ⟨f, hf, ?_⟩
    rcases linregFit_ok (C89_architecture_kept oc (draw g).2) (hi g) hf with ⟨hd', -⟩ | ⟨post, -, l, b, -, hc, hb, hM⟩
    · rw [show EstKind.linreg.defaults.solver = "entropic_torch".toList from rfl, C66_bare_name_false .linreg] at hd'
      simp at hd'
    · unfold fitTorch at hM
      obtain ⟨_, -, hM⟩ := bind_ok hM
      have := idle_module hM
      simp only [Module.mse.injEq] at this
      rw [hc, this]
  obtain ⟨f, h1, h2⟩ := key g
  obtain ⟨f', h3, h4⟩ := key g'
  refine ⟨f, f', h1, h3, fun h => hdiff ?_⟩
  rw [h2, h4] at h
  have h5 := congrArg (fun t : Tensor ℝ => fun k : Fin d => t.get [k.1]) (Option.some.inj h)
  funext k
  simpa [listT] using congrFun h5 k

end estimators

/-! ## Non-vacuity: a gradient descent, a default condition, and all estimators -/

/-- plain gradient descent on parameters and multiplier, with momentum-free state counting its steps; gradients of one everywhere -/
def gdTorch (G : Type) : Torch G ℕ where
  o0 := 0
  backward _ := (some [1], some 1)
  step v := .ok { v with params := List.zipWith (· - ·) v.params (v.pgrad.getD []), lam := v.lam - v.lgrad.getD 0, o := v.o + 1 }
  prog _ := .eval fun _ => .act (fun v => { v with params := List.zipWith (· - ·) v.params (v.pgrad.getD []), lam := v.lam - v.lgrad.getD 0 }) fun _ =>
    .eval fun _ => .done
  resetLbd := some fun v => .ok { v with o := 0 }
  composite := true

theorem gd_good {G : Type} : GoodTorch (gdTorch G) :=
  ⟨fun _ => .eval _ fun _ => .act _ _ fun _ => .eval _ fun _ => .done, fun v => ⟨_, rfl, fun h => h, fun h => h⟩, fun f hf v => by cases hf; exact ⟨_, rfl⟩,
    fun _ _ => rfl, fun _ _ _ _ => rfl⟩

/-- the condition used by all estimators unless another one is given -/
noncomputable def defaultCond : OCConfig := ⟨.fin 2, 1 / 1000000, 1 / 1000000, "theta".toList, "rel".toList, "grad".toList⟩

theorem defaultCond_grad : GradCond defaultCond := ⟨rfl, rfl, Or.inl rfl⟩

theorem defaultCond_ready (oc : OCState) (n : ℕ) (rho : Radius) : CondReady defaultCond oc n rho := gradCond_ready defaultCond_grad oc n rho

/-- gradients of the right shapes -/
def onesGrad (d : ℕ) : Autograd d := fun _ x y => (⟨x.shape, fun _ => 1⟩, y.map fun t => ⟨t.shape, fun _ => 1⟩)

theorem onesGrad_shapes (d : ℕ) (M : Module d) : GradShapes (onesGrad d M) := by
  intro x y
  refine ⟨rfl, by simp [onesGrad], fun a b ha hb => ?_⟩
  subst ha
  simp only [onesGrad, Option.map_some, Option.some.injEq] at hb
  rw [← hb]

theorem fitReady_plain (c t : ℕ) (hs : Supported (.fin (c : ℚ)) (.fin (t : ℚ))) (P : EstParams)
    (hc : P.cost = joinDash ["t".toList, "NC".toList, decimal c, decimal t]) (h1 : P.sampler_reg = none) (h2 : P.rho = .num (1 / 100))
    (h3 : P.n_iter = none) : FitReady P false := by
  refine ⟨⟨_, by rw [hc]; exact code_cost c t⟩, ⟨_, _, by rw [hc]; exact code_parse "NC".toList c t (by decide) false, rfl, hs, fun _ => rfl⟩,
    fun s h => ?_, fun r h => ?_, fun s h => ?_⟩
  · rw [h1] at h; cases h
  · rw [h2] at h; cases h; norm_num
  · rw [h3] at h; cases h

example : FitReady { EstKind.portfolio.defaults with solver := preName } false :=
  fitReady_plain 1 1 (Or.inl ⟨rfl, Or.inl rfl⟩) _ rfl rfl rfl rfl

example : FitReady { EstKind.newsvendor.defaults with solver := preName } false :=
  fitReady_plain 1 2 (Or.inl ⟨rfl, Or.inr (Or.inl rfl)⟩) _ rfl rfl rfl rfl

/-- default linear regression on two points, through gradient descent -/
example (solve : Oracle) (oc : OCState) : ∃ f, linregFit (n := 2) (d := 1) counterExt (onesGrad 1) solve
    (realTrainer counterExt (gdTorch ℕ) defaultCond (fun x => x) oc 7) (fun _ b => ⟨fun _ _ => 3, if b then some (fun _ => 1) else none⟩)
    EstKind.linreg.defaults (fun i _ => i.1) (fun i => 2 * i.1) 7 = .ok f :=
  C86_linreg_partial gd_good (onesGrad_shapes 1) solve _ (default_fitReady_labelled .linreg (by simp)) (fun n => defaultCond_ready oc n _) (by decide) (by norm_num)
    (by norm_num) _ _ _

/-- default two-class logistic regression, likewise, and pre-sampled -/
example (solve : Oracle) (oc : OCState) (b : Bool) : ∃ f, logisticFit (L := ℕ) (n := 2) (d := 1) counterExt (onesGrad 1) solve
    (realTrainer counterExt (gdTorch ℕ) defaultCond (fun x => x) oc 7) (fun _ b => ⟨fun _ _ => 3, if b then some (fun _ => 1) else none⟩)
    { EstKind.logistic.defaults with fit_intercept := b, solver := preName } (fun i _ => i.1) (fun i => i.1) 7 = .ok f := by
  have h := default_fitReady_labelled .logistic (by simp)
  generalize hP : { EstKind.logistic.defaults with fit_intercept := b, solver := preName } = P
  have h' : FitReady P true := by subst hP; exact ⟨h.code, h.cost, h.sigma, h.rho, h.iter⟩
  have hr : route .logistic P.solver = .ok (.torch false) := by subst hP; show route _ preName = _; decide
  have hy : (fun i : Fin 2 => i.1) 0 ≠ (fun i : Fin 2 => i.1) 1 := by decide
  exact C86_logistic_partial gd_good (onesGrad_shapes 1) solve (fun K b => by cases b <;> rfl) h' (fun n => defaultCond_ready oc n _) ⟨false, hr⟩ (by norm_num)
    (by norm_num) _ hy _

/-- a pre-sampled linear regression to which C87 applies: it returns -/
example (oc : OCState) (X : Fin 2 → Fin 1 → ℝ) (y : Fin 2 → ℝ) (l0 : LinMap 1 1) : ∃ M r, solveTorch counterExt (gdTorch ℕ) defaultCond
    (fun x => x) (torchArgs (onesGrad 1) .linreg { EstKind.linreg.defaults with solver := preName } false false (matT X)
      (some (matT fun i (_ : Fin 1) => y i))) (.mse l0)
    (trainSteps .linreg { EstKind.linreg.defaults with solver := preName } false) oc 7 = .ok (M, r) := by
  have h := default_fitReady_labelled .linreg (by simp)
  generalize hP : { EstKind.linreg.defaults with solver := preName } = P
  have h' : FitReady P true := by subst hP; exact ⟨h.code, h.cost, h.sigma, h.rho, h.iter⟩
  obtain ⟨M, r, h1, -⟩ := C86_fits_return_partial (ext := counterExt) (fl := fun x => x) gd_good
    (torch_argsFit (onesGrad_shapes 1) .linreg P false (mc := false) (X := matT X) (y := some (matT fun i (_ : Fin 1) => y i)) (k := 1)
      (M0 := .mse l0) rfl (by intro t ht; cases ht; rfl) ⟨rfl, rfl, rfl⟩)
    (torch_costReady h') h'.rho (trainSteps_pos h'.iter .linreg false) (defaultCond_ready oc _ _) 7
  exact ⟨M, r, h1⟩

/-- two states of a generator from which different weights are drawn -/
example : ∃ draw : ℕ → LinInit 1 × ℕ, (∀ g, GoodInit (draw g).1) ∧ ((draw 0).1 1 true).weight 0 ≠ ((draw 1).1 1 true).weight 0 :=
  ⟨fun g => (fun _ b => ⟨fun _ _ => g, if b then some (fun _ => g) else none⟩, g + 1), fun g K b => by cases b <;> rfl,
    fun h => by have := congrFun h 0; simp at this⟩

end Skwdro
