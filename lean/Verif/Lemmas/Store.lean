import Verif.Model.Store
import Verif.Lemmas.Estimators

/-! The assignments of `fit`, call by call. -/

namespace Skwdro

open Spec

variable {G L : Type}

@[simp] theorem andThen_ok {α : Type} (w : List (Write L)) (a : α) (k : α → FitRun L) :
    FitRun.andThen w (.ok a) k = (w ++ (k a).1, (k a).2) := rfl

@[simp] theorem andThen_error {α : Type} (w : List (Write L)) (x : PyErr) (k : α → FitRun L) : FitRun.andThen w (.error x) k = (w, .error x) := rfl

theorem realInPlace_trainer {O : Type} {d : ℕ} (ext : TorchExt G) (T : Torch G O) (cfg : OCConfig) (fl : ℝ → ℝ) (oc : OCState) (g : G) :
    (realInPlace ext T cfg fl oc g).trainer = (realTrainer ext T cfg fl oc g : Trainer d) := by
  funext args M0 steps
  unfold InPlace.trainer realInPlace realTrainer solveTorch
  cases dualize ext (args M0) g with
  | error x => rfl
  | ok D =>
    obtain ⟨D, g⟩ := D
    simp only [ok_bind]
    cases h : solveRun ext T cfg fl args D M0 steps oc g with
    | mk r s => cases r <;> rfl

/-- the torch branch: the loss is refused, or training raises, or it returns -/
theorem torchWrites_cases {d : ℕ} (ext : TorchExt G) (grads : Autograd d) (train : InPlace d) (e : EstKind) (P : EstParams)
    (post mc : Bool) (X : Tensor ℝ) (y : Option (Tensor ℝ)) (M0 : Module d) (g : G) (keep : Bool)
    (read : Module d → Except PyErr (List (Write L))) :
    (∃ x, fitTorch ext grads train.trainer e P post mc X y M0 g = .error x ∧
      (torchWrites ext grads train e P post mc X y M0 g keep read = ([], .error x) ∨
       ∃ M, train (torchArgs grads e P post mc X y) M0 (trainSteps e P post) = (.error x, M) ∧
        torchWrites ext grads train e P post mc X y M0 g keep read =
          (if keep then [.loss ⟨d, M, torchArgs grads e P post mc X y M⟩] else [], .error x))) ∨
    (∃ (r : Solved (List ℝ)) (M : Module d), fitTorch ext grads train.trainer e P post mc X y M0 g = .ok M ∧
      torchWrites ext grads train e P post mc X y M0 g keep read =
        FitRun.andThen ((if keep then [.loss ⟨d, M, torchArgs grads e P post mc X y M⟩] else []) ++
          [.coef (some (listT r.coef)), .intercept (r.intercept.map listT), .dual_var (some (Tensor.scalar r.dual_var)), .robust_loss r.robust_loss])
          (read M) fun w => (w ++ [.fitted], .ok ())) := by
  unfold torchWrites fitTorch
  dsimp only
  cases dualize ext (torchArgs grads e P post mc X y M0) g with
  | error x => exact Or.inl ⟨x, rfl, Or.inl rfl⟩
  | ok D =>
    simp only [ok_bind, andThen_ok, List.nil_append]
    cases h : train (torchArgs grads e P post mc X y) M0 (trainSteps e P post) with
    | mk r M =>
      cases r with
      | error x =>
        refine Or.inl ⟨x, by unfold InPlace.trainer; rw [h], Or.inr ⟨M, rfl, rfl⟩⟩
      | ok r => exact Or.inr ⟨r, M, by unfold InPlace.trainer; rw [h], rfl⟩

theorem after_append (s : Store L) (w w' : List (Write L)) (r r' r'' : Except PyErr Unit) :
    s.after (w ++ w', r) = (s.after (w, r')).after (w', r'') := by
  simp only [Store.after, List.foldl_append]

/-! ## Linear regression -/

/-- attributes left by a call of `LinearRegression.fit` -/
theorem linregRun_cases {n d : ℕ} {ext : TorchExt G} {grads : Autograd d} {solve : Oracle} {train : InPlace d}
    (ht : GoodTrainer train.trainer) {init : LinInit d} {P : EstParams} {X : Fin n → Fin d → ℝ} {y : Fin n → ℝ} {g : G} :
    (∃ x, linregFit ext grads solve train.trainer init P X y g = .error x ∧
      ((n = 0 ∨ d = 0) ∧ linregRun (L := L) ext grads solve train init P X y g = ([], .error x) ∨
       ¬(n = 0 ∨ d = 0) ∧ linregRun (L := L) ext grads solve train init P X y g = ([.data], .error x))) ∨
    (∃ f, linregFit ext grads solve train.trainer init P X y g = .ok f ∧ (linregRun (L := L) ext grads solve train init P X y g).2 = .ok () ∧
      ∀ s : Store L, (s.after (linregRun ext grads solve train init P X y g)).data = true ∧
        (s.after (linregRun ext grads solve train init P X y g)).fitted = true ∧
        (s.after (linregRun ext grads solve train init P X y g)).coef = some f.coef ∧
        (s.after (linregRun ext grads solve train init P X y g)).intercept = some f.intercept) := by
  unfold linregFit linregRun
  split
  · next h0 => exact Or.inl ⟨_, rfl, Or.inl ⟨h0, rfl⟩⟩
  next h0 =>
  cases cost_from_str P.cost with
  | error x => exact Or.inl ⟨x, rfl, Or.inr ⟨h0, rfl⟩⟩
  | ok c =>
  simp only [ok_bind]
  cases route .linreg P.solver with
  | error x => exact Or.inl ⟨x, rfl, Or.inr ⟨h0, rfl⟩⟩
  | ok r =>
  cases r with
  | torch post =>
    simp only [ok_bind, andThen_ok]
    rcases torchWrites_cases (L := L) ext grads train .linreg P post false (matT X) (some (matT fun i (_ : Fin 1) => y i)) (.mse (init 1 true)) g
      false linregRead with ⟨x, hf, hw⟩ | ⟨r, M, hf, hw⟩
    · rw [hf]
      refine Or.inl ⟨x, rfl, Or.inr ⟨h0, ?_⟩⟩
      rcases hw with hw | ⟨M, -, hw⟩ <;> rw [hw] <;> rfl
    · have hs := fitTorch_ok ht hf
      rw [hf, hw]
      cases M <;> simp only [SameShape] at hs
      next l => exact Or.inr ⟨_, rfl, rfl, fun s => ⟨rfl, rfl, rfl, rfl⟩⟩
  | dedicated =>
    simp only [ok_bind, andThen_ok]
    cases linregAt solve P.rho X y P.fit_intercept with
    | error x => exact Or.inl ⟨x, rfl, Or.inr ⟨h0, rfl⟩⟩
    | ok r =>
    simp only [ok_bind]
    cases unpack3 r with
    | error x => exact Or.inl ⟨x, rfl, Or.inr ⟨h0, rfl⟩⟩
    | ok t =>
      exact Or.inr ⟨_, rfl, rfl, fun s => ⟨rfl, rfl, rfl, rfl⟩⟩

/-! ## Logistic regression -/

/-- the object shows the attributes of a successful fit -/
structure LogView {d : ℕ} (s : Store L) (f : LogFitted L d) : Prop where
  data : s.data = true
  fitted : s.fitted = true
  classes : s.classes = some f.classes
  encoder : s.encoder = some f.classes
  coef : s.coef = some f.coef
  intercept : s.intercept = some f.intercept
  loss : (∃ M a, f.torch = some (M, a) ∧ s.loss = some ⟨d, M, a⟩) ∨ (f.torch = none ∧ f.classes.length ≤ 2)

theorem logisticRead_shape {d : ℕ} {M0 M : Module d} {fi : Bool} (h : SameShape M0 M)
    (h0 : (∃ l, M0 = .softMargin l ∧ l.bias.isSome = fi) ∨ ∃ (K : ℕ) (l : LinMap d K), M0 = .crossEnt l ∧ l.bias.isSome = fi) :
    ∃ t, logisticRead fi M = .ok t := by
  rcases h0 with ⟨l0, rfl, hb⟩ | ⟨K, l0, rfl, hb⟩ <;> cases M <;> simp only [SameShape] at h
  · next l =>
    simp only [logisticRead]
    cases hl : l.bias with
    | none =>
      rw [hl] at h
      have : fi = false := by rw [← hb, h]; rfl
      subst this
      exact ⟨_, rfl⟩
    | some b =>
      rw [hl] at h
      have : fi = true := by rw [← hb, h]; rfl
      subst this
      exact ⟨_, by simp [LinMap.biasArray, hl, Except.map]; rfl⟩
  · next K' l =>
    simp only [logisticRead]
    cases hl : l.bias with
    | none =>
      rw [hl] at h
      have : fi = false := by rw [← hb, h.2]; rfl
      subst this
      exact ⟨_, rfl⟩
    | some b =>
      rw [hl] at h
      have : fi = true := by rw [← hb, h.2]; rfl
      subst this
      exact ⟨_, by simp [LinMap.biasArray, hl, Except.map]; rfl⟩

/-- attributes left by a call of `LogisticRegression.fit`.  When it raises: nothing is assigned, or the classes, or the classes and
the encoder, or these and a loss -/
theorem logisticRun_cases [LinearOrder L] {n d : ℕ} {ext : TorchExt G} {grads : Autograd d} {solve : Oracle} {train : InPlace d}
    (ht : GoodTrainer train.trainer) {init : LinInit d} (hi : GoodInit init) {P : EstParams} {X : Fin n → Fin d → ℝ} {y : Fin n → L} {g : G} :
    (∃ x, logisticFit ext grads solve train.trainer init P X y g = .error x ∧
      ((n = 0 ∨ d = 0) ∧ logisticRun ext grads solve train init P X y g = ([], .error x) ∨
       ¬(n = 0 ∨ d = 0) ∧ (npUnique y).length < 2 ∧ logisticRun ext grads solve train init P X y g = ([.classes (npUnique y)], .error x) ∨
       ¬(n = 0 ∨ d = 0) ∧ 2 ≤ (npUnique y).length ∧ ∃ w, (w = [] ∨ ∃ l, w = [.loss l]) ∧
          logisticRun ext grads solve train init P X y g = ([.classes (npUnique y), .encoder (npUnique y), .data] ++ w, .error x))) ∨
    (∃ f, logisticFit ext grads solve train.trainer init P X y g = .ok f ∧ (logisticRun ext grads solve train init P X y g).2 = .ok () ∧
      f.classes = npUnique y ∧ ∀ s : Store L, LogView (s.after (logisticRun ext grads solve train init P X y g)) f) := by
  unfold logisticFit logisticRun
  split
  · next h0 => exact Or.inl ⟨_, rfl, Or.inl ⟨h0, rfl⟩⟩
  next h0 =>
  dsimp only
  split
  · next h1 => exact Or.inl ⟨_, rfl, Or.inr (Or.inl ⟨h0, h1, rfl⟩)⟩
  next h1 =>
  have h2 : 2 ≤ (npUnique y).length := by omega
  cases cost_from_str P.cost with
  | error x => exact Or.inl ⟨x, rfl, Or.inr (Or.inr ⟨h0, h2, [], Or.inl rfl, rfl⟩)⟩
  | ok c =>
  simp only [ok_bind]
  cases route .logistic P.solver with
  | error x => exact Or.inl ⟨x, rfl, Or.inr (Or.inr ⟨h0, h2, [], Or.inl rfl, rfl⟩)⟩
  | ok r =>
  cases r with
  | dedicated =>
    simp only [ok_bind, andThen_ok]
    split
    · exact Or.inl ⟨_, rfl, Or.inr (Or.inr ⟨h0, h2, [], Or.inl rfl, rfl⟩)⟩
    next h3 =>
    cases P.rho.toNum with
    | error x => exact Or.inl ⟨x, rfl, Or.inr (Or.inr ⟨h0, h2, [], Or.inl rfl, rfl⟩)⟩
    | ok rho =>
    simp only [ok_bind]
    cases logisticDedicated solve rho 1000 X (fun i => encodeBinary (npUnique y) (y i)) P.fit_intercept with
    | error x => exact Or.inl ⟨x, rfl, Or.inr (Or.inr ⟨h0, h2, [], Or.inl rfl, rfl⟩)⟩
    | ok r =>
    simp only [ok_bind]
    cases unpack4 r with
    | error x => exact Or.inl ⟨x, rfl, Or.inr (Or.inr ⟨h0, h2, [], Or.inl rfl, rfl⟩)⟩
    | ok t =>
      refine Or.inr ⟨_, rfl, rfl, rfl, fun s => ⟨rfl, rfl, rfl, rfl, rfl, rfl, Or.inr ⟨rfl, by dsimp only; omega⟩⟩⟩
  | torch post =>
    simp only [ok_bind, andThen_ok]
    split
    · next h3 =>
      rcases torchWrites_cases (L := L) ext grads train .logistic P post false (matT X)
        (some (matT fun i (_ : Fin 1) => encodeBinary (npUnique y) (y i))) (.softMargin (init 1 P.fit_intercept)) g
        true (layerRead P.fit_intercept) with ⟨x, hf, hw⟩ | ⟨r, M, hf, hw⟩
      · rw [hf]
        rcases hw with hw | ⟨M, -, hw⟩ <;> rw [hw]
        · exact Or.inl ⟨_, rfl, Or.inr (Or.inr ⟨h0, h2, [], Or.inl rfl, rfl⟩)⟩
        · exact Or.inl ⟨_, rfl, Or.inr (Or.inr ⟨h0, h2, _, Or.inr ⟨_, rfl⟩, rfl⟩)⟩
      · have hs := fitTorch_ok ht hf
        rw [hf, hw]
        obtain ⟨t, ht⟩ := logisticRead_shape hs (Or.inl ⟨_, rfl, hi 1 P.fit_intercept⟩)
        simp only [ok_bind, ht, Except.map, andThen_ok, layerRead]
        exact Or.inr ⟨_, rfl, trivial, rfl, fun s => ⟨rfl, rfl, rfl, rfl, rfl, rfl, Or.inl ⟨_, _, rfl, rfl⟩⟩⟩
    · next h3 =>
      rcases torchWrites_cases (L := L) ext grads train .logistic P post true (matT X)
        (some (matT fun i => encodeOneHot (npUnique y) (y i))) (.crossEnt (init (npUnique y).length P.fit_intercept)) g
        true (layerRead P.fit_intercept) with ⟨x, hf, hw⟩ | ⟨r, M, hf, hw⟩
      · rw [hf]
        rcases hw with hw | ⟨M, -, hw⟩ <;> rw [hw]
        · exact Or.inl ⟨_, rfl, Or.inr (Or.inr ⟨h0, h2, [], Or.inl rfl, rfl⟩)⟩
        · exact Or.inl ⟨_, rfl, Or.inr (Or.inr ⟨h0, h2, _, Or.inr ⟨_, rfl⟩, rfl⟩)⟩
      · have hs := fitTorch_ok ht hf
        rw [hf, hw]
        obtain ⟨t, ht⟩ := logisticRead_shape hs (Or.inr ⟨_, _, rfl, hi _ P.fit_intercept⟩)
        simp only [ok_bind, ht, Except.map, andThen_ok, layerRead]
        exact Or.inr ⟨_, rfl, trivial, rfl, fun s => ⟨rfl, rfl, rfl, rfl, rfl, rfl, Or.inl ⟨_, _, rfl, rfl⟩⟩⟩

/-- the methods depend on the attributes shown -/
theorem LogView.methods {d : ℕ} {s : Store L} {f : LogFitted L d} (h : LogView s f) {N : ℕ} (X : Fin N → Fin d → ℝ) :
    s.predict X = f.predict X ∧ s.proba X = f.proba X ∧ s.proba2 X = f.proba2 X := by
  have h2 : s.proba2 X = f.proba2 X := by
    simp only [Store.proba2, Store.checkFitted, h.data, h.intercept, h.coef, getAttr, if_true, ok_bind, LogFitted.proba2]
  have h1 : s.proba X = f.proba X := by
    simp only [Store.proba, LogFitted.proba, Store.checkFitted, h.data, h.intercept, h.coef, h.classes, getAttr, if_true, ok_bind]
    rcases h.loss with ⟨M, a, hf, hs⟩ | ⟨hf, hc⟩
    · simp only [hs, hf, Except.map, ok_bind, Option.isNone_some, Bool.false_eq_true, false_or, decide_eq_true_eq]
    · rw [if_pos (Or.inr hc)]
      cases s.loss with
      | none => simp only [ok_bind, if_true]
      | some l => simp only [Except.map, ok_bind, hc, decide_true, if_true]
  refine ⟨?_, h1, h2⟩
  simp only [Store.predict, LogFitted.predict, Store.checkFitted, h.data, h.encoder, getAttr, if_true, ok_bind, h1, h2]
  rfl

/-! ## Operations research -/

/-- the object shows the attributes of a successful fit with the torch solver (`f.torch` holds the module) or the dedicated one -/
structure OrView {d : ℕ} (s : Store L) (f : Fitted d) : Prop where
  fitted : s.fitted = true
  coef : s.coef = some f.coef
  loss : ∀ z, f.torch = some z → s.loss = some ⟨d, z⟩

/-- attributes left by a call of `NewsVendor.fit` -/
theorem newsvendorRun_cases {n d : ℕ} {ext : TorchExt G} {grads : Autograd 1} {solve : Oracle} {train : InPlace 1}
    (ht : GoodTrainer train.trainer) {theta0 : ℝ} {P : EstParams} {X : Fin n → Fin d → ℝ} {g : G} :
    (∃ x, newsvendorFit ext grads solve train.trainer theta0 P X g = .error x ∧
      ∃ w, (w = [] ∨ ∃ l, w = [.loss l]) ∧ newsvendorRun (L := L) ext grads solve train theta0 P X g = (w, .error x)) ∨
    (∃ f, newsvendorFit ext grads solve train.trainer theta0 P X g = .ok f ∧ (newsvendorRun (L := L) ext grads solve train theta0 P X g).2 = .ok () ∧
      (f.torch = none ↔ route .newsvendor P.solver = .ok .dedicated) ∧
      ∀ s : Store L, OrView (s.after (newsvendorRun ext grads solve train theta0 P X g)) f) := by
  unfold newsvendorFit newsvendorRun
  split
  · exact Or.inl ⟨_, rfl, [], Or.inl rfl, rfl⟩
  cases cost_from_str P.cost with
  | error x => exact Or.inl ⟨x, rfl, [], Or.inl rfl, rfl⟩
  | ok c =>
  simp only [ok_bind]
  cases route .newsvendor P.solver with
  | error x => exact Or.inl ⟨x, rfl, [], Or.inl rfl, rfl⟩
  | ok r =>
  cases r with
  | torch post =>
    simp only [ok_bind, andThen_ok, List.nil_append]
    rcases torchWrites_cases (L := L) ext grads train .newsvendor P post false (matT fun i (_ : Fin 1) => rowMeans X i) none
      (.newsvendor P.k P.u theta0) g true orderRead with ⟨x, hf, hw⟩ | ⟨r, M, hf, hw⟩
    · rw [hf]
      rcases hw with hw | ⟨M, -, hw⟩ <;> rw [hw]
      · exact Or.inl ⟨_, rfl, [], Or.inl rfl, rfl⟩
      · exact Or.inl ⟨_, rfl, _, Or.inr ⟨_, rfl⟩, rfl⟩
    · have hs := fitTorch_ok ht hf
      rw [hf, hw]
      cases M <;> simp only [SameShape] at hs
      exact Or.inr ⟨_, rfl, rfl, by simp, fun s => ⟨rfl, rfl, fun z hz => by rw [Option.some.injEq] at hz; subst hz; rfl⟩⟩
  | dedicated =>
    simp only [ok_bind, andThen_ok, List.nil_append]
    cases newsvendorAt solve P.k P.u P.rho (some (List.ofFn (rowMeans X))) with
    | error x => exact Or.inl ⟨x, rfl, [], Or.inl rfl, rfl⟩
    | ok r =>
    simp only [ok_bind]
    cases unpack2 r with
    | error x => exact Or.inl ⟨x, rfl, [], Or.inl rfl, rfl⟩
    | ok t =>
      obtain ⟨c, u⟩ := t
      cases c with
      | none => exact Or.inr ⟨_, rfl, rfl, by simp, fun s => ⟨rfl, rfl, fun z hz => by cases hz⟩⟩
      | some c => exact Or.inr ⟨_, rfl, rfl, by simp, fun s => ⟨rfl, rfl, fun z hz => by cases hz⟩⟩

/-- attributes left by a call of `Portfolio.fit` -/
theorem portfolioRun_cases {n m J : ℕ} {ext : TorchExt G} {grads : Autograd m} {solve : Oracle} {train : InPlace m}
    (ht : GoodTrainer train.trainer) {p0 : Portfolio} {P : EstParams} {C : Fin J → Fin m → ℝ} {D : Fin J → ℝ} {X : Fin n → Fin m → ℝ} {g : G} :
    (∃ x, portfolioFit ext grads solve train.trainer p0 P C D X g = .error x ∧
      ∃ w, (w = [] ∨ w = [.data] ∨ ∃ l, w = [.data, .loss l]) ∧ portfolioRun (L := L) ext grads solve train p0 P C D X g = (w, .error x)) ∨
    (∃ f, portfolioFit ext grads solve train.trainer p0 P C D X g = .ok f ∧ (portfolioRun (L := L) ext grads solve train p0 P C D X g).2 = .ok () ∧
      (f.torch = none ↔ route .portfolio P.solver = .ok .dedicated) ∧
      ∀ s : Store L, OrView (s.after (portfolioRun ext grads solve train p0 P C D X g)) f) := by
  unfold portfolioFit portfolioRun
  split
  · exact Or.inl ⟨_, rfl, [], Or.inl rfl, rfl⟩
  cases regAsFloat P with
  | error x => exact Or.inl ⟨x, rfl, [], Or.inl rfl, rfl⟩
  | ok u =>
  simp only [ok_bind, andThen_ok, List.nil_append]
  cases cost_from_str P.cost with
  | error x => exact Or.inl ⟨x, rfl, _, Or.inr (Or.inl rfl), rfl⟩
  | ok c =>
  simp only [ok_bind]
  cases route .portfolio P.solver with
  | error x => exact Or.inl ⟨x, rfl, _, Or.inr (Or.inl rfl), rfl⟩
  | ok r =>
  cases r with
  | torch post =>
    simp only [ok_bind, andThen_ok]
    rcases torchWrites_cases (L := L) ext grads train .portfolio P post false (matT X) none
      (.portfolio { p0 with eta := P.eta, alpha := P.alpha }) g true weightsRead with ⟨x, hf, hw⟩ | ⟨r, M, hf, hw⟩
    · rw [hf]
      rcases hw with hw | ⟨M, -, hw⟩ <;> rw [hw]
      · exact Or.inl ⟨_, rfl, _, Or.inr (Or.inl rfl), rfl⟩
      · exact Or.inl ⟨_, rfl, _, Or.inr (Or.inr ⟨_, rfl⟩), rfl⟩
    · have hs := fitTorch_ok ht hf
      rw [hf, hw]
      cases M <;> simp only [SameShape] at hs
      exact Or.inr ⟨_, rfl, rfl, by simp, fun s => ⟨rfl, rfl, fun z hz => by rw [Option.some.injEq] at hz; subst hz; rfl⟩⟩
  | dedicated =>
    simp only [ok_bind, andThen_ok]
    cases P.rho.toNum with
    | error x => exact Or.inl ⟨x, rfl, _, Or.inr (Or.inl rfl), rfl⟩
    | ok rho =>
    simp only [ok_bind]
    cases portfolioDedicated solve C D (c.power.map fun q : ℚ => (q : ℝ)) P.eta P.alpha rho X with
    | error x => exact Or.inl ⟨x, rfl, _, Or.inr (Or.inl rfl), rfl⟩
    | ok r =>
    simp only [ok_bind]
    cases unpack4 r with
    | error x => exact Or.inl ⟨x, rfl, _, Or.inr (Or.inl rfl), rfl⟩
    | ok t => exact Or.inr ⟨_, rfl, rfl, by simp, fun s => ⟨rfl, rfl, fun z hz => by cases hz⟩⟩

/-- attributes left by a call of `Weber.fit` -/
theorem weberRun_cases {n d : ℕ} {ext : TorchExt G} {grads : Autograd d} {train : InPlace d} (ht : GoodTrainer train.trainer)
    {pos0 : Fin d → ℝ} {P : EstParams} {X : Fin n → Fin d → ℝ} {w : Fin n → ℝ} {g : G} :
    (∃ x, weberFit ext grads train.trainer pos0 P X w g = .error x ∧
      ∃ wr, (wr = [] ∨ ∃ l, wr = [.loss l]) ∧ weberRun (L := L) ext grads train pos0 P X w g = (wr, .error x)) ∨
    (∃ f, weberFit ext grads train.trainer pos0 P X w g = .ok f ∧ (weberRun (L := L) ext grads train pos0 P X w g).2 = .ok () ∧
      (f.torch = none ↔ route .weber P.solver = .ok .dedicated) ∧
      ∀ s : Store L, OrView (s.after (weberRun ext grads train pos0 P X w g)) f) := by
  unfold weberFit weberRun
  split
  · exact Or.inl ⟨_, rfl, [], Or.inl rfl, rfl⟩
  cases route .weber P.solver with
  | error x => exact Or.inl ⟨x, rfl, [], Or.inl rfl, rfl⟩
  | ok r =>
  cases r with
  | torch post =>
    simp only [ok_bind, andThen_ok, List.nil_append]
    rcases torchWrites_cases (L := L) ext grads train .weber P post false (matT X) (some (matT fun i (_ : Fin 1) => w i)) (.weber pos0) g
      true positionRead with ⟨x, hf, hw⟩ | ⟨r, M, hf, hw⟩
    · rw [hf]
      rcases hw with hw | ⟨M, -, hw⟩ <;> rw [hw]
      · exact Or.inl ⟨_, rfl, [], Or.inl rfl, rfl⟩
      · exact Or.inl ⟨_, rfl, _, Or.inr ⟨_, rfl⟩, rfl⟩
    · have hs := fitTorch_ok ht hf
      rw [hf, hw]
      cases M <;> simp only [SameShape] at hs
      exact Or.inr ⟨_, rfl, rfl, by simp, fun s => ⟨rfl, rfl, fun z hz => by rw [Option.some.injEq] at hz; subst hz; rfl⟩⟩
  | dedicated => exact Or.inl ⟨_, rfl, [], Or.inl rfl, rfl⟩

/-- a solver whose name contains 'entropic' does not lead to the dedicated one -/
theorem entropic_not_dedicated {e : EstKind} {solver : PyStr} (h : pyIn "entropic".toList solver = true) :
    route e solver ≠ .ok .dedicated := by
  intro hr
  have hs : solver ≠ "dedicated".toList := by rintro rfl; revert h; decide
  cases e <;> simp only [route, if_neg hs] at hr <;> split_ifs at hr <;> cases hr

theorem lossEval_view {d : ℕ} {s : Store L} {f : Fitted d} (h : OrView s f) (hf : f.torch ≠ none) (X : Tensor ℝ) :
    s.lossEval X = torchEval f X := by
  obtain ⟨z, hz⟩ := Option.ne_none_iff_exists'.1 hf
  simp only [Store.lossEval, torchEval, h.loss z hz, hz, getAttr, ok_bind]

theorem newsvendorEval_view {s : Store L} {f : Fitted 1} (h : OrView s f) {P : EstParams}
    (hr : f.torch = none → pyIn "entropic".toList P.solver = false) {n d : ℕ} (X : Fin n → Fin d → ℝ) :
    s.newsvendorEval P X = newsvendorEval P f X := by
  simp only [Store.newsvendorEval, newsvendorEval, Store.assertFitted, h.fitted, if_true, ok_bind, h.coef, getAttr]
  split
  · next he => exact lossEval_view h (fun hn => by rw [hr hn] at he; cases he) _
  · rfl

theorem portfolioEval_view {m : ℕ} {s : Store L} {f : Fitted m} (h : OrView s f) {P : EstParams}
    (hr : f.torch = none → pyIn "entropic".toList P.solver = false) {n : ℕ} (b : Bool) (X : Fin n → Fin m → ℝ) :
    s.portfolioEval P b X = portfolioEval P f b X := by
  simp only [Store.portfolioEval, portfolioEval, Store.assertFitted, h.fitted, if_true, ok_bind, h.coef, getAttr]
  split
  · next he =>
    have hn : f.torch ≠ none := fun hn => by rw [hr hn] at he; cases he
    obtain ⟨z, hz⟩ := Option.ne_none_iff_exists'.1 hn
    rw [lossEval_view h hn, h.loss z hz, hz]
    rfl
  · rfl

theorem weberEval_view {d : ℕ} {s : Store L} {f : Fitted d} (h : OrView s f) {P : EstParams}
    (hr : f.torch = none → pyIn "entropic".toList P.solver = false) {n : ℕ} (X : Fin n → Fin d → ℝ) :
    s.weberEval P X = weberEval P f X := by
  simp only [Store.weberEval, weberEval, Store.assertFitted, h.fitted, if_true, ok_bind, h.coef, getAttr]
  split
  · next he => exact lossEval_view h (fun hn => by rw [hr hn] at he; cases he) _
  · rfl

end Skwdro
