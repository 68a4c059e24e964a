import Verif.Lemmas.Store
import Verif.Spec.Store
import Verif.Props.Classifier
import Verif.Props.Scores

/-! # C116, C117: estimators fitted several times -/

namespace Skwdro

open Spec

variable {G L : Type}

theorem replay_append (s : Store L) (a b : List (FitRun L)) : replay s (a ++ b) = replay (replay s a) b := by
  simp only [replay, List.foldl_append]

theorem replay_cons (s : Store L) (a : FitRun L) (b : List (FitRun L)) : replay s (a :: b) = replay (s.after a) b := rfl

/-! ## Linear regression -/

theorem predictReal_eq {s : Store L} {d N : ℕ} {f : Fitted d} (h1 : s.data = true) (h2 : s.coef = some f.coef) (h3 : s.intercept = some f.intercept)
    (X : Fin N → Fin d → ℝ) : s.predictReal X = linregPredict f X := by
  simp only [Store.predictReal, Store.checkFitted, h1, h2, h3, getAttr, if_true, ok_bind, linregPredict]
  rfl

/-- **C117** Whether `LinearRegression.fit` raises, and what, does not depend on earlier calls. -/
theorem C117_linreg_outcome (ext : TorchExt G) (solve : Oracle) {c : LinCall G} (hc : c.Good) :
    (c.run ext solve).2 = (c.outcome ext solve).map fun _ => () := by
  unfold LinCall.run LinCall.outcome
  rcases linregRun_cases (L := Unit) (ext := ext) (grads := c.grads) (solve := solve) hc (init := c.init) (P := c.P) (X := c.X) (y := c.y)
    (g := c.g) with ⟨x, h1, ⟨-, h2⟩ | ⟨-, h2⟩⟩ | ⟨f, h1, h2, -⟩ <;> rw [h1, h2] <;> rfl

theorem linreg_failed {ext : TorchExt G} {solve : Oracle} {c : LinCall G} (hc : c.Good) {x : PyErr} (h : c.outcome ext solve = .error x) (s : Store Unit) :
    (s.after (c.run ext solve)).coef = s.coef ∧ (s.after (c.run ext solve)).intercept = s.intercept ∧
      (s.after (c.run ext solve)).data = (s.data || !decide (c.n = 0 ∨ c.d = 0)) := by
  unfold LinCall.outcome at h
  unfold LinCall.run
  rcases linregRun_cases (L := Unit) (ext := ext) (grads := c.grads) (solve := solve) hc (init := c.init) (P := c.P) (X := c.X) (y := c.y)
    (g := c.g) with ⟨x, h1, ⟨h0, h2⟩ | ⟨h0, h2⟩⟩ | ⟨f, h1, h2, -⟩
  · rw [h2]; simp [Store.after, h0]
  · rw [h2]; simp [Store.after, Store.write, h0]
  · rw [h1] at h; cases h

/-- **C116**, **C117** Linear regression: after any history of calls of `fit` — other data, other numbers of features, other settings, some
raising — predictions are those of the last call that returned, whatever the calls that raised after it. -/
theorem C116_linreg (ext : TorchExt G) (solve : Oracle) (before : List (FitRun Unit)) {c : LinCall G} (hc : c.Good) {f : Fitted c.d}
    (hf : c.outcome ext solve = .ok f) (failed : List (LinCall G)) (hfail : ∀ c' ∈ failed, c'.Good ∧ ∃ x, c'.outcome ext solve = .error x)
    {N : ℕ} (X : Fin N → Fin c.d → ℝ) :
    (replay newStore (before ++ c.run ext solve :: failed.map (·.run ext solve))).predictReal X = linregPredict f X := by
  rw [replay_append, replay_cons]
  generalize replay newStore before = s
  have h : ((s.after (c.run ext solve)).data = true ∧ (s.after (c.run ext solve)).coef = some f.coef ∧
      (s.after (c.run ext solve)).intercept = some f.intercept) := by
    unfold LinCall.outcome at hf
    unfold LinCall.run
    rcases linregRun_cases (L := Unit) (ext := ext) (grads := c.grads) (solve := solve) hc (init := c.init) (P := c.P) (X := c.X) (y := c.y)
      (g := c.g) with ⟨x, h1, -⟩ | ⟨f', h1, -, h2⟩
    · rw [h1] at hf; cases hf
    · rw [h1, Except.ok.injEq] at hf
      subst hf
      exact ⟨(h2 s).1, (h2 s).2.2.1, (h2 s).2.2.2⟩
  generalize s.after (c.run ext solve) = s at h
  induction failed generalizing s with
  | nil => exact predictReal_eq h.1 h.2.1 h.2.2 X
  | cons c' l ih =>
    rw [List.map_cons, replay_cons]
    obtain ⟨hg, x, hx⟩ := hfail c' (List.mem_cons_self ..)
    obtain ⟨e1, e2, e3⟩ := linreg_failed hg hx s
    exact ih (fun c'' hc'' => hfail c'' (List.mem_cons_of_mem _ hc'')) _ ⟨by rw [e3, h.1]; rfl, by rw [e1, h.2.1], by rw [e2, h.2.2]⟩

/-- **C117** Linear regression: after any history of calls of `fit`, a call that returns determines all predictions. -/
theorem C117_linreg (ext : TorchExt G) (solve : Oracle) (before : List (FitRun Unit)) {c : LinCall G} (hc : c.Good) {f : Fitted c.d}
    (hf : c.outcome ext solve = .ok f) {N : ℕ} (X : Fin N → Fin c.d → ℝ) :
    (replay newStore (before ++ [c.run ext solve])).predictReal X = linregPredict f X :=
  C116_linreg ext solve before hc hf [] (by simp) X

/-- an estimator none of whose fits returned -/
theorem linreg_unfitted (ext : TorchExt G) (solve : Oracle) (failed : List (LinCall G))
    (hfail : ∀ c' ∈ failed, c'.Good ∧ ∃ x, c'.outcome ext solve = .error x) :
    (replay newStore (failed.map (·.run ext solve))).coef = none ∧ (replay newStore (failed.map (·.run ext solve))).intercept = none ∧
    ((replay newStore (failed.map (·.run ext solve))).data = true ↔ ∃ c ∈ failed, ¬(c.n = 0 ∨ c.d = 0)) := by
  suffices h : ∀ s : Store Unit, (replay s (failed.map (·.run ext solve))).coef = s.coef ∧
      (replay s (failed.map (·.run ext solve))).intercept = s.intercept ∧
      ((replay s (failed.map (·.run ext solve))).data = true ↔ s.data = true ∨ ∃ c ∈ failed, ¬(c.n = 0 ∨ c.d = 0)) by
    have := h newStore
    simpa [newStore] using this
  induction failed with
  | nil => intro s; simp [replay]
  | cons c l ih =>
    intro s
    rw [List.map_cons, replay_cons]
    obtain ⟨hg, x, hx⟩ := hfail c (List.mem_cons_self ..)
    obtain ⟨e1, e2, e3⟩ := linreg_failed hg hx s
    obtain ⟨i1, i2, i3⟩ := ih (fun c' hc' => hfail c' (List.mem_cons_of_mem _ hc')) (s.after (c.run ext solve))
    refine ⟨i1.trans e1, i2.trans e2, i3.trans ?_⟩
    rw [e3]
    simp only [Bool.or_eq_true, Bool.not_eq_true', decide_eq_false_iff_not, List.mem_cons, exists_eq_or_imp, or_assoc]

/-- **C116** Linear regression none of whose fits returned: `predict` raises, `NotFittedError` when the data of every call was refused
(see `C116_unfitted_false` for the other case). -/
theorem C116_unfitted_partial (ext : TorchExt G) (solve : Oracle) (failed : List (LinCall G))
    (hfail : ∀ c' ∈ failed, c'.Good ∧ ∃ x, c'.outcome ext solve = .error x) {N d : ℕ} (X : Fin N → Fin d → ℝ) :
    (∃ x, (replay newStore (failed.map (·.run ext solve))).predictReal X = .error x) ∧
    ((∀ c ∈ failed, c.n = 0 ∨ c.d = 0) → (replay newStore (failed.map (·.run ext solve))).predictReal X = .error .notFitted) := by
  obtain ⟨h1, h2, h3⟩ := linreg_unfitted ext solve failed hfail
  generalize replay newStore (failed.map (·.run ext solve)) = s at *
  constructor
  · cases hd : s.data with
    | false => exact ⟨.notFitted, by simp only [Store.predictReal, Store.checkFitted, hd, Bool.false_eq_true, if_false, error_bind]⟩
    | true => exact ⟨.attributeError, by simp only [Store.predictReal, Store.checkFitted, hd, h2, getAttr, if_true, ok_bind, error_bind]⟩
  · intro h
    have hd : s.data = false := by
      rw [← Bool.not_eq_true, h3]
      rintro ⟨c, hc, hn⟩
      exact hn (h c hc)
    simp only [Store.predictReal, Store.checkFitted, hd, Bool.false_eq_true, if_false, error_bind]

/-- **C116** (violated) Once a call raised after its data was accepted (solver or cost refused, training failed), an estimator that was
never fitted counts as fitted: `predict` raises `AttributeError` instead of `NotFittedError`. -/
theorem C116_unfitted_false (ext : TorchExt G) (solve : Oracle) (failed : List (LinCall G))
    (hfail : ∀ c' ∈ failed, c'.Good ∧ ∃ x, c'.outcome ext solve = .error x) (hc : ∃ c ∈ failed, 0 < c.n ∧ 0 < c.d) {N d : ℕ}
    (X : Fin N → Fin d → ℝ) : (replay newStore (failed.map (·.run ext solve))).predictReal X = .error .attributeError := by
  obtain ⟨h1, h2, h3⟩ := linreg_unfitted ext solve failed hfail
  generalize replay newStore (failed.map (·.run ext solve)) = s at *
  have hd : s.data = true := h3.2 (by obtain ⟨c, hm, h⟩ := hc; exact ⟨c, hm, by omega⟩)
  simp only [Store.predictReal, Store.checkFitted, hd, h2, getAttr, if_true, ok_bind, error_bind]

/-! ## Logistic regression -/

/-- **C117** Whether `LogisticRegression.fit` raises, and what, does not depend on earlier calls. -/
theorem C117_logistic_outcome [LinearOrder L] (ext : TorchExt G) (solve : Oracle) {c : LogCall G L} (hc : c.Good) :
    (c.run ext solve).2 = (c.outcome ext solve).map fun _ => () := by
  unfold LogCall.run LogCall.outcome
  rcases logisticRun_cases (ext := ext) (grads := c.grads) (solve := solve) hc.1 hc.2 (P := c.P) (X := c.X) (y := c.y)
    (g := c.g) with ⟨x, h1, ⟨-, h2⟩ | ⟨-, -, h2⟩ | ⟨-, -, w, -, h2⟩⟩ | ⟨f, h1, h2, -⟩ <;> rw [h1, h2] <;> rfl

theorem log_ok [LinearOrder L] {ext : TorchExt G} {solve : Oracle} {c : LogCall G L} (hc : c.Good) {f : LogFitted L c.d}
    (hf : c.outcome ext solve = .ok f) (s : Store L) : LogView (s.after (c.run ext solve)) f ∧ f.classes = npUnique c.y := by
  unfold LogCall.outcome at hf
  unfold LogCall.run
  rcases logisticRun_cases (ext := ext) (grads := c.grads) (solve := solve) hc.1 hc.2 (P := c.P) (X := c.X) (y := c.y)
    (g := c.g) with ⟨x, h1, -⟩ | ⟨f', h1, -, h3, h2⟩
  · rw [h1] at hf; cases hf
  · rw [h1, Except.ok.injEq] at hf
    subst hf
    exact ⟨h2 s, h3⟩

/-- **C117** Logistic regression: after any history of calls of `fit`, a call that returns determines all predictions and probabilities, as
if it had been the first one. -/
theorem C117_logistic [LinearOrder L] (ext : TorchExt G) (solve : Oracle) (before : List (FitRun L)) {c : LogCall G L} (hc : c.Good)
    {f : LogFitted L c.d} (hf : c.outcome ext solve = .ok f) {N : ℕ} (X : Fin N → Fin c.d → ℝ) :
    (replay newStore (before ++ [c.run ext solve])).predict X = f.predict X ∧
    (replay newStore (before ++ [c.run ext solve])).proba X = f.proba X ∧
    (replay newStore (before ++ [c.run ext solve])).proba2 X = f.proba2 X := by
  rw [replay_append]
  exact (log_ok hc hf _).1.methods X

/-- what the methods of a binary classifier read -/
structure BinView {d : ℕ} (s : Store L) (le : List L) (f : LogFitted L d) : Prop where
  data : s.data = true
  classes : ∃ cl, s.classes = some cl ∧ cl.length ≤ 2
  encoder : s.encoder = some le
  two : le.length = 2
  coef : s.coef = some f.coef
  intercept : s.intercept = some f.intercept

theorem BinView.methods {d : ℕ} {s : Store L} {le : List L} {f : LogFitted L d} (h : BinView s le f) {N : ℕ} (X : Fin N → Fin d → ℝ) :
    s.predict X = ({ f with classes := le } : LogFitted L d).predict X ∧ s.proba X = ({ f with classes := le } : LogFitted L d).proba X ∧
      s.proba2 X = f.proba2 X := by
  have h2 : s.proba2 X = f.proba2 X := by
    simp only [Store.proba2, Store.checkFitted, h.data, h.intercept, h.coef, getAttr, if_true, ok_bind, LogFitted.proba2]
  obtain ⟨cl, hcl, hc⟩ := h.classes
  refine ⟨?_, ?_, h2⟩
  · simp only [Store.predict, LogFitted.predict, Store.checkFitted, h.data, h.encoder, getAttr, if_true, ok_bind, h2, h.two]
    rfl
  · simp only [Store.proba, LogFitted.proba, Store.checkFitted, h.data, h.intercept, h.coef, hcl, getAttr, if_true, ok_bind, h.two, le_refl, or_true]
    cases s.loss with
    | none => simp only [ok_bind, if_true]
    | some l => simp only [Except.map, ok_bind, hc, decide_true, if_true]

theorem LogView.bin {d : ℕ} {s : Store L} {f : LogFitted L d} (h : LogView s f) (h2 : f.classes.length = 2) : BinView s f.classes f :=
  ⟨h.data, ⟨_, h.classes, h2.le⟩, h.encoder, h2, h.coef, h.intercept⟩

/-- a call that raises on data with at most two classes leaves a binary classifier, possibly with another encoder -/
theorem log_failed [LinearOrder L] {ext : TorchExt G} {solve : Oracle} {c : LogCall G L} (hc : c.Good) {x : PyErr}
    (hf : c.outcome ext solve = .error x) {d : ℕ} {s : Store L} {le : List L} {f : LogFitted L d} (h : BinView s le f)
    (hy : (npUnique c.y).length ≤ 2) :
    BinView (s.after (c.run ext solve)) (if 0 < c.n ∧ 0 < c.d ∧ (npUnique c.y).length = 2 then npUnique c.y else le) f := by
  unfold LogCall.outcome at hf
  unfold LogCall.run
  obtain ⟨h1, h2, h3, h4, h5, h6⟩ := h
  rcases logisticRun_cases (ext := ext) (grads := c.grads) (solve := solve) hc.1 hc.2 (P := c.P) (X := c.X) (y := c.y)
    (g := c.g) with ⟨x, -, ⟨h0, hr⟩ | ⟨h0, hl, hr⟩ | ⟨h0, hl, w, hw, hr⟩⟩ | ⟨f', hf', -⟩
  · rw [hr, if_neg (by omega)]
    exact ⟨h1, h2, h3, h4, h5, h6⟩
  · rw [hr, if_neg (by omega)]
    exact ⟨h1, ⟨_, rfl, hy⟩, h3, h4, h5, h6⟩
  · rw [hr, if_pos (by omega)]
    rcases hw with rfl | ⟨l, rfl⟩ <;> exact ⟨rfl, ⟨_, rfl, hy⟩, rfl, by omega, h5, h6⟩
  · rw [hf'] at hf; cases hf

/-- **C116** (partial: see the violations below) A fitted binary classifier whose later fits raise keeps all its predictions and
probabilities, as long as the refused data have a single class, no sample, or the two classes it was fitted on. -/
theorem C116_logistic_partial [LinearOrder L] (ext : TorchExt G) (solve : Oracle) (before : List (FitRun L)) {c : LogCall G L} (hc : c.Good)
    {f : LogFitted L c.d} (hf : c.outcome ext solve = .ok f) (h2 : (npUnique c.y).length = 2) (failed : List (LogCall G L))
    (hfail : ∀ c' ∈ failed, c'.Good ∧ (∃ x, c'.outcome ext solve = .error x) ∧ ((npUnique c'.y).length < 2 ∨ npUnique c'.y = npUnique c.y))
    {N : ℕ} (X : Fin N → Fin c.d → ℝ) :
    (replay newStore (before ++ c.run ext solve :: failed.map (·.run ext solve))).predict X = f.predict X ∧
    (replay newStore (before ++ c.run ext solve :: failed.map (·.run ext solve))).proba X = f.proba X := by
  rw [replay_append, replay_cons]
  generalize replay newStore before = s
  obtain ⟨hv, hcl⟩ := log_ok hc hf s
  have hb := hv.bin (by rw [hcl, h2])
  generalize s.after (c.run ext solve) = s at hb
  clear hv
  induction failed generalizing s with
  | nil =>
    obtain ⟨e1, e2, -⟩ := hb.methods X
    exact ⟨e1, e2⟩
  | cons c' l ih =>
    rw [List.map_cons, replay_cons]
    obtain ⟨hg, ⟨x, hx⟩, hy⟩ := hfail c' (List.mem_cons_self ..)
    have := log_failed hg hx hb (by rcases hy with hy | hy <;> [omega; (rw [hy]; omega)])
    refine ih (fun c'' hc'' => hfail c'' (List.mem_cons_of_mem _ hc'')) _ ?_
    split_ifs at this with hh
    · rcases hy with hy | hy
      · omega
      · rwa [hy, ← hcl] at this
    · exact this

/-- **C116** (violated) When a later fit raises on data with two other labels — its solver or cost code is refused, its training fails —
the classifier keeps its coefficients but takes the labels of the refused data: every sample is then classified with the old rule and the
new labels. -/
theorem C116_relabel_false [LinearOrder L] (ext : TorchExt G) (solve : Oracle) (before : List (FitRun L)) {c c' : LogCall G L} (hc : c.Good)
    {f : LogFitted L c.d} (hf : c.outcome ext solve = .ok f) {a b a' b' : L} (h2 : npUnique c.y = [a, b]) (hc' : c'.Good) {x : PyErr}
    (hx : c'.outcome ext solve = .error x) (h2' : npUnique c'.y = [a', b']) (hn : 0 < c'.n) (hd : 0 < c'.d) :
    ∃ rule : (Fin c.d → ℝ) → Bool, ∀ {N : ℕ} (X : Fin N → Fin c.d → ℝ),
      (replay newStore (before ++ [c.run ext solve])).predict X = .ok (.flat (List.ofFn fun i => if rule (X i) then b else a)) ∧
      (replay newStore (before ++ [c.run ext solve, c'.run ext solve])).predict X = .ok (.flat (List.ofFn fun i => if rule (X i) then b' else a')) := by
  obtain ⟨w, o, hrule, -⟩ := binary_rule hc.1 hc.2 hf (by rw [h2]; rfl)
  refine ⟨fun z => decide (0 ≤ affine w o z), fun {N} X => ?_⟩
  rw [replay_append, replay_append, replay_cons, replay_cons, replay_cons]
  generalize replay newStore before = s
  obtain ⟨hv, hcl⟩ := log_ok hc hf s
  have hb := hv.bin (by rw [hcl, h2]; rfl)
  have hb' := log_failed hc' hx hb (by rw [h2']; simp)
  rw [if_pos ⟨hn, hd, by rw [h2']; rfl⟩] at hb'
  simp only [replay, List.foldl_nil, decide_eq_true_eq]
  constructor
  · rw [(hb.methods X).1]
    exact predict_of_rule hcl h2 hrule X
  · rw [(hb'.methods X).1]
    exact predict_of_rule (f := { f with classes := npUnique c'.y }) rfl h2' ⟨hrule.coef, hrule.intercept⟩ X

/-- **C116** (violated) A classifier of more than two classes (and not as many as features) no longer predicts anything once `fit` was
called with a single class: that call raises, and so does `predict` afterwards. -/
theorem C116_multiclass_false [LinearOrder L] (ext : TorchExt G) (solve : Oracle) (before : List (FitRun L)) {c c' : LogCall G L} (hc : c.Good)
    {f : LogFitted L c.d} (hf : c.outcome ext solve = .ok f) (hK : 2 < (npUnique c.y).length) (hd : c.d ≠ (npUnique c.y).length) (hc' : c'.Good)
    (hn' : 0 < c'.n) (hd' : 0 < c'.d) (h1 : ∀ i j, c'.y i = c'.y j) {N : ℕ} (X : Fin N → Fin c.d → ℝ) :
    c'.outcome ext solve = .error .valueError ∧
    (∃ labels, (replay newStore (before ++ [c.run ext solve])).predict X = .ok labels) ∧
    (replay newStore (before ++ [c.run ext solve, c'.run ext solve])).predict X = .error .valueError := by
  have hx : c'.outcome ext solve = .error .valueError := C64_single_class ext c'.grads solve c'.train.trainer c'.init c'.P c'.X c'.y c'.g h1
  have hl : (npUnique c'.y).length < 2 := by
    rw [npUnique, Finset.length_sort]
    have : (Finset.univ.image c'.y).card ≤ 1 := by
      rw [Finset.card_le_one]
      intro a ha b hb
      simp only [Finset.mem_image, Finset.mem_univ, true_and] at ha hb
      obtain ⟨i, rfl⟩ := ha
      obtain ⟨j, rfl⟩ := hb
      exact h1 i j
    omega
  refine ⟨hx, ?_, ?_⟩
  · rw [(C117_logistic ext solve before hc hf X).1]
    obtain ⟨w, b, -, hp⟩ := C64_multiclass_predict hc.1 hc.2 hf hK
    obtain ⟨best, hb, -⟩ := hp N X
    exact ⟨_, hb⟩
  · rw [replay_append, replay_cons, replay_cons]
    generalize replay newStore before = s
    obtain ⟨hv, hcl⟩ := log_ok hc hf s
    simp only [replay, List.foldl_nil]
    have hr : c'.run ext solve = ([.classes (npUnique c'.y)], .error .valueError) := by
      unfold LogCall.run logisticRun
      rw [if_neg (by omega)]
      dsimp only
      rw [if_pos hl]
    have hco : ∃ t rest, f.coef = some t ∧ t.shape = (npUnique c.y).length :: rest := by
      obtain ⟨-, -, -, -, h | h | h⟩ := logisticFit_ok hc.1 hc.2 hf
      · omega
      · obtain ⟨_, _, h3, -⟩ := h; omega
      · obtain ⟨-, -, -, l, a, -, hr⟩ := h
        refine ⟨_, List.filter (· ≠ 1) [c.d], hr.coef, ?_⟩
        simp only [LinMap.weightArray, Tensor.squeeze, matT]
        rw [List.filter_cons_of_pos (by simp; omega)]
    obtain ⟨t, rest, ht, hs⟩ := hco
    have hdot : dotCoef X f.coef = .error .valueError := by
      simp only [ht, dotCoef, npDot, hs]
      cases rest with
      | nil => simp only [if_neg (fun h : (npUnique c.y).length = c.d => hd h.symm)]
      | cons r rs => simp only [if_neg (fun h : (npUnique c.y).length = c.d => hd h.symm)]
    rw [ht] at hdot
    have hp : (Store.after (s.after (c.run ext solve)) (c'.run ext solve)).proba X = .error .valueError := by
      rw [hr]
      simp only [Store.proba, Store.after, List.foldl_cons, List.foldl_nil, Store.write, Store.checkFitted]
      have := hv.data
      have := hv.coef
      simp only [Store.after] at *
      simp only [*, if_true, ok_bind, getAttr, Except.map]
      cases (List.foldl Store.write s (c.run ext solve).1).loss with
      | none => simp only [ok_bind, if_true, error_bind]
      | some l => simp only [ok_bind, show (npUnique c'.y).length ≤ 2 by omega, decide_true, if_true, error_bind]
    have he : (Store.after (s.after (c.run ext solve)) (c'.run ext solve)).encoder = some (npUnique c.y) := by
      rw [hr, ← hcl]; exact hv.encoder
    have hda : (Store.after (s.after (c.run ext solve)) (c'.run ext solve)).data = true := by
      rw [hr]; exact hv.data
    simp only [Store.predict, Store.checkFitted, hda, he, if_true, ok_bind, getAttr, hp, error_bind]
    rw [if_neg (by omega)]

/-- the loss can be built -/
theorem dualize_ready {d : ℕ} (ext : TorchExt G) (grads : Autograd d) {P : EstParams} (hP : TorchReady P) (post multi : Bool) (X y : Tensor ℝ)
    (M0 : Module d) (g : G) : ∃ r, dualize ext (torchArgs grads .logistic P post multi X (some y) M0) g = .ok r := by
  obtain ⟨parsed, obj, h1, h2, h3⟩ := hP.cost
  obtain ⟨M, hM⟩ := fitTorch_total (ext := ext) (grads := grads) (train := fun _ M _ => .ok M) (fun _ M _ => ⟨M, rfl⟩) (e := .logistic)
    (post := post) (multi := multi) (X := X) (y := some y) M0 g h1 h2 h3 hP.sigma
  unfold fitTorch at hM
  obtain ⟨r, hr, -⟩ := bind_ok hM
  exact ⟨r, hr⟩

/-- **C116** (violated) When training a classifier of more than two classes raises, `predict` afterwards classifies with the layer training
left, whether the estimator had been fitted before or not. -/
theorem C116_untrained_false [LinearOrder L] (ext : TorchExt G) (solve : Oracle) (before : List (FitRun L)) {c : LogCall G L}
    (hP : TorchReady c.P) (hn : 0 < c.n) (hd : 0 < c.d) (hK : 2 < (npUnique c.y).length) {x : PyErr} {l : LinMap c.d (npUnique c.y).length}
    (htrain : ∀ args s, c.train args (.crossEnt (c.init (npUnique c.y).length c.P.fit_intercept)) s = (.error x, .crossEnt l))
    {N : ℕ} (X : Fin N → Fin c.d → ℝ) :
    c.outcome ext solve = .error x ∧
    ∃ best : Fin N → Fin (npUnique c.y).length,
      (replay newStore (before ++ [c.run ext solve])).predict X = .ok (.column (List.ofFn fun i => (npUnique c.y)[best i])) ∧
      ∀ i k, l.out (X i) k ≤ l.out (X i) (best i) ∧ (k < best i → l.out (X i) k < l.out (X i) (best i)) := by
  obtain ⟨post, hr⟩ := hP.torch
  obtain ⟨co, hco⟩ := hP.code
  obtain ⟨D, hD⟩ := dualize_ready ext c.grads hP post true (matT c.X) (matT fun i => encodeOneHot (npUnique c.y) (c.y i))
    (.crossEnt (c.init (npUnique c.y).length c.P.fit_intercept)) c.g
  have hrun : c.run ext solve = ([.classes (npUnique c.y), .encoder (npUnique c.y), .data, .loss ⟨c.d, .crossEnt l,
      torchArgs c.grads .logistic c.P post true (matT c.X) (some (matT fun i => encodeOneHot (npUnique c.y) (c.y i))) (.crossEnt l)⟩],
      .error x) := by
    unfold LogCall.run logisticRun
    rw [if_neg (by omega)]
    dsimp only
    rw [if_neg (by omega), hco, ok_bind, hr, andThen_ok]
    dsimp only
    rw [if_neg (by omega), torchWrites]
    dsimp only
    rw [hD, andThen_ok, htrain]
    rfl
  constructor
  · unfold LogCall.outcome logisticFit
    rw [if_neg (by omega)]
    dsimp only
    rw [if_neg (by omega), hco, ok_bind, hr, ok_bind]
    dsimp only
    rw [if_neg (by omega), fitTorch]
    simp only [hD, ok_bind, InPlace.trainer, htrain, error_bind]
  · rw [replay_append, replay_cons, hrun]
    generalize replay newStore before = s
    let f : LogFitted L c.d := { coef := none, intercept := none, dual_var := none, tau := none, classes := npUnique c.y, torch := some (.crossEnt l,
      torchArgs c.grads .logistic c.P post true (matT c.X) (some (matT fun i => encodeOneHot (npUnique c.y) (c.y i))) (.crossEnt l)) }
    obtain ⟨best, h1, h2⟩ := multiclass_of_layer (f := f) rfl hK l rfl N X
    refine ⟨best, ?_, h2⟩
    rw [← h1]
    have hg : ¬ (npUnique c.y).length ≤ 2 := by omega
    have hg2 : ¬ (npUnique c.y).length = 2 := by omega
    simp only [replay, List.foldl_nil, Store.after, List.foldl_cons, Store.write, Store.predict, Store.proba, Store.checkFitted, getAttr, if_true,
      ok_bind, LogFitted.predict, LogFitted.proba, f, Except.map, hg, hg2, decide_false, Bool.false_eq_true, if_false, reduceCtorEq, or_self,
      Option.isNone_some]
    rfl

/-! ## Operations research -/

/-- **C117** Whether the other three estimators raise in `fit`, and what, does not depend on earlier calls. -/
theorem C117_outcome (ext : TorchExt G) (solve : Oracle) {c : NvCall G} (hc : c.Good) {p : PfCall G} (hp : p.Good) {w : WebCall G} (hw : w.Good) :
    (c.run ext solve).2 = ((c.outcome ext solve).map fun _ => ()) ∧ (p.run ext solve).2 = ((p.outcome ext solve).map fun _ => ()) ∧
    (w.run ext).2 = (w.outcome ext).map fun _ => () := by
  unfold NvCall.run NvCall.outcome PfCall.run PfCall.outcome WebCall.run WebCall.outcome
  refine ⟨?_, ?_, ?_⟩
  · rcases newsvendorRun_cases (L := Unit) (ext := ext) (grads := c.grads) (solve := solve) hc (theta0 := c.theta0) (P := c.P) (X := c.X)
      (g := c.g) with ⟨x, h1, w, -, h2⟩ | ⟨f, h1, h2, -⟩ <;> rw [h1, h2] <;> rfl
  · rcases portfolioRun_cases (L := Unit) (ext := ext) (grads := p.grads) (solve := solve) hp (p0 := p.p0) (P := p.P) (C := p.C) (D := p.D)
      (X := p.X) (g := p.g) with ⟨x, h1, w, -, h2⟩ | ⟨f, h1, h2, -⟩ <;> rw [h1, h2] <;> rfl
  · rcases weberRun_cases (L := Unit) (ext := ext) (grads := w.grads) hw (pos0 := w.pos0) (P := w.P) (X := w.X) (w := w.w)
      (g := w.g) with ⟨x, h1, w, -, h2⟩ | ⟨f, h1, h2, -⟩ <;> rw [h1, h2] <;> rfl

/-- **C117** After any history of calls of `fit`, a call that returns determines `coef_` and what `eval` computes with the same settings, as
if it had been the first one. -/
theorem C117_newsvendor (ext : TorchExt G) (solve : Oracle) (before : List (FitRun Unit)) {c : NvCall G} (hc : c.Good) {f : Fitted 1}
    (hf : c.outcome ext solve = .ok f) {N m : ℕ} (X : Fin N → Fin m → ℝ) :
    (replay newStore (before ++ [c.run ext solve])).coef = some f.coef ∧
    (replay newStore (before ++ [c.run ext solve])).newsvendorEval c.P X = newsvendorEval c.P f X := by
  rw [replay_append, replay_cons]
  generalize replay newStore before = s
  simp only [replay, List.foldl_nil]
  unfold NvCall.outcome at hf
  rcases newsvendorRun_cases (L := Unit) (ext := ext) (grads := c.grads) (solve := solve) hc (theta0 := c.theta0) (P := c.P) (X := c.X)
      (g := c.g) with ⟨x, h1, -⟩ | ⟨f', h1, -, ht, hv⟩
  · rw [h1] at hf; cases hf
  · rw [h1, Except.ok.injEq] at hf
    subst hf
    exact ⟨(hv s).coef, newsvendorEval_view (hv s) (fun hn => by
      by_contra h
      exact entropic_not_dedicated (by simpa using h) (ht.1 hn)) X⟩

/-- **C117** The same for the portfolio. -/
theorem C117_portfolio (ext : TorchExt G) (solve : Oracle) (before : List (FitRun Unit)) {c : PfCall G} (hc : c.Good) {f : Fitted c.m}
    (hf : c.outcome ext solve = .ok f) (float32 : Bool) {N : ℕ} (X : Fin N → Fin c.m → ℝ) :
    (replay newStore (before ++ [c.run ext solve])).coef = some f.coef ∧
    (replay newStore (before ++ [c.run ext solve])).portfolioEval c.P float32 X = portfolioEval c.P f float32 X := by
  rw [replay_append, replay_cons]
  generalize replay newStore before = s
  simp only [replay, List.foldl_nil]
  unfold PfCall.outcome at hf
  rcases portfolioRun_cases (L := Unit) (ext := ext) (grads := c.grads) (solve := solve) hc (p0 := c.p0) (P := c.P) (C := c.C) (D := c.D) (X := c.X)
      (g := c.g) with ⟨x, h1, -⟩ | ⟨f', h1, -, ht, hv⟩
  · rw [h1] at hf; cases hf
  · rw [h1, Except.ok.injEq] at hf
    subst hf
    exact ⟨(hv s).coef, portfolioEval_view (hv s) (fun hn => by
      by_contra h
      exact entropic_not_dedicated (by simpa using h) (ht.1 hn)) float32 X⟩

/-- **C117** The same for the Weber point. -/
theorem C117_weber (ext : TorchExt G) (before : List (FitRun Unit)) {c : WebCall G} (hc : c.Good) {f : Fitted c.d}
    (hf : c.outcome ext = .ok f) {N : ℕ} (X : Fin N → Fin c.d → ℝ) :
    (replay newStore (before ++ [c.run ext])).coef = some f.coef ∧
    (replay newStore (before ++ [c.run ext])).weberEval c.P X = weberEval c.P f X := by
  rw [replay_append, replay_cons]
  generalize replay newStore before = s
  simp only [replay, List.foldl_nil]
  unfold WebCall.outcome at hf
  rcases weberRun_cases (L := Unit) (ext := ext) (grads := c.grads) hc (pos0 := c.pos0) (P := c.P) (X := c.X) (w := c.w)
      (g := c.g) with ⟨x, h1, -⟩ | ⟨f', h1, -, ht, hv⟩
  · rw [h1] at hf; cases hf
  · rw [h1, Except.ok.injEq] at hf
    subst hf
    exact ⟨(hv s).coef, weberEval_view (hv s) (fun hn => by
      by_contra h
      exact entropic_not_dedicated (by simpa using h) (ht.1 hn)) X⟩

/-- attributes read by `eval`, but the loss -/
structure SameButLoss (s s' : Store L) : Prop where
  fitted : s'.fitted = s.fitted
  coef : s'.coef = s.coef

theorem eval_unchanged {s s' : Store Unit} (h : SameButLoss s s') {P : EstParams} (hl : s'.loss = s.loss ∨ pyIn "entropic".toList P.solver = false) :
    (∀ {N m : ℕ} (X : Fin N → Fin m → ℝ), s'.newsvendorEval P X = s.newsvendorEval P X) ∧
    (∀ {N m : ℕ} (b : Bool) (X : Fin N → Fin m → ℝ), s'.portfolioEval P b X = s.portfolioEval P b X) ∧
    (∀ {N m : ℕ} (X : Fin N → Fin m → ℝ), s'.weberEval P X = s.weberEval P X) := by
  rcases hl with hl | hl <;>
    simp only [Store.newsvendorEval, Store.portfolioEval, Store.weberEval, Store.assertFitted, Store.lossEval, h.fitted, h.coef, hl,
      Bool.false_eq_true, if_false, implies_true, and_self]

theorem mem_andThen {α : Type} {w : Write L} {a : List (Write L)} {e : Except PyErr α} {k : α → FitRun L} (h : w ∈ (FitRun.andThen a e k).1) :
    w ∈ a ∨ ∃ b, e = .ok b ∧ w ∈ (k b).1 := by
  cases e with
  | error x => exact Or.inl h
  | ok b => exact (List.mem_append.1 h).imp id fun h => ⟨b, rfl, h⟩

/-- a loss is only kept by the torch solvers -/
theorem nv_loss {ext : TorchExt G} {solve : Oracle} {c : NvCall G} {l} (h : Write.loss l ∈ (c.run ext solve).1) : pyIn "torch".toList c.P.solver = true := by
  unfold NvCall.run newsvendorRun at h
  split at h
  · simp at h
  rcases mem_andThen h with h | ⟨r, hr, h⟩
  · simp at h
  obtain ⟨-, -, hr⟩ := bind_ok hr
  cases r with
  | torch post => exact route_torch_inv hr
  | dedicated =>
    rcases mem_andThen h with h | ⟨r, -, h⟩ <;> simp at h

theorem pf_loss {ext : TorchExt G} {solve : Oracle} {c : PfCall G} {l} (h : Write.loss l ∈ (c.run ext solve).1) : pyIn "torch".toList c.P.solver = true := by
  unfold PfCall.run portfolioRun at h
  split at h
  · simp at h
  rcases mem_andThen h with h | ⟨-, -, h⟩
  · simp at h
  rcases mem_andThen h with h | ⟨r, hr, h⟩
  · simp at h
  obtain ⟨co, -, hr⟩ := bind_ok hr
  obtain ⟨q, hq, hr⟩ := bind_ok hr
  simp only [Except.ok.injEq] at hr
  subst hr
  cases q with
  | torch post => exact route_torch_inv hq
  | dedicated =>
    rcases mem_andThen h with h | ⟨r, -, h⟩ <;> simp at h

theorem web_loss {ext : TorchExt G} {c : WebCall G} {l} (h : Write.loss l ∈ (c.run ext).1) : pyIn "torch".toList c.P.solver = true := by
  unfold WebCall.run weberRun at h
  split at h
  · simp at h
  rcases mem_andThen h with h | ⟨r, hr, h⟩
  · simp at h
  cases r with
  | torch post => exact route_torch_inv hr
  | dedicated => simp at h

/-- **C116** Newsvendor (partial: see `C116_training_false`): a call of `fit` that raises leaves `coef_`, and what `eval` computes with a
solver whose name does not contain 'entropic'; if the call did not use a torch solver it leaves all of `eval`. -/
theorem C116_newsvendor_partial (ext : TorchExt G) (solve : Oracle) (s : Store Unit) {c : NvCall G} (hc : c.Good) {x : PyErr}
    (hx : c.outcome ext solve = .error x) :
    (s.after (c.run ext solve)).coef = s.coef ∧
    ∀ P : EstParams, pyIn "torch".toList c.P.solver = false ∨ pyIn "entropic".toList P.solver = false → ∀ {N m : ℕ} (X : Fin N → Fin m → ℝ),
      (s.after (c.run ext solve)).newsvendorEval P X = s.newsvendorEval P X := by
  unfold NvCall.outcome at hx
  rcases newsvendorRun_cases (L := Unit) (ext := ext) (grads := c.grads) (solve := solve) hc (theta0 := c.theta0) (P := c.P) (X := c.X)
      (g := c.g) with ⟨y, -, w, hw, h⟩ | ⟨f', h1, -⟩
  · have hl := fun l => nv_loss (ext := ext) (solve := solve) (c := c) (l := l)
    change c.run ext solve = _ at h
    rw [h] at hl ⊢
    rcases hw with rfl | ⟨l, rfl⟩
    · exact ⟨rfl, fun P _ N m X => rfl⟩
    · refine ⟨rfl, fun P hP N m X => (eval_unchanged (s := s) (s' := s.after ([.loss l], .error y)) ⟨rfl, rfl⟩ (.inr (hP.resolve_left ?_))).1 X⟩
      rw [hl l (by simp)]
      simp
  · rw [h1] at hx; cases hx

/-- **C116** Portfolio (partial: see `C116_training_false`). -/
theorem C116_portfolio_partial (ext : TorchExt G) (solve : Oracle) (s : Store Unit) {c : PfCall G} (hc : c.Good) {x : PyErr}
    (hx : c.outcome ext solve = .error x) :
    (s.after (c.run ext solve)).coef = s.coef ∧
    ∀ P : EstParams, pyIn "torch".toList c.P.solver = false ∨ pyIn "entropic".toList P.solver = false →
      ∀ (float32 : Bool) {N m : ℕ} (X : Fin N → Fin m → ℝ), (s.after (c.run ext solve)).portfolioEval P float32 X = s.portfolioEval P float32 X := by
  unfold PfCall.outcome at hx
  rcases portfolioRun_cases (L := Unit) (ext := ext) (grads := c.grads) (solve := solve) hc (p0 := c.p0) (P := c.P) (C := c.C) (D := c.D) (X := c.X)
      (g := c.g) with ⟨y, -, w, hw, h⟩ | ⟨f', h1, -⟩
  · have hl := fun l => pf_loss (ext := ext) (solve := solve) (c := c) (l := l)
    change c.run ext solve = _ at h
    rw [h] at hl ⊢
    rcases hw with rfl | rfl | ⟨l, rfl⟩
    · exact ⟨rfl, fun P _ b N m X => rfl⟩
    · exact ⟨rfl, fun P _ b N m X => rfl⟩
    · refine ⟨rfl, fun P hP b N m X => (eval_unchanged (s := s) (s' := s.after ([.data, .loss l], .error y)) ⟨rfl, rfl⟩ (.inr (hP.resolve_left ?_))).2.1 b X⟩
      rw [hl l (by simp)]
      simp
  · rw [h1] at hx; cases hx

/-- **C116** Weber point (partial: see `C116_training_false`). -/
theorem C116_weber_partial (ext : TorchExt G) (s : Store Unit) {c : WebCall G} (hc : c.Good) {x : PyErr} (hx : c.outcome ext = .error x) :
    (s.after (c.run ext)).coef = s.coef ∧
    ∀ P : EstParams, pyIn "torch".toList c.P.solver = false ∨ pyIn "entropic".toList P.solver = false → ∀ {N m : ℕ} (X : Fin N → Fin m → ℝ),
      (s.after (c.run ext)).weberEval P X = s.weberEval P X := by
  unfold WebCall.outcome at hx
  rcases weberRun_cases (L := Unit) (ext := ext) (grads := c.grads) hc (pos0 := c.pos0) (P := c.P) (X := c.X) (w := c.w)
      (g := c.g) with ⟨y, -, w, hw, h⟩ | ⟨f', h1, -⟩
  · have hl := fun l => web_loss (ext := ext) (c := c) (l := l)
    change c.run ext = _ at h
    rw [h] at hl ⊢
    rcases hw with rfl | ⟨l, rfl⟩
    · exact ⟨rfl, fun P _ N m X => rfl⟩
    · refine ⟨rfl, fun P hP N m X => (eval_unchanged (s := s) (s' := s.after ([.loss l], .error y)) ⟨rfl, rfl⟩ (.inr (hP.resolve_left ?_))).2.2 X⟩
      rw [hl l (by simp)]
      simp
  · rw [h1] at hx; cases hx

/-- **C116** (violated) When training a newsvendor raises, `coef_` keeps the order of the earlier fit but the score becomes that of the order
training left: attributes and methods disagree. -/
theorem C116_training_false (ext : TorchExt G) (solve : Oracle) (before : List (FitRun Unit)) {c c' : NvCall G} (hc : c.Good) {f : Fitted 1}
    (hf : c.outcome ext solve = .ok f) (hent : pyIn "entropic".toList c.P.solver = true) (hn : 0 < c'.n) (hd : 0 < c'.d) {post : Bool}
    (hr : route .newsvendor c'.P.solver = .ok (.torch post)) (hcode : ∃ c, cost_from_str c'.P.cost = .ok c) {parsed : ParsedCost} {obj : CostObj}
    (h1 : parse_code_torch (some c'.P.cost) false = .ok parsed) (h2 : cost_from_parse_torch parsed = .ok obj) (h3 : Supported obj.power obj.p)
    {x : PyErr} {th' : ℝ} (htrain : ∀ args s, c'.train args (.newsvendor c'.P.k c'.P.u c'.theta0) s = (.error x, .newsvendor c'.P.k c'.P.u th')) :
    c'.outcome ext solve = .error x ∧ ∃ th t, t.toList = [th] ∧
      (replay newStore (before ++ [c.run ext solve])).coef = some (some t) ∧
      (replay newStore (before ++ [c.run ext solve, c'.run ext solve])).coef = some (some t) ∧ ∀ {N : ℕ} (X : Fin N → ℝ),
      score ((replay newStore (before ++ [c.run ext solve])).newsvendorEval c.P fun i (_ : Fin 1) => X i) =
        .ok (-(avg fun i => newsvendor c.P.k c.P.u th (X i))) ∧
      score ((replay newStore (before ++ [c.run ext solve, c'.run ext solve])).newsvendorEval c.P fun i (_ : Fin 1) => X i) =
        .ok (-(avg fun i => newsvendor c'.P.k c'.P.u th' (X i))) := by
  obtain ⟨co, hco⟩ := hcode
  have hD : ∃ r, dualize ext (torchArgs c'.grads .newsvendor c'.P post false (matT fun i (_ : Fin 1) => rowMeans c'.X i) none
      (.newsvendor c'.P.k c'.P.u c'.theta0)) c'.g = .ok r := by
    obtain ⟨D, g', -, hd, -⟩ := (C08_supported_costs (ext := ext) (torchArgs c'.grads .newsvendor c'.P post false (matT fun i (_ : Fin 1) => rowMeans c'.X i) none
      (.newsvendor c'.P.k c'.P.u c'.theta0)) c'.g h1 h2 (by intro s hs; exact absurd (show (none : Option ℝ) = some s from hs) (by simp))).1 h3
    exact ⟨_, hd⟩
  obtain ⟨D, hD⟩ := hD
  have hrun : c'.run ext solve = ([.loss ⟨1, .newsvendor c'.P.k c'.P.u th', torchArgs c'.grads .newsvendor c'.P post false
      (matT fun i (_ : Fin 1) => rowMeans c'.X i) none (.newsvendor c'.P.k c'.P.u th')⟩], .error x) := by
    unfold NvCall.run newsvendorRun
    rw [if_neg (by omega), hco, ok_bind, hr, andThen_ok]
    dsimp only
    rw [torchWrites]
    dsimp only
    rw [hD, andThen_ok, htrain]
    rfl
  refine ⟨?_, ?_⟩
  · unfold NvCall.outcome newsvendorFit
    rw [if_neg (by omega), hco, ok_bind, hr, ok_bind]
    dsimp only
    rw [fitTorch]
    simp only [hD, ok_bind, InPlace.trainer, htrain, error_bind]
  obtain ⟨th, t, ht, hl, hs⟩ := C77_newsvendor_partial hc hf (.inl hent)
  have hbefore : ∀ {N m : ℕ} (X : Fin N → Fin m → ℝ), _ := fun {N m} X => C117_newsvendor ext solve before hc hf X
  have hfit : (replay newStore (before ++ [c.run ext solve])).fitted = true := by
    rw [replay_append, replay_cons]
    generalize replay newStore before = s
    unfold NvCall.outcome at hf
    rcases newsvendorRun_cases (L := Unit) (ext := ext) (grads := c.grads) (solve := solve) hc (theta0 := c.theta0) (P := c.P) (X := c.X)
      (g := c.g) with ⟨y, h1, -⟩ | ⟨f', h1, -, -, hv⟩
    · rw [h1] at hf; cases hf
    · exact (hv s).fitted
  have hafter : replay newStore (before ++ [c.run ext solve, c'.run ext solve]) =
      (replay newStore (before ++ [c.run ext solve])).after (c'.run ext solve) := by
    simp only [replay, List.foldl_append, List.foldl_cons, List.foldl_nil]
  have hco := (hbefore (N := 0) (m := 0) fun i => i.elim0).1
  rw [ht] at hco
  refine ⟨th, t, hl, hco, ?_, fun {N} X => ⟨?_, ?_⟩⟩
  · rw [hafter, hrun]
    exact hco
  · rw [(hbefore _).2]
    exact hs N X
  · rw [hafter, hrun]
    generalize replay newStore (before ++ [c.run ext solve]) = s at hfit
    let f' : Fitted 1 := { coef := none, intercept := none, dual_var := none, tau := none, torch := some (.newsvendor c'.P.k c'.P.u th',
      torchArgs c'.grads .newsvendor c'.P post false (matT fun i (_ : Fin 1) => rowMeans c'.X i) none (.newsvendor c'.P.k c'.P.u th')) }
    have : Store.newsvendorEval c.P (s.after ([.loss ⟨1, .newsvendor c'.P.k c'.P.u th', torchArgs c'.grads .newsvendor c'.P post false
      (matT fun i (_ : Fin 1) => rowMeans c'.X i) none (.newsvendor c'.P.k c'.P.u th')⟩], .error x)) (fun i (_ : Fin 1) => X i) =
        torchEval f' (matT fun i (_ : Fin 1) => X i) := by
      simp only [Store.newsvendorEval, Store.after, List.foldl_cons, List.foldl_nil, Store.write, Store.assertFitted, hfit, if_true, ok_bind, hent,
        Store.lossEval, getAttr, torchEval, f']
    rw [this]
    obtain ⟨t, h5, h6⟩ := C28_estimator_partial c'.P.k c'.P.u th' (hasRows_of_isMat (matT_is fun i (_ : Fin 1) => X i))
    have hI : IsMat t (fun i (_ : Fin 1) => newsvendor c'.P.k c'.P.u th' (X i)) := by
      refine ⟨h6.1, fun i c => ?_⟩
      have := h6.2 [i.1] (List.Forall₂.cons i.2 List.Forall₂.nil) c
      simpa [rowsOf_apply, avg] using this
    rw [torchEval_rows (f := f') rfl rfl rfl rfl _ h5 hI]
    have hreg : (torchArgs c'.grads .newsvendor c'.P post false (matT fun i (_ : Fin 1) => rowMeans c'.X i) none
      (.newsvendor c'.P.k c'.P.u th')).l2reg = none := rfl
    rw [hreg]
    simp [score, Except.map, ridge]

/-! ## Attributes a fit does not assign -/

theorem foldl_write_other {s : Store L} {w : List (Write L)} :
    ((∀ v, Write.robust_loss v ∉ w) → (w.foldl Store.write s).robust_loss = s.robust_loss) ∧
    ((∀ v, Write.intercept v ∉ w) → (w.foldl Store.write s).intercept = s.intercept) ∧
    ((∀ v, Write.tau v ∉ w) → (w.foldl Store.write s).tau = s.tau) := by
  induction w generalizing s with
  | nil => exact ⟨fun _ => rfl, fun _ => rfl, fun _ => rfl⟩
  | cons a w ih =>
    have ih := ih (s := s.write a)
    refine ⟨fun h => ?_, fun h => ?_, fun h => ?_⟩
    · refine (ih.1 fun v hv => h v (List.mem_cons_of_mem _ hv)).trans ?_
      cases a <;> first | rfl | exact absurd (List.mem_cons_self ..) (h _)
    · refine (ih.2.1 fun v hv => h v (List.mem_cons_of_mem _ hv)).trans ?_
      cases a <;> first | rfl | exact absurd (List.mem_cons_self ..) (h _)
    · refine (ih.2.2 fun v hv => h v (List.mem_cons_of_mem _ hv)).trans ?_
      cases a <;> first | rfl | exact absurd (List.mem_cons_self ..) (h _)

theorem write_other (s : Store L) (run : FitRun L) :
    ((∀ v, Write.robust_loss v ∉ run.1) → (s.after run).robust_loss = s.robust_loss) ∧
    ((∀ v, Write.intercept v ∉ run.1) → (s.after run).intercept = s.intercept) ∧
    ((∀ v, Write.tau v ∉ run.1) → (s.after run).tau = s.tau) := foldl_write_other

/-- **C117** (violated) Fits with a dedicated solver do not assign `robust_loss_`, nor `intercept_` for the newsvendor and the portfolio:
an estimator fitted with torch and then with the dedicated solver reports those of the earlier fit. -/
theorem C117_stale_false (ext : TorchExt G) (solve : Oracle) :
    (∀ (s : Store Unit) {c : LinCall G} (_ : route .linreg c.P.solver = .ok .dedicated),
      (s.after (c.run ext solve)).robust_loss = s.robust_loss) ∧
    (∀ {L : Type} [LinearOrder L] (s : Store L) {c : LogCall G L} (_ : route .logistic c.P.solver = .ok .dedicated),
      (s.after (c.run ext solve)).robust_loss = s.robust_loss) ∧
    (∀ (s : Store Unit) {c : NvCall G} (_ : route .newsvendor c.P.solver = .ok .dedicated),
      (s.after (c.run ext solve)).robust_loss = s.robust_loss ∧ (s.after (c.run ext solve)).intercept = s.intercept) ∧
    (∀ (s : Store Unit) {c : PfCall G} (_ : route .portfolio c.P.solver = .ok .dedicated),
      (s.after (c.run ext solve)).robust_loss = s.robust_loss ∧ (s.after (c.run ext solve)).intercept = s.intercept) := by
  refine ⟨fun s c hr => ?_, fun s c hr => ?_, fun s c hr => ?_, fun s c hr => ?_⟩
  · refine (write_other s (c.run ext solve)).1 fun v h => ?_
    unfold LinCall.run linregRun at h
    split at h
    · simp at h
    rcases mem_andThen h with h | ⟨r, hr', h⟩
    · simp at h
    obtain ⟨-, -, hr'⟩ := bind_ok hr'
    rw [hr, Except.ok.injEq] at hr'
    subst hr'
    rcases mem_andThen h with h | ⟨r, -, h⟩ <;> simp at h
  · refine (write_other s (c.run ext solve)).1 fun v h => ?_
    unfold LogCall.run logisticRun at h
    dsimp only at h
    split at h
    · simp at h
    split at h
    · simp at h
    rcases mem_andThen h with h | ⟨r, hr', h⟩
    · simp at h
    obtain ⟨-, -, hr'⟩ := bind_ok hr'
    rw [hr, Except.ok.injEq] at hr'
    subst hr'
    dsimp only at h
    split at h
    · simp at h
    rcases mem_andThen h with h | ⟨r, -, h⟩ <;> simp at h
  · have key : ∀ w, w ∈ (c.run ext solve).1 → (∃ v, w = .coef v) ∨ (∃ v, w = .dual_var v) ∨ w = .fitted := by
      intro w h
      unfold NvCall.run newsvendorRun at h
      split at h
      · simp at h
      rcases mem_andThen h with h | ⟨r, hr', h⟩
      · simp at h
      obtain ⟨-, -, hr'⟩ := bind_ok hr'
      rw [hr, Except.ok.injEq] at hr'
      subst hr'
      rcases mem_andThen h with h | ⟨r, -, h⟩
      · simp at h
      · simp only [List.mem_cons, List.not_mem_nil, or_false] at h
        rcases h with rfl | rfl | rfl | rfl <;> simp
    exact ⟨(write_other s (c.run ext solve)).1 fun v h => by simpa using key _ h, (write_other s (c.run ext solve)).2.1 fun v h => by simpa using key _ h⟩
  · have key : ∀ w, w ∈ (c.run ext solve).1 → w = .data ∨ (∃ v, w = .coef v) ∨ (∃ v, w = .dual_var v) ∨ w = .fitted ∨ ∃ v, w = .tau v := by
      intro w h
      unfold PfCall.run portfolioRun at h
      split at h
      · simp at h
      rcases mem_andThen h with h | ⟨-, -, h⟩
      · simp at h
      rcases mem_andThen h with h | ⟨r, hr', h⟩
      · simp at h; simp [h]
      obtain ⟨co, -, hr'⟩ := bind_ok hr'
      rw [hr, ok_bind, Except.ok.injEq] at hr'
      subst hr'
      rcases mem_andThen h with h | ⟨r, -, h⟩
      · simp at h
      · simp only [List.mem_cons, List.not_mem_nil, or_false] at h
        rcases h with rfl | rfl | rfl | rfl <;> simp
    exact ⟨(write_other s (c.run ext solve)).1 fun v h => by simpa using key _ h, (write_other s (c.run ext solve)).2.1 fun v h => by simpa using key _ h⟩

theorem weightsRead_ok {d : ℕ} {M : Module d} {w : List (Write L)} (h : weightsRead M = .ok w) : ∃ t, w = [.coef t] := by
  cases M <;> simp only [weightsRead, reduceCtorEq, Except.ok.injEq] at h
  exact ⟨_, h.symm⟩

/-- **C117** (violated) A portfolio fitted with a torch solver keeps the threshold `tau_` of an earlier fit with the dedicated one. -/
theorem C117_stale_threshold_false (ext : TorchExt G) (solve : Oracle) (s : Store Unit) {c : PfCall G} {post : Bool}
    (hr : route .portfolio c.P.solver = .ok (.torch post)) : (s.after (c.run ext solve)).tau = s.tau := by
  refine (write_other s (c.run ext solve)).2.2 fun v h => ?_
  unfold PfCall.run portfolioRun at h
  split at h
  · simp at h
  rcases mem_andThen h with h | ⟨-, -, h⟩
  · simp at h
  rcases mem_andThen h with h | ⟨r, hr', h⟩
  · simp at h
  obtain ⟨co, -, hr'⟩ := bind_ok hr'
  rw [hr, ok_bind, Except.ok.injEq] at hr'
  subst hr'
  simp only [torchWrites] at h
  rcases mem_andThen h with h | ⟨r, -, h⟩
  · simp at h
  split at h
  · simp at h
  · rcases mem_andThen h with h | ⟨w, hw, h⟩
    · simp at h
    · obtain ⟨t, rfl⟩ := weightsRead_ok hw
      simp at h

end Skwdro
