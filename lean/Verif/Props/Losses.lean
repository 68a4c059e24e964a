import Verif.Model.Losses
import Verif.Spec.BuiltinLosses
import Verif.Spec.Losses
import Verif.Lemmas.Tensor
import Verif.Lemmas.Gibbs
import Verif.Props.WrappedLoss
import Mathlib.Tactic.Linarith
import Mathlib.Analysis.InnerProductSpace.PiL2
import Mathlib.Algebra.BigOperators.Group.List.Lemmas

/-! # C26–C28, C74, C75: built-in losses -/

namespace Skwdro
open Spec Tensor

section lemmas

theorem zipWith_ofFn {α β γ : Type} {d : ℕ} (f : α → β → γ) (a : Fin d → α) (b : Fin d → β) :
    List.zipWith f (List.ofFn a) (List.ofFn b) = List.ofFn fun k => f (a k) (b k) := by
  apply List.ext_getElem
  · simp
  · intro i h1 h2; simp

theorem HasRows.row {d : ℕ} {t : Tensor ℝ} {b : List ℕ} {X : List ℕ → Fin d → ℝ} (h : HasRows t b X) {i : List ℕ} (hi : InShape i b) :
    (List.range d).map (fun k => t.get (i ++ [k])) = List.ofFn (X i) := by
  apply List.ext_getElem
  · simp
  · intro k h1 h2
    simp only [List.length_map, List.length_range] at h1
    simp only [List.getElem_map, List.getElem_range, List.getElem_ofFn]
    exact h.2 i hi ⟨k, h1⟩

theorem HasRows.is {d : ℕ} {t : Tensor ℝ} {b : List ℕ} {X : List ℕ → Fin d → ℝ} (h : HasRows t b X) : Is t (b ++ [d]) t.get :=
  ⟨h.1, fun _ _ => rfl⟩

theorem HasRows.of_is {t : Tensor ℝ} {b : List ℕ} {f : List ℕ → ℝ} (h : Is t (b ++ [1]) f) {X : List ℕ → ℝ}
    (hx : ∀ i, InShape i b → f (i ++ [0]) = X i) : HasRows t b (fun i (_ : Fin 1) => X i) := by
  refine ⟨h.1, fun i hi k => ?_⟩
  have hk : k.1 = 0 := by omega
  rw [hk, h.2 _ (inShape_concat hi (by norm_num)), hx i hi]

/-- a reduction of the last dimension, on rows -/
theorem HasRows.reduce {d : ℕ} {t : Tensor ℝ} {b : List ℕ} {X : List ℕ → Fin d → ℝ} (h : HasRows t b X) (f : List ℝ → ℝ) :
    HasRows (t.reduceLast f) b (fun i (_ : Fin 1) => f (List.ofFn (X i))) := by
  refine HasRows.of_is (HasRows.is h).reduceLast fun i hi => ?_
  rw [List.dropLast_concat, HasRows.row h hi]

theorem lin_apply {d : ℕ} (w : Fin d → ℝ) (bias : Option ℝ) {t : Tensor ℝ} {b : List ℕ} {X : List ℕ → Fin d → ℝ} (h : HasRows t b X) :
    ∃ s, Lin.apply ⟨List.ofFn w, bias⟩ t = .ok s ∧ HasRows s b (fun i (_ : Fin 1) => score w bias (X i)) := by
  refine ⟨t.reduceLast fun row => (List.zipWith (· * ·) (List.ofFn w) row).sum + bias.getD 0, ?_, ?_⟩
  · unfold Lin.apply
    rw [if_pos (by rw [h.1]; simp)]
  · have := HasRows.reduce h fun row => (List.zipWith (· * ·) (List.ofFn w) row).sum + bias.getD 0
    simpa only [zipWith_ofFn, List.sum_ofFn, score] using this

theorem regularizeWith_rows (l2 : Option ℝ) (theta : List ℝ) {t : Tensor ℝ} {b : List ℕ} {F : List ℕ → ℝ}
    (h : HasRows t b (fun i (_ : Fin 1) => F i)) :
    HasRows (regularizeWith l2 theta t) b (fun i (_ : Fin 1) => F i + ridge l2 theta) := by
  have h1 := regularize_is (⟨true, true, fun _ _ => .error .notImplemented, l2, theta⟩ : WLoss) (HasRows.is h)
  refine HasRows.of_is h1 fun i hi => ?_
  have := h.2 i hi 0
  simp only [Fin.val_zero] at this
  rw [this]

/-- viewing labels of shape `b` or `b ++ [1]` as `b ++ [1]` -/
theorem view_same {t : Tensor ℝ} {b : List ℕ} {Y : List ℕ → ℝ}
    (h : HasRows t b (fun i (_ : Fin 1) => Y i) ∨ (t.shape = b ∧ ∀ i, InShape i b → t.get i = Y i)) :
    ∃ s, t.view (b ++ [1]) = .ok s ∧ HasRows s b (fun i (_ : Fin 1) => Y i) := by
  refine ⟨⟨b ++ [1], fun i => t.get (unravel t.shape (ravel (b ++ [1]) i))⟩, ?_, ⟨rfl, fun i hi k => ?_⟩⟩
  · unfold Tensor.view
    rw [if_pos]
    rcases h with h | h
    · rw [h.1]
    · rw [h.1]; simp
  · have hk : k.1 = 0 := by omega
    simp only [hk]
    rcases h with h | h
    · rw [h.1, unravel_ravel (inShape_concat hi (by norm_num))]
      exact h.2 i hi 0
    · rw [h.1, ravel_concat hi, mul_one, add_zero, unravel_ravel hi, h.2 i hi]

theorem zip_rows {f : ℝ → ℝ → ℝ} {s t : Tensor ℝ} {b : List ℕ} {d : ℕ} {F G : List ℕ → Fin d → ℝ}
    (hs : HasRows s b F) (ht : HasRows t b G) :
    ∃ c, Tensor.zipWith f s t = .ok c ∧ HasRows c b (fun i k => f (F i k) (G i k)) := by
  obtain ⟨c, h1, h2⟩ := Is.zipWith_same (f := f) (HasRows.is hs) (HasRows.is ht)
  refine ⟨c, h1, h2.1, fun i hi k => ?_⟩
  rw [h2.2 _ (inShape_concat hi k.2)]
  simp only [hs.2 i hi k, ht.2 i hi k]

theorem neg_logsigmoid (y s : ℝ) : -logsigmoid (y * s) = logloss y s := by
  unfold logsigmoid logloss
  rw [one_div, Real.log_inv, neg_neg]

end lemmas

section C26

/-- **C26** On every batch (any batch shape) with one label per sample (as a column, or flat), the logistic loss returns one value
per sample: `log(1 + exp(-y * (<w,x> + b)))`, plus the ridge penalty. -/
theorem C26_batch {d : ℕ} (w : Fin d → ℝ) (bias l2 : Option ℝ) {xi y : Tensor ℝ} {b : List ℕ} {X : List ℕ → Fin d → ℝ} {Y : List ℕ → ℝ}
    (hx : HasRows xi b X)
    (hy : HasRows y b (fun i (_ : Fin 1) => Y i) ∨ (y.shape = b ∧ ∀ i, InShape i b → y.get i = Y i)) :
    Returns ((⟨⟨List.ofFn w, bias⟩, l2⟩ : LinLoss).logistic xi (some y))
      (fun t => HasRows t b (fun i (_ : Fin 1) => logloss (Y i) (score w bias (X i)) + ridge l2 (List.ofFn w))) := by
  obtain ⟨s, hs1, hs2⟩ := lin_apply w bias hx
  obtain ⟨v, hv1, hv2⟩ := view_same hy
  obtain ⟨c, hc1, hc2⟩ := zip_rows (f := fun t s => -logsigmoid (t * s)) hv2 hs2
  refine ⟨regularizeWith l2 (List.ofFn w) c, ?_, ?_⟩
  · simp only [LinLoss.logistic, hs1, ok_bind, biDiffSoftMargin, hs2.1, hv1, hc1]
  · simp only [neg_logsigmoid] at hc2
    exact regularizeWith_rows l2 _ hc2

/-- **C26** Missing labels fail an assertion; a wrong number of features raises. -/
theorem C26_refused (l : LinLoss) (xi y : Tensor ℝ) :
    l.logistic xi none = .error .assertionError ∧
    (xi.shape.getLast? ≠ some l.lin.weight.length → l.logistic xi (some y) = .error .runtimeError) := by
  refine ⟨rfl, fun h => ?_⟩
  simp only [LinLoss.logistic, Lin.apply, if_neg h, error_bind]

/-- **C26** Labels of any shape are read in row-major order, one per sample. -/
theorem C26_any_shape {d : ℕ} (w : Fin d → ℝ) (bias l2 : Option ℝ) {xi y : Tensor ℝ} {b : List ℕ} {X : List ℕ → Fin d → ℝ}
    (hx : HasRows xi b X) (hy : y.shape.prod = b.prod) :
    Returns ((⟨⟨List.ofFn w, bias⟩, l2⟩ : LinLoss).logistic xi (some y)) (fun t => HasRows t b (fun i (_ : Fin 1) =>
      logloss (y.get (unravel y.shape (ravel b i))) (score w bias (X i)) + ridge l2 (List.ofFn w))) := by
  obtain ⟨s, hs1, hs2⟩ := lin_apply w bias hx
  have hv1 : y.view (b ++ [1]) = .ok ⟨b ++ [1], fun i => y.get (unravel y.shape (ravel (b ++ [1]) i))⟩ := if_pos (by simp [hy])
  have hv2 : HasRows (⟨b ++ [1], fun i => y.get (unravel y.shape (ravel (b ++ [1]) i))⟩ : Tensor ℝ) b
      (fun i (_ : Fin 1) => y.get (unravel y.shape (ravel b i))) := by
    refine ⟨rfl, fun i hi k => ?_⟩
    have hk : k.1 = 0 := by omega
    simp only [hk]
    rw [ravel_concat hi, mul_one, add_zero]
  obtain ⟨c, hc1, hc2⟩ := zip_rows (f := fun t s => -logsigmoid (t * s)) hv2 hs2
  refine ⟨regularizeWith l2 (List.ofFn w) c, ?_, ?_⟩
  · simp only [LinLoss.logistic, hs1, ok_bind, biDiffSoftMargin, hs2.1, hv1, hc1]
  · simp only [neg_logsigmoid] at hc2
    exact regularizeWith_rows l2 _ hc2

/-- **C26** Another number of labels than of samples is refused. -/
theorem C26_label_count {d : ℕ} (w : Fin d → ℝ) (bias l2 : Option ℝ) {xi y : Tensor ℝ} {b : List ℕ} {X : List ℕ → Fin d → ℝ}
    (hx : HasRows xi b X) (hy : y.shape.prod ≠ b.prod) :
    (⟨⟨List.ofFn w, bias⟩, l2⟩ : LinLoss).logistic xi (some y) = .error .runtimeError := by
  obtain ⟨s, hs1, hs2⟩ := lin_apply w bias hx
  have hv : y.view (b ++ [1]) = .error .runtimeError := if_neg (by simpa using Ne.symm hy)
  simp only [LinLoss.logistic, hs1, ok_bind, biDiffSoftMargin, hs2.1, hv, error_bind]

/-- three samples with their labels in a row, and with a label missing -/
example (X : Fin 3 → Fin 1 → ℝ) (Y : Fin 1 → Fin 3 → ℝ) (Y' : Fin 1 → Fin 2 → ℝ) (w : Fin 1 → ℝ) :
    (∃ t, (⟨⟨List.ofFn w, none⟩, none⟩ : LinLoss).logistic (mat X) (some (mat Y)) = .ok t ∧ t.shape = [3, 1]) ∧
    (⟨⟨List.ofFn w, none⟩, none⟩ : LinLoss).logistic (mat X) (some (mat Y')) = .error .runtimeError := by
  have hX : HasRows (mat X) [3] (fun i k => (mat X).get (i ++ [k.1])) := ⟨rfl, fun _ _ _ => rfl⟩
  obtain ⟨t, ht, hT⟩ := C26_any_shape w none none hX (y := mat Y) (by simp [mat])
  exact ⟨⟨t, ht, hT.1⟩, C26_label_count w none none hX (by simp [mat])⟩

/-- **C26** A fresh logistic loss (any dimension, with or without intercept) returns `log 2` on every sample, whatever the label. -/
theorem C26_fresh {d : ℕ} (hd : 0 < d) (l2 : Option ℝ) (fit : Bool) : ∃ l, logisticInit d l2 fit = .ok l ∧
    ∀ (xi y : Tensor ℝ) (b : List ℕ) (X : List ℕ → Fin d → ℝ) (Y : List ℕ → ℝ), HasRows xi b X → HasRows y b (fun i (_ : Fin 1) => Y i) →
      Returns (l.logistic xi (some y)) (fun t => HasRows t b (fun _ (_ : Fin 1) => Real.log 2)) := by
  refine ⟨⟨⟨List.replicate d 0, if fit then some 0 else none⟩, l2⟩, by simp [logisticInit, hd], ?_⟩
  intro xi y b X Y hx hy
  have e : List.replicate d (0 : ℝ) = List.ofFn fun _ : Fin d => (0 : ℝ) := by simp
  rw [e]
  obtain ⟨t, h1, h2⟩ := C26_batch (fun _ : Fin d => (0 : ℝ)) (if fit then some 0 else none) l2 hx (Or.inl hy)
  refine ⟨t, h1, ?_⟩
  have hb : (if fit then some (0 : ℝ) else none).getD 0 = 0 := by cases fit <;> simp
  have hr : ridge l2 (List.ofFn fun _ : Fin d => (0 : ℝ)) = 0 := by
    unfold ridge
    split
    · rfl
    · split
      · rfl
      · simp
  have hl : ∀ y : ℝ, logloss y 0 = Real.log 2 := by intro y; norm_num [logloss]
  simpa only [score, zero_mul, Finset.sum_const_zero, hb, add_zero, hr, hl] using h2

/-- **C26** no dimension: refused -/
theorem C26_dimension (l2 : Option ℝ) (fit : Bool) : logisticInit 0 l2 fit = .error .assertionError := rfl

/-- **C26** The loss is positive. -/
theorem C26_pos (y s : ℝ) : 0 < logloss y s :=
  Real.log_pos (by linarith [Real.exp_pos (-(y * s))])

/-- **C26** It is `log 2` exactly on the decision boundary, below iff the score has the sign of the label. -/
theorem C26_boundary (y s : ℝ) : (logloss y s = Real.log 2 ↔ y * s = 0) ∧ (logloss y s < Real.log 2 ↔ 0 < y * s) := by
  have hp : 0 < 1 + Real.exp (-(y * s)) := by positivity
  unfold logloss
  constructor
  · constructor
    · intro h
      have h2 := Real.log_injOn_pos (Set.mem_Ioi.2 hp) (Set.mem_Ioi.2 (by norm_num : (0 : ℝ) < 2)) h
      have h3 : Real.exp (-(y * s)) = 1 := by linarith
      rw [Real.exp_eq_one_iff] at h3
      linarith
    · intro h; rw [h]; norm_num
  · rw [Real.log_lt_log_iff hp (by norm_num)]
    constructor
    · intro h
      have h3 : Real.exp (-(y * s)) < 1 := by linarith
      rw [Real.exp_lt_one_iff] at h3
      linarith
    · intro h
      have : Real.exp (-(y * s)) < 1 := Real.exp_lt_one_iff.2 (by linarith)
      linarith

theorem logloss_softmax (y s : ℝ) : logloss y s = Real.log 2 + softmax 1 ![0, -(y * s)] := by
  unfold logloss softmax avg
  rw [one_mul]
  simp only [div_one, Fin.sum_univ_two, Matrix.cons_val_zero, Matrix.cons_val_one, Real.exp_zero]
  rw [Real.log_div (by positivity) (by norm_num)]
  push_cast
  ring

/-- **C26** The loss is convex in the score. -/
theorem C26_convex (y : ℝ) : ConvexOn ℝ Set.univ (logloss y) := by
  refine ⟨convex_univ, fun s _ t _ a b ha hb hab => ?_⟩
  simp only [smul_eq_mul, logloss_softmax]
  have := softmax_convex (n := 2) (by norm_num) (eps := 1) one_pos (u := ![0, -(y * s)]) (v := ![0, -(y * t)])
    (w := ![0, -(y * (a * s + b * t))]) ha hb hab (by
      intro j
      fin_cases j
      · simp
      · simp only [Fin.mk_one, Matrix.cons_val_one, Matrix.cons_val_fin_one]
        apply le_of_eq; ring)
  have e : Real.log 2 = a * Real.log 2 + b * Real.log 2 := by rw [← add_mul, hab, one_mul]
  linarith

/-- **C26** The loss is Lipschitz in the score, with constant the absolute value of the label (1 for labels in {-1, 1}). -/
theorem C26_lipschitz (y s t : ℝ) : |logloss y s - logloss y t| ≤ |y| * |s - t| := by
  have key : ∀ s t : ℝ, logloss y s ≤ logloss y t + |y| * |s - t| := by
    intro s t
    have hp : 0 < 1 + Real.exp (-(y * t)) := by positivity
    have e : logloss y t + |y| * |s - t| = Real.log ((1 + Real.exp (-(y * t))) * Real.exp (|y| * |s - t|)) := by
      rw [Real.log_mul hp.ne' (Real.exp_pos _).ne', Real.log_exp]; rfl
    rw [e]
    apply Real.log_le_log (by positivity)
    have h1 : 1 ≤ Real.exp (|y| * |s - t|) := Real.one_le_exp (by positivity)
    have h2 : Real.exp (-(y * s)) ≤ Real.exp (-(y * t)) * Real.exp (|y| * |s - t|) := by
      rw [← Real.exp_add]
      apply Real.exp_le_exp.2
      have := neg_le_abs (y * (s - t))
      rw [abs_mul] at this
      linarith
    nlinarith
  rw [abs_sub_le_iff]
  refine ⟨by linarith [key s t], ?_⟩
  have := key t s
  rw [abs_sub_comm t s] at this
  linarith

/-- **C26** The label prediction agrees with the loss: the predicted label has the sign of the score, hence of the true label iff
the loss is below `log 2`. -/
theorem C26_predict {d : ℕ} (w : Fin d → ℝ) (bias l2 : Option ℝ) {xi : Tensor ℝ} {b : List ℕ} {X : List ℕ → Fin d → ℝ} (hx : HasRows xi b X) :
    Returns ((⟨⟨List.ofFn w, bias⟩, l2⟩ : LinLoss).predict xi)
      (fun t => HasRows t b (fun i (_ : Fin 1) => Real.tanh (score w bias (X i)))) := by
  obtain ⟨s, hs1, hs2⟩ := lin_apply w bias hx
  refine ⟨s.map Real.tanh, by simp only [LinLoss.predict, hs1, ok_bind], hs2.1, fun i hi k => ?_⟩
  simp only [Tensor.map, hs2.2 i hi k]

/-- two samples with three features and their labels, in a column or flat -/
example (w : Fin 3 → ℝ) (bias l2 : Option ℝ) (X : Fin 2 → Fin 3 → ℝ) (Y : Fin 2 → Fin 1 → ℝ) := C26_batch (b := [2]) (Y := fun i => (mat Y).get (i ++ [0]))
  w bias l2 (xi := mat X) (X := fun i k => (mat X).get (i ++ [k.1])) (y := mat Y) ⟨rfl, fun _ _ _ => rfl⟩
  (Or.inl ⟨rfl, fun i _ k => by rw [Fin.fin_one_eq_zero k]; rfl⟩)
example (w : Fin 3 → ℝ) (bias l2 : Option ℝ) (X : Fin 2 → Fin 3 → ℝ) (Y : Fin 2 → ℝ) := C26_batch (b := [2]) (Y := fun i => (vec Y).get i)
  w bias l2 (xi := mat X) (X := fun i k => (mat X).get (i ++ [k.1])) (y := vec Y) ⟨rfl, fun _ _ _ => rfl⟩ (Or.inr ⟨rfl, fun _ _ => rfl⟩)
example (l2 : Option ℝ) (fit : Bool) := C26_fresh (d := 3) (by norm_num) l2 fit
example (w : Fin 3 → ℝ) (bias l2 : Option ℝ) (X : Fin 2 → Fin 3 → ℝ) := C26_predict (b := [2]) w bias l2 (xi := mat X)
  (X := fun i k => (mat X).get (i ++ [k.1])) ⟨rfl, fun _ _ _ => rfl⟩

end C26

section C27

/-- **C27** The weights of the portfolio are always positive and sum to one, whatever the raw parameters. -/
theorem C27_weights {d : ℕ} (hd : 0 < d) (a : Fin d → ℝ) (tau eta alpha : ℝ) :
    ∃ w : Fin d → ℝ, (⟨List.ofFn a, tau, eta, alpha⟩ : Portfolio).weights = List.ofFn w ∧ InSimplex w ∧ ∀ k, 0 < w k := by
  have hs : 0 < ∑ k, Real.exp (a k) := sum_exp_pos hd a
  refine ⟨fun k => Real.exp (a k) / ∑ j, Real.exp (a j), ?_, ⟨fun k => by positivity, ?_⟩, fun k => by positivity⟩
  · simp only [Portfolio.weights, softmaxVec, List.map_ofFn, List.sum_ofFn, Function.comp_def]
  · rw [← Finset.sum_div, div_self hs.ne']

/-- **C27** The integrand is the maximum of the two affine pieces, for all `eta >= 0` and `alpha > 0`. -/
theorem C27_pieces (eta alpha r tau : ℝ) (he : 0 ≤ eta) (ha : 0 < alpha) :
    -r + eta * (tau + max 0 (-r - tau) / alpha) = meanCVaR eta alpha r tau := by
  unfold meanCVaR
  have e : (-1 - eta / alpha) * r + eta * (1 - 1 / alpha) * tau = -r + eta * tau + eta * ((-r - tau) / alpha) := by
    field_simp; ring
  rw [e]
  rcases le_total (-r - tau) 0 with h | h
  · rw [max_eq_left h, max_eq_left]
    · ring
    · have : eta * ((-r - tau) / alpha) ≤ 0 := mul_nonpos_of_nonneg_of_nonpos he (div_nonpos_of_nonpos_of_nonneg h ha.le)
      linarith
  · rw [max_eq_right h, max_eq_right]
    · ring
    · have : 0 ≤ eta * ((-r - tau) / alpha) := mul_nonneg he (div_nonneg h ha.le)
      linarith

/-- **C27** On every batch the portfolio loss returns, for each sample of asset returns, the mean-CVaR integrand at the return of the
portfolio. -/
theorem C27_batch {d : ℕ} (hd : 0 < d) (a : Fin d → ℝ) (tau eta alpha : ℝ) (he : 0 ≤ eta) (ha : 0 < alpha) {xi : Tensor ℝ} {b : List ℕ}
    {X : List ℕ → Fin d → ℝ} (hx : HasRows xi b X) : ∃ w : Fin d → ℝ, InSimplex w ∧
      (⟨List.ofFn a, tau, eta, alpha⟩ : Portfolio).weights = List.ofFn w ∧
      Returns ((⟨List.ofFn a, tau, eta, alpha⟩ : Portfolio).forward xi)
        (fun t => HasRows t b (fun i (_ : Fin 1) => meanCVaR eta alpha (∑ k, w k * X i k) tau)) := by
  obtain ⟨w, hw, hsim, -⟩ := C27_weights hd a tau eta alpha
  refine ⟨w, hsim, hw, ?_⟩
  obtain ⟨s, hs1, hs2⟩ := lin_apply w none hx
  have m1 : HasRows (s.map fun r => -r) b (fun i (_ : Fin 1) => -(∑ k, w k * X i k)) := by
    refine ⟨hs2.1, fun i hi k => ?_⟩
    simp only [Tensor.map, hs2.2 i hi k, score, Option.getD_none, add_zero]
  have m2 : HasRows (s.map fun r => tau + max 0 (-r - tau) / alpha) b
      (fun i (_ : Fin 1) => tau + max 0 (-(∑ k, w k * X i k) - tau) / alpha) := by
    refine ⟨hs2.1, fun i hi k => ?_⟩
    simp only [Tensor.map, hs2.2 i hi k, score, Option.getD_none, add_zero]
  obtain ⟨c, hc1, hc2⟩ := zip_rows (f := fun a c => a + eta * c) m1 m2
  refine ⟨c, ?_, ?_⟩
  · simp only [Portfolio.forward, hw, hs1, ok_bind]
    exact hc1
  · simpa only [C27_pieces eta alpha _ tau he ha] using hc2

/-- **C27** The loss is non-increasing in the return and convex in the return and the threshold together. -/
theorem C27_monotone_convex (eta alpha : ℝ) (he : 0 ≤ eta) (ha : 0 < alpha) :
    (∀ r r' tau, r ≤ r' → meanCVaR eta alpha r' tau ≤ meanCVaR eta alpha r tau) ∧
    ∀ r r' tau tau' s t : ℝ, 0 ≤ s → 0 ≤ t → s + t = 1 →
      meanCVaR eta alpha (s * r + t * r') (s * tau + t * tau') ≤ s * meanCVaR eta alpha r tau + t * meanCVaR eta alpha r' tau' := by
  constructor
  · intro r r' tau h
    unfold meanCVaR
    have h1 : 0 ≤ eta / alpha := div_nonneg he ha.le
    apply max_le_max
    · linarith
    · nlinarith
  · intro r r' tau tau' s t hs ht _
    unfold meanCVaR
    apply max_le
    · have a1 := mul_le_mul_of_nonneg_left (le_max_left (-r + eta * tau) ((-1 - eta / alpha) * r + eta * (1 - 1 / alpha) * tau)) hs
      have a2 := mul_le_mul_of_nonneg_left (le_max_left (-r' + eta * tau') ((-1 - eta / alpha) * r' + eta * (1 - 1 / alpha) * tau')) ht
      nlinarith
    · have a1 := mul_le_mul_of_nonneg_left (le_max_right (-r + eta * tau) ((-1 - eta / alpha) * r + eta * (1 - 1 / alpha) * tau)) hs
      have a2 := mul_le_mul_of_nonneg_left (le_max_right (-r' + eta * tau') ((-1 - eta / alpha) * r' + eta * (1 - 1 / alpha) * tau')) ht
      nlinarith

/-- three assets, risk parameters 2 and 1/10 -/
example (a : Fin 3 → ℝ) (tau : ℝ) := C27_weights (by norm_num) a tau 2 (1 / 10)
example (r tau : ℝ) := C27_pieces 2 (1 / 10) r tau (by norm_num) (by norm_num)
example (a : Fin 3 → ℝ) (tau : ℝ) (X : Fin 5 → Fin 3 → ℝ) := C27_batch (b := [5]) (by norm_num) a tau 2 (1 / 10) (by norm_num) (by norm_num) (xi := mat X)
  (X := fun i k => (mat X).get (i ++ [k.1])) ⟨rfl, fun _ _ _ => rfl⟩
example := C27_monotone_convex 2 (1 / 10) (by norm_num) (by norm_num)

end C27

section C28

theorem bcast_param (b : List ℕ) (d : ℕ) : bcastShape [1] (b ++ [d]) = some (b ++ [d]) := by
  simp only [bcastShape, List.reverse_append, List.reverse_singleton, List.singleton_append, bcastRev]
  by_cases h : d = 1
  · subst h; simp
  · simp [h, Ne.symm h]

theorem zip_param {f : ℝ → ℝ → ℝ} (x : ℝ) {t : Tensor ℝ} {b : List ℕ} {d : ℕ} {F : List ℕ → Fin d → ℝ} (h : HasRows t b F) :
    ∃ c, Tensor.zipWith f (param1 x) t = .ok c ∧ HasRows c b (fun i k => f x (F i k)) := by
  refine ⟨⟨b ++ [d], fun i => f x (t.get (proj t.shape i))⟩, ?_, rfl, fun i hi k => ?_⟩
  · unfold Tensor.zipWith
    rw [h.1]
    have : (param1 x).shape = [1] := rfl
    rw [this, bcast_param]
    rfl
  · simp only [h.1, proj_self (inShape_concat hi k.2), h.2 i hi k]

theorem map_rows {f : ℝ → ℝ} {t : Tensor ℝ} {b : List ℕ} {d : ℕ} {F : List ℕ → Fin d → ℝ} (h : HasRows t b F) :
    HasRows (t.map f) b (fun i k => f (F i k)) :=
  ⟨h.1, fun i hi k => by simp only [Tensor.map, h.2 i hi k]⟩

theorem map_param (f : ℝ → ℝ) (x : ℝ) : (param1 x).map f = param1 (f x) := rfl

/-- **C28** (violated) `NewsVendorLoss_torch` refuses unlabelled demand: every evaluation without labels fails. -/
theorem C28_unlabelled_false (k u theta : ℝ) (l2 : Option ℝ) (xi : Tensor ℝ) :
    newsvendorTorch k u theta l2 xi none = .error .assertionError := rfl

/-- **C28** (what holds) With any labels whatsoever, which are ignored, it returns the newsvendor loss averaged over the products
(exactly the newsvendor loss for one product); the regularisation weight is ignored too. -/
theorem C28_labelled_partial {d : ℕ} (k u theta : ℝ) (l2 : Option ℝ) {xi : Tensor ℝ} (y : Tensor ℝ) {b : List ℕ} {X : List ℕ → Fin d → ℝ}
    (hd : 0 < d) (hx : HasRows xi b X) : Returns (newsvendorTorch k u theta l2 xi (some y))
      (fun t => HasRows t b (fun i (_ : Fin 1) => avg fun j => newsvendor k u theta (X i j))) := by
  obtain ⟨m, hm1, hm2⟩ := zip_param (f := min) theta hx
  have hmean := map_rows (f := (u * ·)) (HasRows.reduce hm2 listMean)
  obtain ⟨c, hc1, hc2⟩ := zip_param (f := (· - ·)) (k * theta) hmean
  refine ⟨c, ?_, ?_⟩
  · simp only [newsvendorTorch, hm1, ok_bind, map_param]
    exact hc1
  · have hd' : (d : ℝ) ≠ 0 := by positivity
    have e : ∀ x : Fin d → ℝ, k * theta - u * listMean (List.ofFn fun j => min theta (x j)) = avg fun j => newsvendor k u theta (x j) := by
      intro x
      simp only [listMean, List.sum_ofFn, List.length_ofFn, avg, newsvendor, Finset.sum_sub_distrib, Finset.sum_const,
        Finset.card_univ, Fintype.card_fin, nsmul_eq_mul, ← Finset.mul_sum]
      field_simp
    simpa only [e] using hc2

/-- **C28** The loss used by the `NewsVendor` estimator does evaluate on unlabelled demand, on every batch: the average over products
of `k * theta - u * min(theta, x)`. -/
theorem C28_estimator_partial {d : ℕ} (k u theta : ℝ) {xi : Tensor ℝ} {b : List ℕ} {X : List ℕ → Fin d → ℝ} (hx : HasRows xi b X) :
    Returns (newsvendorCustom k u theta xi) (fun t => HasRows t b (fun i (_ : Fin 1) => avg fun j => newsvendor k u theta (X i j))) := by
  obtain ⟨m, hm1, hm2⟩ := zip_param (f := min) theta hx
  obtain ⟨c, hc1, hc2⟩ := zip_param (f := (· - ·)) (k * theta) (map_rows (f := (u * ·)) hm2)
  refine ⟨c.meanLast, ?_, ?_⟩
  · simp only [newsvendorCustom, hm1, ok_bind, map_param, hc1]
  · have := HasRows.reduce hc2 listMean
    rw [meanLast]
    simpa only [listMean, List.sum_ofFn, List.length_ofFn, avg, newsvendor] using this

/-- **C28** For one product this is the newsvendor loss itself. -/
theorem C28_one_product_partial (k u theta : ℝ) {xi : Tensor ℝ} {b : List ℕ} {X : List ℕ → ℝ}
    (hx : HasRows xi b (fun i (_ : Fin 1) => X i)) :
    Returns (newsvendorCustom k u theta xi) (fun t => HasRows t b (fun i (_ : Fin 1) => newsvendor k u theta (X i))) := by
  simpa only [avg, Finset.univ_unique, Finset.sum_const, Finset.card_singleton, one_smul, Nat.cast_one, div_one] using
    C28_estimator_partial k u theta hx

/-- two samples of three demands, or of one -/
example (k u theta : ℝ) (y : Tensor ℝ) (X : Fin 2 → Fin 3 → ℝ) := C28_labelled_partial (b := [2]) k u theta none (xi := mat X) y
  (X := fun i k => (mat X).get (i ++ [k.1])) (by norm_num) ⟨rfl, fun _ _ _ => rfl⟩
example (k u theta : ℝ) (X : Fin 2 → Fin 3 → ℝ) := C28_estimator_partial (b := [2]) k u theta (xi := mat X)
  (X := fun i k => (mat X).get (i ++ [k.1])) ⟨rfl, fun _ _ _ => rfl⟩
example (k u theta : ℝ) (X : Fin 2 → Fin 1 → ℝ) := C28_one_product_partial (b := [2]) k u theta (xi := mat X)
  (X := fun i => (mat X).get (i ++ [0])) ⟨rfl, fun i _ k => by rw [Fin.fin_one_eq_zero k]; rfl⟩

end C28

section C74

/-- **C74** The Weber loss of locations `x_r` with weights `y_r` is the weight times the distance to the facility. -/
theorem C74_weber {N d : ℕ} (pos : Fin d → ℝ) {xi y : Tensor ℝ} {X : Fin N → Fin d → ℝ} {Y : Fin N → ℝ} (hx : IsMat xi X)
    (hy : IsMat y (fun r (_ : Fin 1) => Y r)) :
    Returns (weberForward (List.ofFn pos) xi y) (fun t => IsMat t (fun r (_ : Fin 1) => Y r * dist2 (X r) pos)) := by
  have hp : Is (⟨[1, (List.ofFn pos).length], fun i => (List.ofFn pos).getD (i.getLastD 0) 0⟩ : Tensor ℝ) [1, d]
      (fun i => (List.ofFn pos).getD (i.getLastD 0) 0) := ⟨by simp, fun _ _ => rfl⟩
  obtain ⟨diff, hd1, hd2⟩ := Is.zipWith_right (f := (· - ·)) hx.is hp
  have hdist := hd2.reduceLast (s := [N]) (d := d) (f := fun row => Real.sqrt ((row.map fun z => z ^ 2).sum))
  obtain ⟨v, hv1, hv2⟩ := Is.zipWith_same (f := (· * ·)) hy.is hdist
  refine ⟨v.map fun a => a * ((1 : ℕ) : ℝ), ?_, hv2.1, fun r c => ?_⟩
  · simp only [weberForward, hd1, ok_bind, hy.1, hv1]
  · have hin : InShape [r.1, c.1] [N, 1] := List.Forall₂.cons r.2 (List.Forall₂.cons c.2 List.Forall₂.nil)
    simp only [Tensor.map]
    have e := hv2.2 _ hin
    rw [e]
    beta_reduce
    rw [ix2_apply]
    simp only [Nat.cast_one, mul_one, dist2, List.dropLast_cons_cons, List.dropLast_singleton, List.map_map]
    rw [sum_range_fin]
    congr 2
    refine Finset.sum_congr rfl fun k _ => ?_
    have := ix2_apply X r k
    simp [Function.comp, this]

/-- **C74** Weber losses are non-negative for non-negative weights, vanish at the facility, and are convex in its position. -/
theorem C74_shape {d : ℕ} (w : ℝ) (hw : 0 ≤ w) (x : Fin d → ℝ) :
    (∀ p, 0 ≤ w * dist2 x p) ∧ w * dist2 x x = 0 ∧ (0 < w → ∀ p, w * dist2 x p = 0 → p = x) ∧
      ConvexOn ℝ Set.univ (fun p => w * dist2 x p) := by
  refine ⟨fun p => mul_nonneg hw (Real.sqrt_nonneg _), by simp [dist2], fun hw p h => ?_, ?_⟩
  swap
  · have hd : ∀ p, dist2 x p = ‖(WithLp.toLp 2 x : EuclideanSpace ℝ (Fin d)) - WithLp.toLp 2 p‖ := by
      intro p
      rw [EuclideanSpace.norm_eq]
      simp [dist2, sq_abs]
    refine ⟨convex_univ, fun p _ q _ a b ha hb hab => ?_⟩
    simp only [hd, smul_eq_mul]
    have e : (WithLp.toLp 2 x : EuclideanSpace ℝ (Fin d)) - WithLp.toLp 2 (a • p + b • q) =
        a • (WithLp.toLp 2 x - WithLp.toLp 2 p) + b • (WithLp.toLp 2 x - WithLp.toLp 2 q) := by
      have hx : (WithLp.toLp 2 x : EuclideanSpace ℝ (Fin d)) = a • WithLp.toLp 2 x + b • WithLp.toLp 2 x := by rw [← add_smul, hab, one_smul]
      rw [smul_sub, smul_sub, WithLp.toLp_add, WithLp.toLp_smul, WithLp.toLp_smul]
      nth_rw 1 [hx]
      abel
    rw [e]
    have h1 := norm_add_le (a • ((WithLp.toLp 2 x : EuclideanSpace ℝ (Fin d)) - WithLp.toLp 2 p)) (b • (WithLp.toLp 2 x - WithLp.toLp 2 q))
    rw [norm_smul, norm_smul, Real.norm_of_nonneg ha, Real.norm_of_nonneg hb] at h1
    nlinarith [mul_le_mul_of_nonneg_left h1 hw]
  rcases mul_eq_zero.1 h with h | h
  · exact absurd h hw.ne'
  · unfold dist2 at h
    rw [Real.sqrt_eq_zero (Finset.sum_nonneg fun k _ => sq_nonneg _), Finset.sum_eq_zero_iff_of_nonneg (fun k _ => sq_nonneg _)] at h
    funext k
    have := h k (Finset.mem_univ k)
    rw [sq_eq_zero_iff, sub_eq_zero] at this
    exact this.symm

/-- **C74** flat weights are refused -/
theorem C74_flat_refused {N d : ℕ} (pos : Fin d → ℝ) {xi y : Tensor ℝ} {X : Fin N → Fin d → ℝ} {Y : Fin N → ℝ} (hx : IsMat xi X)
    (hy : IsVec y Y) : weberForward (List.ofFn pos) xi y = .error .indexError := by
  have hp : Is (⟨[1, (List.ofFn pos).length], fun i => (List.ofFn pos).getD (i.getLastD 0) 0⟩ : Tensor ℝ) [1, d]
      (fun i => (List.ofFn pos).getD (i.getLastD 0) 0) := ⟨by simp, fun _ _ => rfl⟩
  obtain ⟨diff, hd1, hd2⟩ := Is.zipWith_right (f := (· - ·)) hx.is hp
  simp only [weberForward, hd1, ok_bind, hy.1]

/-- two points of the plane with their weights -/
example (pos : Fin 2 → ℝ) (X : Fin 2 → Fin 2 → ℝ) (Y : Fin 2 → ℝ) := C74_weber pos (isMat_mat X) (isMat_mat fun r (_ : Fin 1) => Y r)
example (x : Fin 2 → ℝ) := C74_shape 3 (by norm_num) x
example (pos : Fin 2 → ℝ) (X : Fin 2 → Fin 2 → ℝ) (Y : Fin 2 → ℝ) := C74_flat_refused pos (isMat_mat X) (isVec_vec Y)

end C74

section C75

/-- rows of a matrix, by index -/
def rowsOf {N d : ℕ} (X : Fin N → Fin d → ℝ) (i : List ℕ) : Fin d → ℝ := if h : i.headD 0 < N then X ⟨i.headD 0, h⟩ else 0
theorem rowsOf_apply {N d : ℕ} (X : Fin N → Fin d → ℝ) (r : Fin N) : rowsOf X [r.1] = X r := by simp [rowsOf]
theorem hasRows_of_isMat {N d : ℕ} {xi : Tensor ℝ} {X : Fin N → Fin d → ℝ} (hx : IsMat xi X) : HasRows xi [N] (rowsOf X) := by
  refine ⟨hx.1, fun i hi k => ?_⟩
  rcases hi with _ | ⟨h1, hi⟩
  cases hi
  rename_i r
  have := rowsOf_apply X ⟨r, h1⟩
  simp only at this
  rw [this]
  exact hx.2 ⟨r, h1⟩ k

/-- **C75** (what holds) With labels as a column the quadratic loss returns one squared error per sample, plus the ridge penalty, on
every batch. -/
theorem C75_column_partial {d : ℕ} (w : Fin d → ℝ) (bias l2 : Option ℝ) {xi y : Tensor ℝ} {b : List ℕ} {X : List ℕ → Fin d → ℝ}
    {Y : List ℕ → ℝ} (hx : HasRows xi b X) (hy : HasRows y b (fun i (_ : Fin 1) => Y i)) :
    Returns ((⟨⟨List.ofFn w, bias⟩, l2⟩ : LinLoss).quadratic xi (some y))
      (fun t => HasRows t b (fun i (_ : Fin 1) => (score w bias (X i) - Y i) ^ 2 + ridge l2 (List.ofFn w))) := by
  obtain ⟨s, hs1, hs2⟩ := lin_apply w bias hx
  obtain ⟨c, hc1, hc2⟩ := zip_rows (f := fun s t => (s - t) ^ 2) hs2 hy
  refine ⟨regularizeWith l2 (List.ofFn w) c, ?_, regularizeWith_rows l2 _ hc2⟩
  simp only [LinLoss.quadratic, hs1, ok_bind, hc1]

/-- **C75** (violated) With flat labels, `n >= 2` samples give an `n x n` table of losses: entry `(r, c)` compares the prediction of
sample `r` with the label of sample `c`. -/
theorem C75_flat_false {N d : ℕ} (hN : 2 ≤ N) (w : Fin d → ℝ) (bias : Option ℝ) {xi y : Tensor ℝ} {X : Fin N → Fin d → ℝ} {Y : Fin N → ℝ}
    (hx : IsMat xi X) (hy : IsVec y Y) :
    Returns ((⟨⟨List.ofFn w, bias⟩, none⟩ : LinLoss).quadratic xi (some y))
      (fun t => IsMat t (fun r (c : Fin N) => (score w bias (X r) - Y c) ^ 2)) := by
  obtain ⟨s, hs1, hs2⟩ := lin_apply w bias (hasRows_of_isMat hx)
  have hb : bcastShape [N, 1] [N] = some [N, N] := by
    simp [bcastShape, bcastRev, show (1 : ℕ) ≠ N by omega, show N ≠ 1 by omega]
  refine ⟨⟨[N, N], fun i => (s.get (proj s.shape i) - y.get (proj y.shape i)) ^ 2⟩, ?_, rfl, fun r c => ?_⟩
  · simp only [LinLoss.quadratic, hs1, ok_bind, Tensor.zipWith, hs2.1, hy.1]
    simp only [List.cons_append, List.nil_append, hb, ok_bind]
    rfl
  · have hr := hs2.2 [r.1] (List.Forall₂.cons r.2 List.Forall₂.nil) 0
    simp only [rowsOf_apply, Fin.val_zero, List.cons_append, List.nil_append] at hr
    have hN1 : N ≠ 1 := by omega
    simp only [hs2.1, hy.1, List.cons_append, List.nil_append, proj, List.reverse_cons, List.reverse_nil, projRev, hN1, if_false,
      if_true, hr, hy.2 c]

/-- two samples with three features, labels in a column or flat -/
example (w : Fin 3 → ℝ) (bias l2 : Option ℝ) (X : Fin 2 → Fin 3 → ℝ) (Y : Fin 2 → Fin 1 → ℝ) := C75_column_partial (b := [2]) w bias l2
  (Y := fun i => (mat Y).get (i ++ [0])) (xi := mat X) (X := fun i k => (mat X).get (i ++ [k.1])) (y := mat Y) ⟨rfl, fun _ _ _ => rfl⟩
  ⟨rfl, fun i _ k => by rw [Fin.fin_one_eq_zero k]; rfl⟩
example (w : Fin 3 → ℝ) (bias : Option ℝ) (X : Fin 2 → Fin 3 → ℝ) (Y : Fin 2 → ℝ) := C75_flat_false le_rfl w bias (isMat_mat X) (isVec_vec Y)

end C75

section examples

/-- non-vacuity: a batch of two samples with three features, with a column of labels and with flat labels -/
example : HasRows (mat fun (i : Fin 2) (k : Fin 3) => (i : ℝ) + k) [2] (fun i (k : Fin 3) => (i.headD 0 : ℝ) + k) ∧
    HasRows (mat fun (i : Fin 2) (_ : Fin 1) => (i : ℝ)) [2] (fun i (_ : Fin 1) => (i.headD 0 : ℝ)) ∧
    IsVec (vec fun i : Fin 2 => (i : ℝ)) (fun i : Fin 2 => (i : ℝ)) := by
  refine ⟨⟨rfl, ?_⟩, ⟨rfl, ?_⟩, isVec_vec _⟩ <;>
  · intro i hi k
    rcases hi with _ | ⟨h1, hi⟩
    cases hi
    simp [mat, h1, k.2]
    try omega

end examples
end Skwdro
