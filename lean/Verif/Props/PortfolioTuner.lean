import Verif.Props.RhoTuners
import Mathlib.Analysis.Calculus.Deriv.Abs

/-! # C82-C85: the statistical radius tuners -/

namespace Skwdro
open Spec

/-! ## C82 generic tuner -/

/-- **C82** is false: fitting the generic statistical tuner fails for every estimator of the package, solver and data. When the first fit succeeds the failure
is an AttributeError; the radius chosen by the user has been overwritten. -/
theorem C82_false {F : Type} (e : EstKind) (P : EstParams) (inner : EstParams → Except PyErr F) (rest : EstParams → F → EstParams × Except PyErr F) :
    (∃ x, (blanchetFit e P inner rest).2 = .error x) ∧
    (∀ r f, route e P.solver = .ok r → inner { P with rho := firstRadius P.solver } = .ok f → (blanchetFit e P inner rest).2 = .error .attributeError) ∧
    (blanchetFit e P inner rest).1 = { P with rho := firstRadius P.solver } := by
  have hno : ∀ r, "problem_".toList ∉ fitAttrs e r := by
    intro r
    rcases r with _ | (_ | _) <;> cases e <;> decide
  unfold blanchetFit
  dsimp only
  cases hr : route e P.solver with
  | error x => exact ⟨⟨x, rfl⟩, by simp, rfl⟩
  | ok r =>
    cases hi : inner { P with rho := firstRadius P.solver } with
    | error x => exact ⟨⟨x, rfl⟩, by simp, rfl⟩
    | ok f =>
      simp only [if_neg (hno r)]
      exact ⟨⟨_, rfl⟩, fun _ _ _ _ => trivial, trivial⟩

/-! ## Indicator -/

variable {n m : ℕ}

theorem listT_ofFn_get {k : ℕ} (w : Fin k → ℝ) (j : Fin k) : (listT (List.ofFn w)).get [j.1] = w j := by
  simp [listT]

theorem indicator_eq {f : Fitted m} {w : Fin m → ℝ} {tau : ℝ} (ht : f.tau = some (listT [tau])) (xi : Fin m → ℝ) :
    indicatorFunc f (listT (List.ofFn w)) xi =
      if (∑ j, w j * xi j) + tau = 0 then .error .assertionError else .ok (if tau < -∑ j, w j * xi j then 1 else 0) := by
  unfold indicatorFunc
  rw [ht]
  dsimp only
  simp only [listT_ofFn_get]
  have e : (listT [tau]).get [0] = tau := by simp [listT]
  rw [e]
  set s := (∑ j, w j * xi j) + tau with hs
  rcases lt_trichotomy s 0 with h | h | h
  · have h1 : SignType.sign (-s) = 1 := sign_pos (by linarith)
    rw [h1, if_neg (by decide), if_neg h.ne, if_pos rfl, if_pos (by rw [hs] at h; linarith)]
  · rw [h]
    simp
  · have h1 : SignType.sign (-s) = -1 := sign_neg (by linarith)
    rw [h1, if_neg (by decide), if_neg h.ne', if_neg (by decide), if_neg (by rw [hs] at h; linarith)]

/-! ## C84 gradient -/

/-- indicator of a loss above the threshold -/
noncomputable def above (tau s : ℝ) : ℝ := if tau < -s then 1 else 0

/-- affine function of weights and threshold as a continuous linear map -/
noncomputable def affL (m : ℕ) (a b : ℝ) (xi : Fin m → ℝ) : ((Fin m → ℝ) × ℝ) →L[ℝ] ℝ :=
  (∑ j, (a * xi j) • ((ContinuousLinearMap.proj j).comp (ContinuousLinearMap.fst ℝ (Fin m → ℝ) ℝ))) + b • ContinuousLinearMap.snd ℝ (Fin m → ℝ) ℝ

theorem affL_apply (a b : ℝ) (xi : Fin m → ℝ) (v : (Fin m → ℝ) × ℝ) : affL m a b xi v = a * (∑ j, v.1 j * xi j) + b * v.2 := by
  simp only [affL, ContinuousLinearMap.add_apply, ContinuousLinearMap.sum_apply, ContinuousLinearMap.smul_apply, ContinuousLinearMap.comp_apply,
    ContinuousLinearMap.proj_apply, ContinuousLinearMap.coe_fst', ContinuousLinearMap.coe_snd', smul_eq_mul, Finset.mul_sum]
  congr 1
  exact Finset.sum_congr rfl fun j _ => by ring

theorem meanCVaR_pieces {eta alpha r tau : ℝ} (he : 0 ≤ eta) (ha : 0 < alpha) :
    (0 ≤ r + tau → meanCVaR eta alpha r tau = -r + eta * tau) ∧
    (r + tau ≤ 0 → meanCVaR eta alpha r tau = (-1 - eta / alpha) * r + eta * (1 - 1 / alpha) * tau) := by
  have hc : 0 ≤ eta / alpha := by positivity
  have e : (-1 - eta / alpha) * r + eta * (1 - 1 / alpha) * tau = -r + eta * tau - eta / alpha * (r + tau) := by ring
  constructor
  · intro h
    exact max_eq_left (by rw [e]; nlinarith [mul_nonneg hc h])
  · intro h
    exact max_eq_right (by rw [e]; nlinarith [mul_nonneg hc (neg_nonneg.2 h)])

theorem continuous_margin (xi : Fin m → ℝ) : Continuous fun v : (Fin m → ℝ) × ℝ => (∑ j, v.1 j * xi j) + v.2 := by fun_prop

/-- **C84** Away from kinks, the vector computed for a sample is the gradient of the portfolio loss in the weights and the threshold at the fitted values. -/
theorem C84_gradient {P : EstParams} (he : 0 ≤ P.eta) (ha : 0 < P.alpha) {f : Fitted m} {w : Fin m → ℝ} {tau : ℝ} (ht : f.tau = some (listT [tau]))
    (xi : Fin m → ℝ) (hk : (∑ j, w j * xi j) + tau ≠ 0) :
    ∃ (h : Fin m → ℝ) (h' : ℝ) (L : ((Fin m → ℝ) × ℝ) →L[ℝ] ℝ), computeH P f (listT (List.ofFn w)) xi = .ok (List.ofFn h ++ [h']) ∧
      (∀ v, L v = (∑ j, h j * v.1 j) + h' * v.2) ∧
      HasFDerivAt (fun v : (Fin m → ℝ) × ℝ => meanCVaR P.eta P.alpha (∑ j, v.1 j * xi j) v.2) L (w, tau) := by
  have hcomp : ∀ ind : ℝ, indicatorFunc f (listT (List.ofFn w)) xi = .ok ind →
      computeH P f (listT (List.ofFn w)) xi =
        .ok (List.ofFn (fun j => (-1 - P.eta / P.alpha * ind) * xi j) ++ [P.eta * (1 - ind / P.alpha)]) := by
    intro ind h
    unfold computeH
    rw [h, ok_bind, List.zipWith_append (by simp)]
    congr 2
    · apply List.ext_getElem <;> simp
      intro i hi
      ring
    · simp only [List.zipWith_cons_cons, List.zipWith_nil_left]
      congr 1
      ring
  have hL : ∀ a b : ℝ, ∀ v : (Fin m → ℝ) × ℝ, affL m a b xi v = (∑ j, (a * xi j) * v.1 j) + b * v.2 := by
    intro a b v
    rw [affL_apply, Finset.mul_sum]
    congr 1
    exact Finset.sum_congr rfl fun j _ => by ring
  rcases lt_or_gt_of_ne hk with h | h
  · refine ⟨_, _, affL m (-1 - P.eta / P.alpha * 1) (P.eta * (1 - 1 / P.alpha)) xi, hcomp 1 ?_, hL _ _, ?_⟩
    · rw [indicator_eq ht, if_neg hk, if_pos (by linarith)]
    · refine (affL m (-1 - P.eta / P.alpha * 1) (P.eta * (1 - 1 / P.alpha)) xi).hasFDerivAt.congr_of_eventuallyEq ?_
      filter_upwards [(continuous_margin xi).continuousAt.eventually (gt_mem_nhds h)] with v hv
      rw [(meanCVaR_pieces he ha).2 hv.le, affL_apply, mul_one]
  · refine ⟨_, _, affL m (-1 - P.eta / P.alpha * 0) (P.eta * (1 - 0 / P.alpha)) xi, hcomp 0 ?_, hL _ _, ?_⟩
    · rw [indicator_eq ht, if_neg hk, if_neg (by linarith)]
    · refine (affL m (-1 - P.eta / P.alpha * 0) (P.eta * (1 - 0 / P.alpha)) xi).hasFDerivAt.congr_of_eventuallyEq ?_
      filter_upwards [(continuous_margin xi).continuousAt.eventually (lt_mem_nhds h)] with v hv
      rw [(meanCVaR_pieces he ha).1 hv.le, affL_apply]
      ring

/-- **C84** (partial: with a risk term, see `C84_no_risk_false`) Where the computation refuses a sample, the loss is indeed not differentiable. -/
theorem C84_kink_partial {P : EstParams} (he : 0 < P.eta) (ha : 0 < P.alpha) {f : Fitted m} {w : Fin m → ℝ} {tau : ℝ} (ht : f.tau = some (listT [tau]))
    (xi : Fin m → ℝ) (hk : (∑ j, w j * xi j) + tau = 0) :
    computeH P f (listT (List.ofFn w)) xi = .error .assertionError ∧
      ¬DifferentiableAt ℝ (fun v : (Fin m → ℝ) × ℝ => meanCVaR P.eta P.alpha (∑ j, v.1 j * xi j) v.2) (w, tau) := by
  refine ⟨by unfold computeH; rw [indicator_eq ht, if_pos hk]; rfl, fun hd => ?_⟩
  set r := ∑ j, w j * xi j with hr
  have hline : DifferentiableAt ℝ (fun t : ℝ => ((w, tau + t) : (Fin m → ℝ) × ℝ)) 0 := by fun_prop
  have hd' : DifferentiableAt ℝ (fun v : (Fin m → ℝ) × ℝ => meanCVaR P.eta P.alpha (∑ j, v.1 j * xi j) v.2) ((fun t : ℝ => ((w, tau + t) : (Fin m → ℝ) × ℝ)) 0) := by
    simpa using hd
  have h1 : DifferentiableAt ℝ (fun t : ℝ => meanCVaR P.eta P.alpha r (tau + t)) 0 := by
    have := hd'.comp (0 : ℝ) hline
    exact this
  have h2 : (fun t : ℝ => |t|) = fun t => 2 * P.alpha / P.eta * (meanCVaR P.eta P.alpha r (tau + t) - (-r + P.eta * (tau + t))) + t := by
    funext t
    rcases le_total 0 t with h | h
    · rw [(meanCVaR_pieces he.le ha).1 (by linarith), abs_of_nonneg h]; ring
    · rw [(meanCVaR_pieces he.le ha).2 (by linarith), abs_of_nonpos h]
      have : r = -tau := by linarith
      rw [this]
      field_simp
      ring
  apply not_differentiableAt_abs_zero
  show DifferentiableAt ℝ (fun t : ℝ => |t|) 0
  rw [h2]
  exact ((h1.sub (by fun_prop)).const_mul _).add differentiableAt_id

/-- **C84** (violated) Without risk term (`eta = 0`, the default) the portfolio loss is linear in the weights, hence differentiable everywhere,
but samples whose return is minus the threshold are refused all the same. -/
theorem C84_no_risk_false {P : EstParams} (he : P.eta = 0) {f : Fitted m} {w : Fin m → ℝ} {tau : ℝ} (ht : f.tau = some (listT [tau]))
    (xi : Fin m → ℝ) (hk : (∑ j, w j * xi j) + tau = 0) :
    computeH P f (listT (List.ofFn w)) xi = .error .assertionError ∧
      ∀ v, DifferentiableAt ℝ (fun v : (Fin m → ℝ) × ℝ => meanCVaR P.eta P.alpha (∑ j, v.1 j * xi j) v.2) v := by
  refine ⟨by unfold computeH; rw [indicator_eq ht, if_pos hk]; rfl, fun v => ?_⟩
  have e : (fun v : (Fin m → ℝ) × ℝ => meanCVaR P.eta P.alpha (∑ j, v.1 j * xi j) v.2) = fun v => -∑ j, v.1 j * xi j := by
    funext v
    simp [meanCVaR, he]
  rw [e]
  fun_prop

/-- two assets, one sample below the threshold and one above -/
example : (∑ j, (fun _ : Fin 2 => (1 / 2 : ℝ)) j * (fun _ : Fin 2 => (3 : ℝ)) j) + 1 ≠ 0 ∧
    (∑ j, (fun _ : Fin 2 => (1 / 2 : ℝ)) j * (fun _ : Fin 2 => (-3 : ℝ)) j) + 3 = 0 := by
  norm_num

/-! ## C85 conjugate for portfolios -/

theorem mapM_ok_map {α β : Type} {F : α → Except PyErr β} {g : α → β} : ∀ {l : List α}, (∀ x ∈ l, F x = .ok (g x)) → l.mapM F = .ok (l.map g)
  | [], _ => rfl
  | x :: l, h => by
    rw [List.mapM_cons, h x List.mem_cons_self, ok_bind, mapM_ok_map fun y hy => h y (List.mem_cons_of_mem _ hy)]
    rfl

theorem mapM_one_error {α β : Type} {F : α → Except PyErr β} {e : PyErr} : ∀ {l : List α}, (∀ x ∈ l, (∃ y, F x = .ok y) ∨ F x = .error e) →
    (∃ x ∈ l, F x = .error e) → l.mapM F = .error e
  | [], _, h => by simp at h
  | x :: l, h1, h2 => by
    rw [List.mapM_cons]
    rcases h1 x List.mem_cons_self with ⟨y, hy⟩ | hx
    · rw [hy, ok_bind, mapM_one_error (fun z hz => h1 z (List.mem_cons_of_mem _ hz))]
      · rfl
      · obtain ⟨z, hz, hz'⟩ := h2
        rcases List.mem_cons.1 hz with rfl | hz
        · rw [hy] at hz'; cases hz'
        · exact ⟨z, hz, hz'⟩
    · rw [hx]; rfl

theorem pnorm_mul_abs {p : XNum ℝ} (hp : NormOrder p) (c : ℝ) (v : Fin m → ℝ) : pnorm p (fun j => c * v j) = |c| * pnorm p v := by
  rcases hp with ⟨q, hq, rfl⟩ | rfl
  · have h0 : 0 < q := by linarith
    have h1 : 0 ≤ ∑ i, |v i| ^ q := Finset.sum_nonneg fun i _ => Real.rpow_nonneg (abs_nonneg _) _
    simp only [pnorm, abs_mul, Real.mul_rpow (abs_nonneg _) (abs_nonneg _), ← Finset.mul_sum]
    rw [Real.mul_rpow (Real.rpow_nonneg (abs_nonneg _) _) h1, ← Real.rpow_mul (abs_nonneg _), mul_one_div_cancel h0.ne', Real.rpow_one]
  · simp only [pnorm, abs_mul]
    rw [Real.mul_iSup_of_nonneg (abs_nonneg _)]

theorem holder_attained_signed {p q : XNum ℝ} (h : Conj p q) (hm : 0 < m) (u : Fin m → ℝ) :
    ∃ v : Fin m → ℝ, pnorm p v ≤ 1 ∧ ∑ j, v j * u j = pnorm q u := by
  obtain ⟨v, hv, e⟩ := holder_attained h hm (fun j => |u j|) fun j => abs_nonneg _
  have hsg : ∀ j, |(if u j < 0 then (-1 : ℝ) else 1)| = 1 := fun j => by split_ifs <;> simp
  refine ⟨fun j => (if u j < 0 then -1 else 1) * v j, ?_, ?_⟩
  · have : pnorm p (fun j => (if u j < 0 then -1 else 1) * v j) = pnorm p v := by
      cases p <;> simp only [pnorm, abs_mul, hsg, one_mul]
    rw [this]; exact hv
  · have e2 : pnorm q (fun j => |u j|) = pnorm q u := by cases q <;> simp [pnorm]
    rw [← e2, ← e]
    refine Finset.sum_congr rfl fun j _ => ?_
    dsimp only
    split_ifs with hj
    · rw [abs_of_neg hj]; ring
    · rw [abs_of_nonneg (not_lt.1 hj)]; ring

/-- conjugate of a multiple of a squared norm -/
theorem conj_sq {p q : XNum ℝ} (h : Conj p q) (hm : 0 < m) {S : ℝ} (hS : 0 < S) (z : Fin m → ℝ) :
    IsLUB (Set.range fun a : Fin m → ℝ => (∑ j, a j * z j) - 1 / 4 * (S * pnorm p a ^ 2)) (pnorm q z ^ 2 / S) := by
  constructor
  · rintro _ ⟨a, rfl⟩
    have h1 : ∑ j, a j * z j ≤ pnorm q z * pnorm p a := by
      have := holder h z a
      simpa only [mul_comm] using this
    have h2 : pnorm q z ^ 2 / S - (pnorm q z * pnorm p a - 1 / 4 * (S * pnorm p a ^ 2)) = (pnorm q z - S * pnorm p a / 2) ^ 2 / S := by
      field_simp; ring
    have h3 : 0 ≤ (pnorm q z - S * pnorm p a / 2) ^ 2 / S := by positivity
    simp only
    linarith
  · intro b hb
    obtain ⟨v, hv, e⟩ := holder_attained_signed h hm z
    have hq := pnorm_nonneg q z
    have hc : 0 ≤ 2 * pnorm q z / S := by positivity
    have := hb ⟨fun j => 2 * pnorm q z / S * v j, rfl⟩
    simp only [mul_assoc (2 * pnorm q z / S), ← Finset.mul_sum, e, pnorm_mul_abs h.normOrder_left, abs_of_nonneg hc] at this
    have h4 : pnorm p v ^ 2 ≤ 1 := by nlinarith [pnorm_nonneg p v]
    have h5 : 2 * pnorm q z / S * pnorm q z - 1 / 4 * (S * (2 * pnorm q z / S * pnorm p v) ^ 2) =
        pnorm q z ^ 2 / S + pnorm q z ^ 2 / S * (1 - pnorm p v ^ 2) := by field_simp; ring
    rw [h5] at this
    have h6 : 0 ≤ pnorm q z ^ 2 / S * (1 - pnorm p v ^ 2) := mul_nonneg (by positivity) (by linarith)
    linarith

theorem phiStarPortfolio_eq {P : EstParams} {f : Fitted m} {w : Fin m → ℝ} {tau : ℝ} (ht : f.tau = some (listT [tau])) (q : XNum ℝ)
    (X : Fin n → Fin m → ℝ) (hk : ∀ k, (∑ j, w j * X k j) + tau ≠ 0) (z : List ℝ) :
    phiStarPortfolio P f q (listT (List.ofFn w)) X z =
      .ok ((n : ℝ) * vnorm q z ^ 2 / ∑ k, (1 + if tau < -∑ j, w j * X k j then P.eta / P.alpha else 0)) := by
  unfold phiStarPortfolio
  rw [mapM_ok_map (g := fun k => 1 + if tau < -∑ j, w j * X k j then P.eta / P.alpha else 0)]
  · rw [ok_bind, ← Fin.sum_univ_def]
  · intro k _
    rw [indicator_eq ht, if_neg (hk k), ok_bind]
    split_ifs <;> simp

/-- **C85** (partial: upper bound, see `C85_false`) The value computed for a portfolio is never below the documented conjugate, whatever the conjugate
norm orders, and equals it without risk term. -/
theorem C85_upper_partial {p q : XNum ℝ} (hpq : Conj p q) (hn : 0 < n) (hm : 0 < m) {P : EstParams} (he : 0 ≤ P.eta) (ha : 0 < P.alpha) {f : Fitted m}
    {w : Fin m → ℝ} {tau : ℝ} (ht : f.tau = some (listT [tau])) (X : Fin n → Fin m → ℝ) (hk : ∀ k, (∑ j, w j * X k j) + tau ≠ 0) (z : Fin m → ℝ) :
    ∃ v c, phiStarPortfolio P f q (listT (List.ofFn w)) X (List.ofFn z) = .ok v ∧
      IsLUB (Set.range fun a => (∑ j, a j * z j) - pfPhi p P.eta P.alpha w tau X a) c ∧ c ≤ v ∧ (P.eta = 0 → v = c) ∧
      (0 < P.eta → (∃ k, tau < -∑ j, w j * X k j) → (∃ j, z j ≠ 0) → c < v) := by
  have hn' : (0 : ℝ) < n := by exact_mod_cast hn
  have hc : 0 ≤ P.eta / P.alpha := by positivity
  set t : Fin n → ℝ := fun k => 1 + if tau < -∑ j, w j * X k j then P.eta / P.alpha else 0 with htdef
  have ht1 : ∀ k, 1 ≤ t k := fun k => by simp only [t]; split_ifs <;> linarith
  have hS1 : (n : ℝ) ≤ ∑ k, t k := by
    have := Finset.sum_le_sum fun (k : Fin n) (_ : k ∈ Finset.univ) => ht1 k
    simpa using this
  have hS12 : ∑ k, t k ≤ ∑ k, t k ^ 2 := Finset.sum_le_sum fun k _ => by nlinarith [ht1 k]
  have hS1p : 0 < ∑ k, t k := by linarith
  have hS2p : 0 < ∑ k, t k ^ 2 := by linarith
  refine ⟨_, pnorm q z ^ 2 / ((∑ k, t k ^ 2) / n), phiStarPortfolio_eq ht q X hk (List.ofFn z), ?_, ?_, ?_, ?_⟩
  · have := conj_sq hpq hm (S := (∑ k, t k ^ 2) / n) (by positivity) z
    convert this using 4 with a
    unfold pfPhi
    simp only [pnorm_mul_abs hpq.normOrder_left, mul_pow, sq_abs, neg_sq, ← Finset.sum_mul]
    congr 1
    ring
  · rw [vnorm_ofFn hpq.normOrder_right]
    rw [div_div_eq_mul_div, mul_comm]
    exact div_le_div_of_nonneg_left (by positivity) hS1p hS12
  · intro h0
    rw [vnorm_ofFn hpq.normOrder_right]
    have : ∀ k, t k = 1 := fun k => by simp [t, h0]
    have e1 : ∑ k, (1 + if tau < -∑ j, w j * X k j then P.eta / P.alpha else 0) = ∑ k, t k := rfl
    rw [e1]
    simp only [this]
    simp [hn'.ne']
  · rintro hep ⟨k, hk'⟩ ⟨j, hj⟩
    rw [vnorm_ofFn hpq.normOrder_right, div_div_eq_mul_div, mul_comm]
    have hz : 0 < pnorm q z := lt_of_le_of_ne (pnorm_nonneg _ _) fun h => hj ((pnorm_eq_zero hpq.normOrder_right z).1 h.symm j)
    have hcp : 0 < P.eta / P.alpha := by positivity
    have hlt : ∑ k, t k < ∑ k, t k ^ 2 := by
      refine Finset.sum_lt_sum (fun k _ => by nlinarith [ht1 k]) ⟨k, Finset.mem_univ k, ?_⟩
      have : t k = 1 + P.eta / P.alpha := by simp only [t]; rw [if_pos hk']
      nlinarith
    exact div_lt_div_of_pos_left (by positivity) hS1p hlt

/-- **C85** is false with a risk term: two samples, one asset, one loss above the threshold (`eta = alpha = 1`, Euclidean norms): the value returned for
`z = 1` is not the documented conjugate. -/
theorem C85_false : ∃ (P : EstParams) (f : Fitted 1) (w : Fin 1 → ℝ) (tau : ℝ) (X : Fin 2 → Fin 1 → ℝ) (z : Fin 1 → ℝ) (v c : ℝ), InSimplex w ∧
    P.eta = 1 ∧ P.alpha = 1 ∧ f.coef = some (listT (List.ofFn w)) ∧ f.tau = some (listT [tau]) ∧
    phiStarPortfolio P f (.fin 2) (listT (List.ofFn w)) X (List.ofFn z) = .ok v ∧
    IsLUB (Set.range fun a => (∑ j, a j * z j) - pfPhi (.fin 2) P.eta P.alpha w tau X a) c ∧ c ≠ v := by
  obtain ⟨v, c, h1, h2, -, -, h5⟩ := C85_upper_partial (n := 2) (m := 1) (p := .fin 2) (q := .fin 2)
    (P := { EstKind.portfolio.defaults with eta := 1, alpha := 1 }) (f := { coef := some (listT (List.ofFn fun _ : Fin 1 => (1 : ℝ))), tau := some (listT [0]) })
    (w := fun _ => 1) (tau := 0) (.inr (.inr ⟨2, 2, rfl, rfl, Real.HolderConjugate.two_two⟩)) (by norm_num) (by norm_num) (by norm_num) (by norm_num) rfl
    (fun k _ => if k = 0 then -1 else 1) (fun k => by fin_cases k <;> simp) (fun _ => 1)
  refine ⟨_, _, _, _, _, _, v, c, ⟨fun _ => zero_le_one, by simp⟩, rfl, rfl, rfl, rfl, h1, h2, ?_⟩
  exact (h5 one_pos ⟨0, by simp⟩ ⟨0, one_ne_zero⟩).ne

/-! ## C83 portfolio tuner -/

theorem getD_nonneg {l : List ℝ} (h : ∀ x ∈ l, 0 ≤ x) (i : ℕ) : 0 ≤ l.getD i 0 := by
  rw [List.getD_eq_getElem?_getD]
  cases hi : l[i]? with
  | none => simp
  | some x => exact h x (List.mem_of_getElem? hi)

/-- quantiles of non-negative numbers are non-negative -/
theorem npQuantile_nonneg {xs : List ℝ} (h : ∀ x ∈ xs, 0 ≤ x) {q : ℝ} (hq : 0 ≤ q) (hne : xs ≠ []) : 0 ≤ npQuantile xs q := by
  unfold npQuantile
  dsimp only
  set s := xs.mergeSort (fun a b => decide (a ≤ b))
  have hs : ∀ x ∈ s, 0 ≤ x := fun x hx => h x (List.mem_mergeSort.1 hx)
  have hl : (1 : ℝ) ≤ xs.length := by
    have : 0 < xs.length := List.length_pos_iff.2 hne
    exact_mod_cast this
  have hpos : 0 ≤ q * ((xs.length : ℝ) - 1) := mul_nonneg hq (by linarith)
  have h1 := Nat.floor_le hpos
  have h2 := Nat.lt_floor_add_one (q * ((xs.length : ℝ) - 1))
  have ha := getD_nonneg hs ⌊q * ((xs.length : ℝ) - 1)⌋₊
  have hb := getD_nonneg hs (min (⌊q * ((xs.length : ℝ) - 1)⌋₊ + 1) (xs.length - 1))
  nlinarith [mul_nonneg (sub_nonneg.2 h1) hb, mul_nonneg (by linarith : 0 ≤ 1 - (q * ((xs.length : ℝ) - 1) - ⌊q * ((xs.length : ℝ) - 1)⌋₊)) ha]

/-- what the radius is: `n r²` is the 95% quantile of the values of the conjugate at the draws, a non-negative number -/
theorem C83_radius_partial (hn : 2 ≤ n) {draw : List (List ℝ) → List (List ℝ)} (hd : ∀ c, draw c ≠ []) {P : EstParams} (he : 0 ≤ P.eta) (ha : 0 < P.alpha)
    {X : Fin n → Fin m → ℝ} {f : Fitted m} {w : Fin m → ℝ} {tau : ℝ} (hw : f.coef = some (listT (List.ofFn w))) (ht : f.tau = some (listT [tau]))
    (hk : ∀ k, (∑ j, w j * X k j) + tau ≠ 0) (q : XNum ℝ) :
    ∃ (r : ℝ) (h : List (List ℝ)) (v : List ℝ), tuneRadius P f q X draw = .ok r ∧ 0 ≤ r ∧
      (List.finRange n).mapM (fun i => computeH P f (listT (List.ofFn w)) (X i)) = .ok h ∧
      (draw (npCov h)).mapM (phiStarPortfolio P f q (listT (List.ofFn w)) X) = .ok v ∧ (∀ x ∈ v, 0 ≤ x) ∧ n * r ^ 2 = npQuantile v (95 / 100) := by
  have hn' : (0 : ℝ) < n := by exact_mod_cast (by omega : 0 < n)
  choose h h' L hcomp _ _ using fun i => C84_gradient (P := P) he ha ht (X i) (hk i)
  have hl := mapM_ok_map (l := List.finRange n) fun i _ => hcomp i
  set l := (List.finRange n).map fun i => List.ofFn (h i) ++ [h' i]
  have hv := mapM_ok_map (l := draw (npCov l)) fun z _ => phiStarPortfolio_eq (P := P) ht q X hk z
  set v := (draw (npCov l)).map fun z => (n : ℝ) * vnorm q z ^ 2 / ∑ k, (1 + if tau < -∑ j, w j * X k j then P.eta / P.alpha else 0) with hvdef
  have hv0 : ∀ x ∈ v, 0 ≤ x := by
    intro x hx
    obtain ⟨z, -, rfl⟩ := List.mem_map.1 hx
    have : 0 ≤ P.eta / P.alpha := div_nonneg he ha.le
    refine div_nonneg (by positivity) (Finset.sum_nonneg fun k _ => ?_)
    split_ifs <;> linarith
  have hq := npQuantile_nonneg hv0 (by norm_num : (0 : ℝ) ≤ 95 / 100) (by rw [hvdef, Ne, List.map_eq_nil_iff]; exact hd _)
  refine ⟨Real.sqrt (1 / (n : ℝ) * npQuantile v (95 / 100)), l, v, ?_, Real.sqrt_nonneg _, hl, hv, hv0, ?_⟩
  · unfold tuneRadius
    rw [hw]
    dsimp only
    rw [hl, ok_bind, if_neg (by omega)]
    rw [hv, ok_bind]
  · rw [Real.sq_sqrt (by positivity)]
    field_simp

/-- **C83** (partial: at least two samples, none at the kink of the fitted loss, see the refutations below) Whatever numbers are drawn, the tuner computes a
radius that is a non-negative number, leaves it in the estimator and returns the estimator refitted with it; the other arguments are unchanged. -/
theorem C83_partial (hn : 2 ≤ n) {fit : EstParams → Except PyErr (Fitted m)} {draw : List (List ℝ) → List (List ℝ)} (hd : ∀ c, draw c ≠ []) {P : EstParams}
    (he : 0 ≤ P.eta) (ha : 0 < P.alpha) {X : Fin n → Fin m → ℝ} {f : Fitted m} (hf : fit { P with rho := firstRadius P.solver } = .ok f) {w : Fin m → ℝ} {tau : ℝ}
    (hw : f.coef = some (listT (List.ofFn w))) (ht : f.tau = some (listT [tau])) (hk : ∀ k, (∑ j, w j * X k j) + tau ≠ 0) {c : CostObj}
    (hc : cost_from_str P.cost = .ok c) :
    ∃ r, 0 ≤ r ∧ portfolioTunerFit fit draw P X = ({ P with rho := .num r }, fit { P with rho := .num r }) := by
  set P1 : EstParams := { P with rho := firstRadius P.solver } with hP1
  set q : XNum ℝ := c.p.map fun q : ℚ => (q : ℝ)
  obtain ⟨r, -, -, hr, hr0, -⟩ := C83_radius_partial hn hd (P := P1) he ha hw ht hk q
  refine ⟨r, hr0, ?_⟩
  unfold portfolioTunerFit
  dsimp only
  rw [← hP1, hf]
  dsimp only
  rw [hc]
  dsimp only
  rw [hr]

/-- **C83** is false with a torch solver: the tuner reads a threshold attribute these fits do not set. -/
theorem C83_torch_false {G : Type} (hn : 0 < n) {J : ℕ} {ext : TorchExt G} {grads : Autograd m} {solve : Oracle} {train : Trainer m} {p0 : Portfolio} {P : EstParams}
    (h1 : pyIn "torch".toList P.solver = true) {C : Fin J → Fin m → ℝ} {D : Fin J → ℝ} {X : Fin n → Fin m → ℝ} {g : G} (draw : List (List ℝ) → List (List ℝ)) :
    ∃ e, portfolioTunerFit (fun P => portfolioFit ext grads solve train p0 P C D X g) draw P X = ({ P with rho := .num (1 / 10) }, .error e) ∧
      ((∃ f, portfolioFit ext grads solve train p0 { P with rho := .num (1 / 10) } C D X g = .ok f) → e = .attributeError) := by
  have hnd : P.solver ≠ "dedicated".toList := by rintro h; rw [h] at h1; revert h1; decide
  have hfr : firstRadius P.solver = .num (1 / 10) := by rw [firstRadius, if_neg hnd]
  unfold portfolioTunerFit
  dsimp only
  rw [hfr]
  cases hf : portfolioFit ext grads solve train p0 { P with rho := .num (1 / 10) } C D X g with
  | error e => exact ⟨e, rfl, by rintro ⟨f, hf⟩; cases hf⟩
  | ok f =>
    have htau : f.tau = none ∧ (∃ c, f.coef = some c) ∧ ∃ c, cost_from_str P.cost = .ok c := by
      obtain ⟨post, hr⟩ := route_torch .portfolio h1
      unfold portfolioFit at hf
      split at hf
      · cases hf
      obtain ⟨_, -, hf⟩ := bind_ok hf
      obtain ⟨c, hc, hf⟩ := bind_ok hf
      dsimp only at hf
      rw [hr, ok_bind] at hf
      dsimp only at hf
      obtain ⟨M, -, hf⟩ := bind_ok hf
      cases M <;> cases hf
      exact ⟨rfl, ⟨_, rfl⟩, c, hc⟩
    obtain ⟨h2, ⟨w, hw⟩, c, hc⟩ := htau
    dsimp only
    rw [hc]
    dsimp only
    have ht : ∀ q, tuneRadius { P with rho := .num (1 / 10) } f q X draw = .error .attributeError := by
      intro q
      unfold tuneRadius
      rw [hw]
      dsimp only
      have herr : ∀ i, computeH { P with rho := .num (1 / 10) } f w (X i) = .error .attributeError := fun i => by
        unfold computeH indicatorFunc
        rw [h2]
        rfl
      rw [mapM_one_error (e := .attributeError) (fun i _ => Or.inr (herr i)) ⟨⟨0, hn⟩, List.mem_finRange _, herr _⟩]
      rfl
    rw [ht]
    exact ⟨_, rfl, fun _ => rfl⟩

/-- **C83** is false for a single sample, whatever the solver: the tuner always fails. -/
theorem C83_single_false {fit : EstParams → Except PyErr (Fitted m)} (draw : List (List ℝ) → List (List ℝ)) (P : EstParams) (X : Fin 1 → Fin m → ℝ) :
    ∃ e, portfolioTunerFit fit draw P X = ({ P with rho := firstRadius P.solver }, .error e) := by
  unfold portfolioTunerFit
  dsimp only
  split
  · exact ⟨_, rfl⟩
  · next f _ =>
    split
    · exact ⟨_, rfl⟩
    · next c _ =>
      have : ∃ e, tuneRadius { P with rho := firstRadius P.solver } f (c.p.map fun q : ℚ => (q : ℝ)) X draw = .error e := by
        unfold tuneRadius
        cases f.coef with
        | none => exact ⟨_, rfl⟩
        | some th =>
          dsimp only
          cases (List.finRange 1).mapM fun i => computeH { P with rho := firstRadius P.solver } f th (X i) with
          | error e => exact ⟨e, rfl⟩
          | ok l => exact ⟨_, rfl⟩
      obtain ⟨e, he⟩ := this
      rw [he]
      exact ⟨e, rfl⟩

/-- **C83** is false as to what is drawn: the matrix given to the sampler has one row and column per sample, not one per parameter. -/
theorem C83_covariance_false {P : EstParams} {f : Fitted m} {theta : Tensor ℝ} {X : Fin n → Fin m → ℝ} {h : List (List ℝ)}
    (hh : (List.finRange n).mapM (fun i => computeH P f theta (X i)) = .ok h) :
    (npCov h).length = n ∧ (∀ r ∈ npCov h, r.length = n) ∧ ∀ r ∈ h, r.length = m + 1 := by
  have key : ∀ (l : List (Fin n)) (h : List (List ℝ)), l.mapM (fun i => computeH P f theta (X i)) = .ok h → h.length = l.length ∧ ∀ r ∈ h, r.length = m + 1 := by
    intro l
    induction l with
    | nil => intro h hh; cases hh; simp
    | cons i l ih =>
      intro h hh
      rw [List.mapM_cons] at hh
      obtain ⟨x, hx, hh⟩ := bind_ok hh
      obtain ⟨y, hy, hh⟩ := bind_ok hh
      cases hh
      obtain ⟨h1, h2⟩ := ih y hy
      unfold computeH at hx
      obtain ⟨ind, -, hx⟩ := bind_ok hx
      cases hx
      refine ⟨by simp [h1], fun r hr => ?_⟩
      rcases List.mem_cons.1 hr with rfl | hr
      · simp
      · exact h2 r hr
  obtain ⟨h1, h2⟩ := key _ _ hh
  have h3 : h.length = n := by simpa using h1
  refine ⟨by simp [npCov, h3], fun r hr => ?_, h2⟩
  simp only [npCov, List.mem_map] at hr
  obtain ⟨s, -, rfl⟩ := hr
  simp [h3]

/-- the matrix given to the sampler is that of the covariances between samples, over the `m + 1` coordinates of their gradients: the
products of deviations from the row means, divided by `m`; it is symmetric and positive semi-definite, as the sampler requires. -/
theorem C83_matrix_partial (H : Fin n → Fin (m + 1) → ℝ) :
    npCov (List.ofFn fun i => List.ofFn (H i)) = List.ofFn (fun i => List.ofFn fun j => sampleCov (H i) (H j)) ∧
    (∀ i j, sampleCov (H i) (H j) = sampleCov (H j) (H i)) ∧
    ∀ a : Fin n → ℝ, 0 ≤ ∑ i, ∑ j, a i * a j * sampleCov (H i) (H j) := by
  refine ⟨?_, fun i j => ?_, fun a => ?_⟩
  · unfold npCov
    dsimp only
    rw [List.map_ofFn]
    congr 1
    funext i
    simp only [Function.comp_apply, List.map_ofFn]
    congr 1
    funext j
    simp only [Function.comp_apply, List.map_ofFn, List.length_ofFn, List.sum_ofFn, sampleCov]
    rw [zipWith_ofFn, List.sum_ofFn]
    push_cast
    simp
  · unfold sampleCov
    congr 1
    exact Finset.sum_congr rfl fun c _ => mul_comm _ _
  · let D : Fin n → Fin (m + 1) → ℝ := fun i c => H i c - (∑ c, H i c) / ((m : ℝ) + 1)
    have e : ∑ i, ∑ j, a i * a j * sampleCov (H i) (H j) = (∑ c, (∑ i, a i * D i c) ^ 2) / m := by
      have h1 : ∀ c, (∑ i, a i * D i c) ^ 2 = ∑ i, ∑ j, a i * a j * (D i c * D j c) := by
        intro c
        rw [sq, Finset.sum_mul_sum]
        exact Finset.sum_congr rfl fun i _ => Finset.sum_congr rfl fun j _ => by ring
      have h2 : ∑ c, ∑ i, ∑ j, a i * a j * (D i c * D j c) = ∑ i, ∑ j, ∑ c, a i * a j * (D i c * D j c) := by
        rw [Finset.sum_comm]
        exact Finset.sum_congr rfl fun i _ => Finset.sum_comm
      simp only [h1]
      rw [h2]
      simp only [Finset.sum_div (Finset.univ (α := Fin n))]
      refine Finset.sum_congr rfl fun i _ => Finset.sum_congr rfl fun j _ => ?_
      rw [← Finset.mul_sum, mul_div_assoc]
      rfl
    rw [e]
    positivity

theorem meanCVaR_deriv {eta alpha r tau : ℝ} (he : 0 ≤ eta) (ha : 0 < alpha) (h : r + tau ≠ 0) :
    HasDerivAt (fun t => meanCVaR eta alpha r t) (eta - eta / alpha * above tau r) tau := by
  rcases lt_or_gt_of_ne h with h | h
  · have h1 : HasDerivAt (fun t : ℝ => (-1 - eta / alpha) * r + eta * (1 - 1 / alpha) * t) (eta * (1 - 1 / alpha)) tau := by
      simpa using ((hasDerivAt_id tau).const_mul (eta * (1 - 1 / alpha))).const_add ((-1 - eta / alpha) * r)
    have e : eta - eta / alpha * above tau r = eta * (1 - 1 / alpha) := by
      rw [above, if_pos (by linarith)]; ring
    rw [e]
    refine h1.congr_of_eventuallyEq ?_
    have hc : Continuous fun t : ℝ => r + t := by fun_prop
    filter_upwards [hc.continuousAt.eventually (gt_mem_nhds h)] with t ht
    exact (meanCVaR_pieces he ha).2 ht.le
  · have h1 : HasDerivAt (fun t : ℝ => -r + eta * t) eta tau := by
      simpa using ((hasDerivAt_id tau).const_mul eta).const_add (-r)
    have e : eta - eta / alpha * above tau r = eta := by
      rw [above, if_neg (by linarith)]; ring
    rw [e]
    refine h1.congr_of_eventuallyEq ?_
    have hc : Continuous fun t : ℝ => r + t := by fun_prop
    filter_upwards [hc.continuousAt.eventually (lt_mem_nhds h)] with t ht
    exact (meanCVaR_pieces he ha).1 ht.le

/-- a threshold minimising the average loss is at a kink, unless `alpha n` is an integer -/
theorem optimal_threshold_kink (hn : 0 < n) {eta alpha : ℝ} (he : 0 < eta) (ha : 0 < alpha) (hint : ¬∃ k : ℕ, alpha * n = k) {r : Fin n → ℝ} {tau : ℝ}
    (hmin : ∀ t, avg (fun i => meanCVaR eta alpha (r i) tau) ≤ avg fun i => meanCVaR eta alpha (r i) t) : ∃ i, r i + tau = 0 := by
  by_contra hk
  push Not at hk
  have hn' : (0 : ℝ) < n := by exact_mod_cast hn
  have hd : HasDerivAt (fun t => avg fun i => meanCVaR eta alpha (r i) t) (avg fun i => eta - eta / alpha * above tau (r i)) tau := by
    unfold avg
    exact (HasDerivAt.fun_sum fun i _ => meanCVaR_deriv he.le ha (hk i)).div_const _
  have h0 := (IsLocalMin.hasDerivAt_eq_zero (Filter.Eventually.of_forall fun t => hmin t) hd)
  apply hint
  refine ⟨(Finset.univ.filter fun i => tau < -r i).card, ?_⟩
  have e : ∑ i, above tau (r i) = ((Finset.univ.filter fun i => tau < -r i).card : ℝ) := by
    simp [above, Finset.sum_ite]
  rw [← e]
  unfold avg at h0
  rw [Finset.sum_sub_distrib, ← Finset.mul_sum] at h0
  simp only [Finset.sum_const, Finset.card_univ, Fintype.card_fin, nsmul_eq_mul] at h0
  field_simp at h0
  rw [mul_zero] at h0
  rcases mul_eq_zero.1 h0 with h | h
  · exact absurd h he.ne'
  · linarith

theorem pfQ_ok {p : XNum ℝ} (hp : NormOrder p) : ∃ q, pfQ p = .ok q := by
  rcases hp with ⟨a, ha, rfl⟩ | rfl
  · simp only [pfQ]
    split_ifs with h1 h2
    · exact ⟨_, rfl⟩
    · linarith
    · exact ⟨_, rfl⟩
  · exact ⟨_, rfl⟩

/-- **C83** is false with the dedicated solver (in exact arithmetic): with a risk term and `alpha n` not an integer, the optimal threshold of the first fit is
the loss of some sample, where the loss is not differentiable, and the tuner fails on every data set. -/
theorem C83_kink_false {G : Type} (hn : 0 < n) (hm : 0 < m) {ext : TorchExt G} {grads : Autograd m} {solve : Oracle} (hs : ExactSolver solve) {train : Trainer m}
    {p0 : Portfolio} {P : EstParams} (hP : P.solver = "dedicated".toList) (he : 0 < P.eta) (ha : 0 < P.alpha) (ha1 : P.alpha ≤ 1)
    (hint : ¬∃ k : ℕ, P.alpha * n = k) (hg : P.solver_reg ≠ none) {c : CostObj} (hc : cost_from_str P.cost = .ok c) (hp : NormOrder (c.power.map fun q : ℚ => (q : ℝ)))
    (X : Fin n → Fin m → ℝ) (g : G) (draw : List (List ℝ) → List (List ℝ)) :
    portfolioTunerFit (fun P => portfolioFit ext grads solve train p0 P (zeroC m) zeroD X g) draw P X =
      ({ P with rho := .num 0 }, .error .assertionError) := by
  obtain ⟨q, hq⟩ := pfQ_ok hp
  obtain ⟨theta, tau, lam, V, r, h1, h2, hsim, hlub, hopt⟩ := C63_optimal hs hp hq hn hm (C := zeroC m) (d := zeroD) (fun _ _ => rfl) (fun _ => le_refl _)
    he.le ha ha1 (le_refl (0 : ℝ)) X
  have hmin : ∀ t, avg (fun i => meanCVaR P.eta P.alpha (∑ j, theta j * X i j) tau) ≤ avg fun i => meanCVaR P.eta P.alpha (∑ j, theta j * X i j) t := by
    intro t
    have e1 := (C63_exact hp hq hn hm (C := zeroC m) (d := zeroD) (fun _ _ => rfl) (fun _ => le_refl _) he.le ha (le_refl (0 : ℝ)) X hsim tau).1
    have e2 := (C63_exact hp hq hn hm (C := zeroC m) (d := zeroD) (fun _ _ => rfl) (fun _ => le_refl _) he.le ha (le_refl (0 : ℝ)) X hsim t).1
    have h3 := hopt theta t hsim _ fun Q hQ => e2.1 ⟨Q, hQ, rfl⟩
    have h4 := hlub.unique e1
    simp only [zero_mul, add_zero] at h3 h4
    rw [← h4]
    exact h3
  obtain ⟨i, hi⟩ := optimal_threshold_kink hn he ha hint hmin
  have hfr : firstRadius P.solver = .num 0 := by rw [firstRadius, if_pos hP]
  have hroute : route .portfolio P.solver = .ok .dedicated := by rw [(C66_route_partial .portfolio P.solver).2.1 hP]; rfl
  have hfit : portfolioFit ext grads solve train p0 { P with rho := .num 0 } (zeroC m) zeroD X g =
      .ok { coef := some (listT (List.ofFn theta)), tau := some (listT [tau]), dual_var := some (listT [lam]) } := by
    unfold portfolioFit
    rw [if_neg (by omega)]
    dsimp only
    rw [regAsFloat_ok (P := { P with rho := .num 0 }) hg, ok_bind, hc, ok_bind, hroute, ok_bind]
    simp only [Radius.toNum, ok_bind, h1, unpack4, h2]
    rfl
  unfold portfolioTunerFit
  dsimp only
  rw [hfr, hfit]
  dsimp only
  rw [hc]
  dsimp only
  have ht : ∀ q, tuneRadius { P with rho := .num 0 } { coef := some (listT (List.ofFn theta)), tau := some (listT [tau]), dual_var := some (listT [lam]) } q X draw =
      .error .assertionError := by
    intro q
    unfold tuneRadius
    dsimp only
    rw [mapM_one_error (e := .assertionError)]
    · rfl
    · intro k _
      by_cases hk : (∑ j, theta j * X k j) + tau = 0
      · right
        exact (C84_kink_partial (P := { P with rho := .num 0 }) he ha rfl (X k) hk).1
      · left
        obtain ⟨h, h', L, hh, -⟩ := C84_gradient (P := { P with rho := .num 0 }) he.le ha (f := Fitted.mk (some (listT (List.ofFn theta))) none (some (listT [tau])) (some (listT [lam])) none) rfl (X k) hk
        exact ⟨_, hh⟩
    · exact ⟨i, List.mem_finRange i, (C84_kink_partial (P := { P with rho := .num 0 }) he ha rfl (X i) hi).1⟩
  rw [ht]

/-- the hypotheses are met by the default estimator with a risk term and ten samples -/
example (e : ℝ) (h : 0 < e) : ∃ P : EstParams, P = { EstKind.portfolio.defaults with eta := e } ∧ P.solver = "dedicated".toList ∧ 0 < P.eta ∧ 0 < P.alpha ∧
    P.alpha ≤ 1 ∧ (¬∃ k : ℕ, P.alpha * (10 : ℕ) = k) ∧ ∃ c, cost_from_str P.cost = .ok c ∧ NormOrder (c.power.map fun q : ℚ => (q : ℝ)) := by
  refine ⟨_, rfl, rfl, h, by norm_num [EstKind.defaults], by norm_num [EstKind.defaults], ?_, _, code_cost 1 1, .inl ⟨1, le_refl _, by simp [XNum.map]⟩⟩
  rintro ⟨k, hk⟩
  have h2 : (19 : ℝ) = 2 * k := by
    have : (95 / 100 : ℝ) * (10 : ℕ) = k := hk
    push_cast at this
    linarith
  have h3 : (19 : ℕ) = 2 * k := by exact_mod_cast h2
  omega

/-- those of `C83_partial` by two samples of one asset on both sides of the threshold -/
example : ∀ k : Fin 2, (∑ j, (fun _ : Fin 1 => (1 : ℝ)) j * (fun (k : Fin 2) (_ : Fin 1) => if k = 0 then (-1 : ℝ) else 1) k j) + 0 ≠ 0 := by
  intro k; fin_cases k <;> simp

end Skwdro
