import Verif.Props.Estimators
import Verif.Props.Newsvendor
import Verif.Lemmas.Dual

/-! # Properties of the operations-research estimators: C67 (defaults), C77 (scores) -/

namespace Skwdro
open Spec Tensor

/-! ## Means -/

theorem reinsert_indices (s : List ℕ) : (indices (s.filter (· ≠ 1))).map (reinsert s) = indices s := by
  induction s with
  | nil => rfl
  | cons n s ih =>
    by_cases h : n = 1
    · subst h
      rw [List.filter_cons_of_neg (by simp)]
      have e : reinsert (1 :: s) = fun i => 0 :: reinsert s i := by funext i; simp [reinsert]
      have e2 : indices (1 :: s) = (indices s).map (0 :: ·) := by simp [indices]
      rw [e, e2, ← ih, List.map_map]
      rfl
    · rw [List.filter_cons_of_pos (by simpa using h)]
      simp only [indices, List.map_flatMap, List.map_map]
      congr 1
      funext i
      rw [← ih, List.map_map]
      apply List.map_congr_left
      intro a _
      simp [reinsert, h]

/-- dropping dimensions of size one does not change the elements -/
theorem squeeze_toList (t : Tensor ℝ) : t.squeeze.toList = t.toList := by
  unfold Tensor.toList Tensor.squeeze
  rw [← reinsert_indices t.shape, List.map_map]
  rfl

theorem mean_squeeze_col {t : Tensor ℝ} {m : ℕ} {f : List ℕ → ℝ} (h : Is t [m, 1] f) :
    (t.squeeze.mean).get [] = avg (fun i : Fin m => f [i, 0]) := by
  simp [Tensor.mean, squeeze_toList, toList_col h, sum_range_fin, avg]

/-- evaluation of an unlabelled wrapped loss on a batch -/
theorem torchEval_rows {n m d : ℕ} {f : Fitted d} {M : Module d} {a : DualizeArgs} (hf : f.torch = some (M, a)) (hl : a.xi_labels = none)
    (hr : a.loss_reduces_spatial_dims = false) (hflat : a.flat = M.flat) (X : Fin n → Fin m → ℝ) {t : Tensor ℝ} {ell : Fin n → ℝ}
    (ht : M.flat (matT X) none = .ok t) (hI : IsMat t (fun i (_ : Fin 1) => ell i)) :
    torchEval f (matT X) = .ok (avg fun i => ell i + ridge a.l2reg a.theta) := by
  have hw : a.wloss.reduceSpatial = true := by simp [DualizeArgs.wloss, hr]
  have hv : a.wloss.value (matT X) none = .ok (a.wloss.reduceFlat (a.wloss.regularize t)).squeeze := by
    have h1 : a.wloss.hasLabels = false := by simp [DualizeArgs.wloss, hl]
    have h2 : a.wloss.flat (matT X) none = .ok t := by rw [← ht]; show a.flat _ _ = _; rw [hflat]
    have h3 : (matT X).dim = 2 := rfl
    simp [WLoss.value, h1, h3, WLoss.flatValue, h2]
  unfold torchEval
  rw [hf]
  simp only [hv, ok_bind]
  rw [mean_squeeze_col (reduceFlat_mean a.wloss hw one_pos hI)]
  congr 1
  congr 1
  funext i
  have := ix2_apply (fun (r : Fin n) (_ : Fin 1) => avg (fun _ : Fin 1 => ell r) + ridge a.wloss.l2reg a.wloss.theta) i 0
  simp only [Fin.val_zero] at this
  rw [this]
  simp [avg, DualizeArgs.wloss]

/-! ## Newsvendor -/

theorem route_dedicated_inv {e : EstKind} {s : PyStr} (h : route e s = .ok .dedicated) : s = "dedicated".toList := by
  unfold route at h
  cases e <;> simp only at h <;> split_ifs at h <;> first | assumption | cases h

theorem route_torch_inv {e : EstKind} {post : Bool} {s : PyStr} (h : route e s = .ok (.torch post)) : pyIn "torch".toList s = true := by
  unfold route at h
  cases e <;> simp only at h <;> split_ifs at h <;> first | assumption | cases h

theorem saaNewsvendor2_ok {solve : Oracle} {k u : ℝ} {s : Option (List ℝ)} {r : SolverResult SVal} (h : saaNewsvendor2 solve k u s = .ok r) :
    ∃ th v, unpack2 r = .ok (some (.num th), v) := by
  cases s with
  | none => cases h
  | some z =>
    simp only [saaNewsvendor2] at h
    split at h
    · cases h
    · split at h
      · exact ⟨_, _, unpack2_tuple h⟩
      · cases h

theorem newsvendorDedicated_ok {solve : Oracle} {k u rho : ℝ} {s : Option (List ℝ)} {r : SolverResult SVal}
    (h : newsvendorDedicated solve k u rho s = .ok r) : ∃ th v, unpack2 r = .ok (some (.num th), v) := by
  cases s with
  | none => cases h
  | some z =>
    simp only [newsvendorDedicated, wrapResult] at h
    have h3 : ∀ {r}, (saaNewsvendor2 solve k u (some z) >>= fun r => Except.ok r) = .ok r → ∃ th v, unpack2 r = .ok (some (.num th), v) := by
      intro r h
      obtain ⟨a, ha, h⟩ := bind_ok h
      simp only [Except.ok.injEq] at h
      subst h
      exact saaNewsvendor2_ok ha
    have h0 : ∀ {r}, wrapResult (.tuple [some (SVal.num 0), some (.num 0)]) = .ok r → ∃ th v, unpack2 r = .ok (some (.num th), v) :=
      fun h => ⟨_, _, unpack2_tuple h⟩
    split at h
    · exact h3 h
    · split at h
      · exact h0 h
      · split at h
        · cases h
        · split at h
          · cases h
          · split at h
            · exact h0 h
            · exact h3 h

theorem newsvendorAt_ok {solve : Oracle} {k u : ℝ} {rho : Radius} {s : Option (List ℝ)} {r : SolverResult SVal}
    (h : newsvendorAt solve k u rho s = .ok r) : ∃ th v, unpack2 r = .ok (some (.num th), v) := by
  cases rho with
  | num x => exact newsvendorDedicated_ok h
  | nan =>
    cases s with
    | none => cases h
    | some z =>
      simp only [newsvendorAt, wrapResult] at h
      obtain ⟨a, ha, h⟩ := bind_ok h
      simp only [Except.ok.injEq] at h
      subst h
      exact saaNewsvendor2_ok ha

/-- what a fitted newsvendor holds -/
theorem newsvendorFit_ok {G : Type} {n d : ℕ} {ext : TorchExt G} {grads : Autograd 1} {solve : Oracle} {train : Trainer 1}
    (ht : GoodTrainer train) {theta0 : ℝ} {P : EstParams} {X : Fin n → Fin d → ℝ} {g : G} {f : Fitted 1}
    (h : newsvendorFit ext grads solve train theta0 P X g = .ok f) :
    (∃ th, P.solver = "dedicated".toList ∧ f.coef = some (Tensor.scalar th)) ∨
    (∃ th a, pyIn "torch".toList P.solver = true ∧ f.coef = some (listT [th]) ∧ f.torch = some (.newsvendor P.k P.u th, a) ∧ a.xi_labels = none ∧
      a.loss_reduces_spatial_dims = false ∧ a.flat = (Module.newsvendor P.k P.u th : Module 1).flat ∧ a.l2reg = none) := by
  unfold newsvendorFit at h
  split at h
  · cases h
  obtain ⟨c, -, h⟩ := bind_ok h
  obtain ⟨r, hr, h⟩ := bind_ok h
  cases r with
  | dedicated =>
    have hsol : P.solver = "dedicated".toList := route_dedicated_inv hr
    simp only at h
    obtain ⟨r, hr', h⟩ := bind_ok h
    obtain ⟨th, v, hu⟩ := newsvendorAt_ok hr'
    rw [hu] at h
    simp only [ok_bind, Except.ok.injEq] at h
    subst h
    exact Or.inl ⟨th, hsol, rfl⟩
  | torch post =>
    have hsol : pyIn "torch".toList P.solver = true := route_torch_inv hr
    simp only at h
    obtain ⟨M, hM, h⟩ := bind_ok h
    have hs := fitTorch_ok ht hM
    cases M with
    | newsvendor k u th =>
      simp only [SameShape] at hs
      obtain ⟨hk, hu⟩ := hs
      subst hk hu
      simp only [Except.ok.injEq] at h
      subst h
      exact Or.inr ⟨th, _, hsol, rfl, rfl, rfl, rfl, rfl, rfl⟩
    | softMargin l => exact hs.elim
    | crossEnt l => exact hs.elim
    | mse l => exact hs.elim
    | weber p => exact hs.elim
    | portfolio p => exact hs.elim

theorem dedicated_no_entropic : pyIn "entropic".toList "dedicated".toList = false := by decide

/-- the score of a fitted newsvendor on any data, for solver names containing 'entropic' or the dedicated one -/
theorem newsvendor_score {G : Type} {n d : ℕ} {ext : TorchExt G} {grads : Autograd 1} {solve : Oracle} {train : Trainer 1}
    (ht : GoodTrainer train) {theta0 : ℝ} {P : EstParams} {X : Fin n → Fin d → ℝ} {g : G} {f : Fitted 1}
    (h : newsvendorFit ext grads solve train theta0 P X g = .ok f)
    (hn : pyIn "entropic".toList P.solver = true ∨ P.solver = "dedicated".toList) :
    ∃ th c, f.coef = some c ∧ c.toList = [th] ∧ ∀ (m N : ℕ) (X' : Fin N → Fin m → ℝ),
      score (newsvendorEval P f X') = .ok (-(avg fun i => avg fun j => newsvendor P.k P.u th (X' i j))) := by
  rcases newsvendorFit_ok ht h with ⟨th, hs, hc⟩ | ⟨th, a, hs, hc, htor, h1, h2, h3, h4⟩
  · refine ⟨th, _, hc, rfl, fun m N X' => ?_⟩
    have : newsvendorEval P f X' = .ok (avg fun i => avg fun j => newsvendor P.k P.u th (X' i j)) := by
      unfold newsvendorEval
      rw [hs, if_neg (by rw [dedicated_no_entropic]; simp), if_pos rfl, hc]
      simp only [Tensor.scalar, Except.ok.injEq, avg, newsvendor, ← Finset.sum_div]
      rw [div_div, mul_comm (m : ℝ)]
    rw [this]
    rfl
  · have hne : ¬ P.solver = "dedicated".toList := by
      intro h'
      rw [h', dedicated_no_torch] at hs
      cases hs
    have hent : pyIn "entropic".toList P.solver = true := hn.resolve_right hne
    refine ⟨th, _, hc, by simp [Tensor.toList, listT, indices], fun m N X' => ?_⟩
    obtain ⟨t, h5, h6⟩ := C28_estimator_partial P.k P.u th (hasRows_of_isMat (matT_is X'))
    have hI : IsMat t (fun i (_ : Fin 1) => avg fun j => newsvendor P.k P.u th (X' i j)) := by
      refine ⟨h6.1, fun i c => ?_⟩
      have := h6.2 [i.1] (List.Forall₂.cons i.2 List.Forall₂.nil) c
      simpa [rowsOf_apply] using this
    have := torchEval_rows htor h1 h2 h3 X' h5 hI
    unfold newsvendorEval
    rw [if_pos hent, this, h4]
    simp [score, Except.map, ridge]

/-- **C77** (partial: one product; see the violations) The score of a fitted newsvendor is minus the average newsvendor cost of its order
over the evaluation data, whatever the data it was fitted on, for the dedicated solver and solver names containing 'entropic'. -/
theorem C77_newsvendor_partial {G : Type} {n d : ℕ} {ext : TorchExt G} {grads : Autograd 1} {solve : Oracle} {train : Trainer 1}
    (ht : GoodTrainer train) {theta0 : ℝ} {P : EstParams} {X : Fin n → Fin d → ℝ} {g : G} {f : Fitted 1}
    (h : newsvendorFit ext grads solve train theta0 P X g = .ok f)
    (hn : pyIn "entropic".toList P.solver = true ∨ P.solver = "dedicated".toList) :
    ∃ th c, f.coef = some c ∧ c.toList = [th] ∧ ∀ (N : ℕ) (X' : Fin N → ℝ),
      score (newsvendorEval P f fun i (_ : Fin 1) => X' i) = .ok (-(avg fun i => newsvendor P.k P.u th (X' i))) := by
  obtain ⟨th, c, hc, hl, hs⟩ := newsvendor_score ht h hn
  exact ⟨th, c, hc, hl, fun N X' => by rw [hs]; simp [avg]⟩

/-- **C77** (violated) With several products the loss trained on is that of the row means (see `newsvendorFit`) but the score averages
over products: for every fitted order `th > 0` and unit revenue `u ≠ 0` the score on the demands `(0, 2 th)` is not minus the trained loss. -/
theorem C77_newsvendor_products_false {G : Type} {n d : ℕ} {ext : TorchExt G} {grads : Autograd 1} {solve : Oracle} {train : Trainer 1}
    (ht : GoodTrainer train) {theta0 : ℝ} {P : EstParams} {X : Fin n → Fin d → ℝ} {g : G} {f : Fitted 1}
    (h : newsvendorFit ext grads solve train theta0 P X g = .ok f)
    (hn : pyIn "entropic".toList P.solver = true ∨ P.solver = "dedicated".toList) (hu : P.u ≠ 0) :
    ∃ th c, f.coef = some c ∧ c.toList = [th] ∧ (0 < th → ∃ v, score (newsvendorEval P f fun (_ : Fin 1) => ![0, 2 * th]) = .ok v ∧
      v ≠ -(avg fun i => newsvendor P.k P.u th (rowMeans (fun (_ : Fin 1) => ![0, 2 * th]) i))) := by
  obtain ⟨th, c, hc, hl, hs⟩ := newsvendor_score ht h hn
  refine ⟨th, c, hc, hl, fun hth => ⟨_, hs _ _ _, ?_⟩⟩
  have e1 : min th (2 * th) = th := min_eq_left (by linarith)
  have e2 : min th (0 : ℝ) = 0 := min_eq_right hth.le
  simp only [avg, newsvendor, rowMeans, Finset.univ_unique, Finset.sum_const, Finset.card_singleton, one_smul, Fin.sum_univ_two,
    Matrix.cons_val_zero, Matrix.cons_val_one, Matrix.cons_val_fin_one, e1, e2]
  intro h'
  have e3 : (0 + 2 * th) / ((2 : ℕ) : ℝ) = th := by push_cast; ring
  rw [e3, min_self] at h'
  push_cast at h'
  have : P.u * th = 0 := by linarith
  rcases mul_eq_zero.1 this with h6 | h6
  · exact hu h6
  · exact hth.ne' h6

/-- **C77** (violated) Solver names with 'torch' but without 'entropic' are fitted, but scores then raise `ValueError` on all data, for
the three estimators. -/
theorem C77_name_false {N m d : ℕ} (P : EstParams) (h1 : pyIn "entropic".toList P.solver = false) (h2 : P.solver ≠ "dedicated".toList)
    (f : Fitted 1) (f' f'' : Fitted m) (float32 : Bool) (X : Fin N → Fin d → ℝ) (X' : Fin N → Fin m → ℝ) :
    score (newsvendorEval P f X) = .error .valueError ∧ score (portfolioEval P f' float32 X') = .error .valueError ∧
    score (weberEval P f'' X') = .error .valueError := by
  refine ⟨?_, ?_, ?_⟩ <;> simp [newsvendorEval, portfolioEval, weberEval, score, h1, h2, Except.map, -String.reduceToList]

example : pyIn "entropic".toList "torch".toList = false ∧ "torch".toList ≠ "dedicated".toList ∧
    ∀ e : EstKind, route e "torch".toList = .ok (.torch (decide (e = .portfolio))) :=
  ⟨by decide, by decide, fun e => by cases e <;> decide⟩

/-- **C67** (violated) A newsvendor with default arguments can never be fitted: its default solver is the deprecated name. -/
theorem C67_newsvendor_false {G : Type} {n d : ℕ} (ext : TorchExt G) (grads : Autograd 1) (solve : Oracle) (train : Trainer 1) (theta0 : ℝ)
    (hn : 0 < n) (hd : 0 < d) (X : Fin n → Fin d → ℝ) (g : G) :
    newsvendorFit ext grads solve train theta0 EstKind.newsvendor.defaults X g = .error .deprecationWarning := by
  unfold newsvendorFit
  rw [if_neg (by omega), show EstKind.newsvendor.defaults.cost = joinDash ["t".toList, "NC".toList, decimal 1, decimal 2] from by decide, code_cost, ok_bind]
  rfl

/-! ## Weber -/

/-- **C77** (violated) A fitted Weber estimator can never be scored, on any data: the evaluation passes no weights, which the loss requires,
or refuses the solver name. -/
theorem C77_weber_false {G : Type} {n d : ℕ} {ext : TorchExt G} {grads : Autograd d} {train : Trainer d} (ht : GoodTrainer train)
    {pos0 : Fin d → ℝ} {P : EstParams} {X : Fin n → Fin d → ℝ} {w : Fin n → ℝ} {g : G} {f : Fitted d}
    (h : weberFit ext grads train pos0 P X w g = .ok f) (N : ℕ) (X' : Fin N → Fin d → ℝ) :
    score (weberEval P f X') = .error (if pyIn "entropic".toList P.solver then .assertionError else .valueError) := by
  unfold weberFit at h
  split at h
  · cases h
  obtain ⟨r, hr, h⟩ := bind_ok h
  cases r with
  | dedicated => cases h
  | torch post =>
    have hsol := route_torch_inv hr
    have hne : P.solver ≠ "dedicated".toList := by
      intro h'
      rw [h', dedicated_no_torch] at hsol
      cases hsol
    simp only at h
    obtain ⟨M, hM, h⟩ := bind_ok h
    have hs := fitTorch_ok ht hM
    cases M with
    | weber pos =>
      simp only [Except.ok.injEq] at h
      subst h
      unfold weberEval
      split
      · have := (C24_label_contract (torchArgs grads .weber P post false (matT X) (some (matT fun i (_ : Fin 1) => w i)) (.weber pos)).wloss
          (matT X') (matT X')).1 rfl
        simp only [torchEval, this, error_bind]
        rfl
      · rfl
    | softMargin l => exact hs.elim
    | crossEnt l => exact hs.elim
    | mse l => exact hs.elim
    | portfolio p => exact hs.elim
    | newsvendor a b c => exact hs.elim

theorem meanDot_avg {n m : ℕ} (X : Fin n → Fin m → ℝ) (w : Fin m → ℝ) :
    meanDot X (listT (List.ofFn w)) = .ok (avg fun i => -∑ k, w k * X i k) := by
  simp only [meanDot, (listT_ofFn w).1, if_true, Except.ok.injEq, (listT_ofFn w).2, avg, Finset.sum_neg_distrib]
  rw [Finset.sum_comm, neg_div, Finset.sum_div, ← Finset.sum_neg_distrib]
  refine Finset.sum_congr rfl fun j _ => ?_
  rw [← Finset.mul_sum]
  ring

theorem weberEval_dedicated {n m : ℕ} {P : EstParams} (hP : P.solver = "dedicated".toList) {f : Fitted m} {w : Fin m → ℝ}
    (hc : f.coef = some (listT (List.ofFn w))) (X : Fin n → Fin m → ℝ) : score (weberEval P f X) = .ok (avg fun i => ∑ k, w k * X i k) := by
  unfold weberEval
  rw [hP, if_neg (by rw [dedicated_no_entropic]; simp), if_pos rfl, hc]
  simp only [meanDot_avg, score, Except.map, avg, Finset.sum_neg_distrib, neg_div, neg_neg]

/-- **C77** (violated) Renaming the solver of a fitted Weber estimator to `dedicated` makes it scorable, but the score is the average inner
product of the points with the fitted position: for a position away from the origin and one point at it, it is positive, though minus a
distance never is. -/
theorem C77_weber_renamed_false {G : Type} {n d : ℕ} {ext : TorchExt G} {grads : Autograd d} {train : Trainer d} (ht : GoodTrainer train)
    {pos0 : Fin d → ℝ} {P : EstParams} {X : Fin n → Fin d → ℝ} {w : Fin n → ℝ} {g : G} {f : Fitted d}
    (h : weberFit ext grads train pos0 P X w g = .ok f) :
    ∃ pos : Fin d → ℝ, f.coef = some (listT (List.ofFn pos)) ∧
      (∀ (N : ℕ) (X' : Fin N → Fin d → ℝ),
        score (weberEval { P with solver := "dedicated".toList } f X') = .ok (avg fun i => ∑ k, pos k * X' i k)) ∧
      (pos ≠ 0 → ∃ v, 0 < v ∧ score (weberEval { P with solver := "dedicated".toList } f fun (_ : Fin 1) => pos) = .ok v) := by
  unfold weberFit at h
  split at h
  · cases h
  obtain ⟨r, hr, h⟩ := bind_ok h
  cases r with
  | dedicated => cases h
  | torch post =>
    simp only at h
    obtain ⟨M, hM, h⟩ := bind_ok h
    have hs := fitTorch_ok ht hM
    cases M with
    | weber pos =>
      simp only [Except.ok.injEq] at h
      subst h
      have key := fun (N : ℕ) (X' : Fin N → Fin d → ℝ) => weberEval_dedicated (P := { P with solver := "dedicated".toList }) rfl
        (f := { coef := some (listT (List.ofFn pos)), torch := some (.weber pos, torchArgs grads .weber P post false (matT X)
          (some (matT fun i (_ : Fin 1) => w i)) (.weber pos)) }) (w := pos) rfl X'
      refine ⟨pos, rfl, key, fun hne => ⟨_, ?_, key 1 _⟩⟩
      obtain ⟨k, hk⟩ := Function.ne_iff.1 hne
      have : 0 < ∑ k, pos k * pos k := Finset.sum_pos' (fun j _ => mul_self_nonneg _) ⟨k, Finset.mem_univ _, mul_self_pos.2 hk⟩
      simpa [avg] using this
    | softMargin l => exact hs.elim
    | crossEnt l => exact hs.elim
    | mse l => exact hs.elim
    | portfolio p => exact hs.elim
    | newsvendor a b c => exact hs.elim

/-- **C67** (violated) A Weber estimator with default arguments fits all data (if training returns), but can never be scored. -/
theorem C67_weber_false {G : Type} {n d : ℕ} (ext : TorchExt G) (grads : Autograd d) {train : Trainer d} (htot : TotalTrainer train)
    (ht : GoodTrainer train) (pos0 : Fin d → ℝ) (hn : 0 < n) (hd : 0 < d) (X : Fin n → Fin d → ℝ) (w : Fin n → ℝ) (g : G) :
    ∃ f, weberFit ext grads train pos0 EstKind.weber.defaults X w g = .ok f ∧ ∀ (N : ℕ) (X' : Fin N → Fin d → ℝ),
      score (weberEval EstKind.weber.defaults f X') = .error .assertionError := by
  obtain ⟨parsed, obj, h1, h2, h3⟩ := default_parse
  have hfit : ∃ f, weberFit ext grads train pos0 EstKind.weber.defaults X w g = .ok f := by
    obtain ⟨M, hM⟩ := fitTorch_total (ext := ext) (grads := grads) htot (e := .weber) (post := decide (EstKind.weber ≠ .newsvendor))
      (P := EstKind.weber.defaults) (multi := false) (X := matT X) (y := some (matT fun i (_ : Fin 1) => w i)) (.weber pos0) g h1 h2 h3
      (by intro s hs; simp only [EstKind.defaults, Option.some.injEq] at hs; rw [← hs]; norm_num)
    have hs := fitTorch_ok ht hM
    unfold weberFit
    rw [if_neg (by omega), show EstKind.weber.defaults.solver = "entropic_torch".toList from rfl, C66_bare_name_false .weber, ok_bind]
    dsimp only
    rw [hM, ok_bind]
    cases M with
    | weber pos => exact ⟨_, rfl⟩
    | softMargin l => exact hs.elim
    | crossEnt l => exact hs.elim
    | mse l => exact hs.elim
    | portfolio p => exact hs.elim
    | newsvendor a b c => exact hs.elim
  obtain ⟨f, hf⟩ := hfit
  refine ⟨f, hf, fun N X' => ?_⟩
  rw [C77_weber_false ht hf N X', if_pos (by decide)]

/-! ## Portfolio -/

/-- average loss of a portfolio `w` with threshold `tau` -/
noncomputable def pfLoss {N m : ℕ} (eta alpha : ℝ) (w : Fin m → ℝ) (tau : ℝ) (X : Fin N → Fin m → ℝ) : ℝ :=
  avg fun i => meanCVaR eta alpha (∑ k, w k * X i k) tau

/-- what a portfolio fitted by the dedicated solver holds -/
theorem portfolioFit_dedicated {G : Type} {n m J : ℕ} {ext : TorchExt G} {grads : Autograd m} {solve : Oracle} (hs : ExactSolver solve)
    {train : Trainer m} {p0 : Portfolio} {P : EstParams} (hP : P.solver = "dedicated".toList) {c : CostObj} (hc : cost_from_str P.cost = .ok c)
    (hp : NormOrder (c.power.map fun q : ℚ => (q : ℝ))) {C : Fin J → Fin m → ℝ} {D : Fin J → ℝ} {X : Fin n → Fin m → ℝ} {g : G} {f : Fitted m}
    (h : portfolioFit ext grads solve train p0 P C D X g = .ok f) :
    ∃ (w : Fin m → ℝ) (tau : ℝ), InSimplex w ∧ f.coef = some (listT (List.ofFn w)) ∧ f.tau = some (listT [tau]) := by
  have hr : route .portfolio P.solver = .ok .dedicated := by rw [(C66_route_partial .portfolio P.solver).2.1 hP]; rfl
  unfold portfolioFit at h
  split at h
  · cases h
  obtain ⟨_, -, h⟩ := bind_ok h
  rw [hc, ok_bind, hr, ok_bind] at h
  dsimp only at h
  obtain ⟨rho, -, h⟩ := bind_ok h
  obtain ⟨r, hr', h⟩ := bind_ok h
  obtain ⟨theta, tau, lam, V, hl, hsim, -⟩ := C63_solver hs hp hr'
  simp only [unpack4, hl, ok_bind, Except.ok.injEq] at h
  subst h
  exact ⟨theta, tau, hsim, rfl, rfl⟩

theorem portfolioEval_dedicated {n m : ℕ} {P : EstParams} (hP : P.solver = "dedicated".toList) {f : Fitted m} {w : Fin m → ℝ}
    (hc : f.coef = some (listT (List.ofFn w))) (b : Bool) (X : Fin n → Fin m → ℝ) :
    portfolioEval P f b X = .ok (avg fun i => -∑ k, w k * X i k) := by
  unfold portfolioEval
  rw [hP, if_neg (by rw [dedicated_no_entropic]; simp), if_pos rfl, hc]
  exact meanDot_avg X w

/-- **C77** (partial: no risk term) Without risk term (`eta = 0`) the score of a portfolio fitted by the dedicated solver is minus the average
loss of its weights and threshold, on all data of any dtype. -/
theorem C77_portfolio_dedicated_partial {G : Type} {n m J : ℕ} {ext : TorchExt G} {grads : Autograd m} {solve : Oracle} (hs : ExactSolver solve)
    {train : Trainer m} {p0 : Portfolio} {P : EstParams} (hP : P.solver = "dedicated".toList) {c : CostObj} (hc : cost_from_str P.cost = .ok c)
    (hp : NormOrder (c.power.map fun q : ℚ => (q : ℝ))) {C : Fin J → Fin m → ℝ} {D : Fin J → ℝ} {X : Fin n → Fin m → ℝ} {g : G} {f : Fitted m}
    (h : portfolioFit ext grads solve train p0 P C D X g = .ok f) (he : P.eta = 0) :
    ∃ (w : Fin m → ℝ) (tau : ℝ), InSimplex w ∧ f.coef = some (listT (List.ofFn w)) ∧ f.tau = some (listT [tau]) ∧
      ∀ (N : ℕ) (b : Bool) (X' : Fin N → Fin m → ℝ), score (portfolioEval P f b X') = .ok (-pfLoss P.eta P.alpha w tau X') := by
  obtain ⟨w, tau, h1, h2, h3⟩ := portfolioFit_dedicated hs hP hc hp h
  refine ⟨w, tau, h1, h2, h3, fun N b X' => ?_⟩
  rw [portfolioEval_dedicated hP h2]
  simp [score, Except.map, pfLoss, meanCVaR, he]

/-- **C77** (violated) With a risk term (`eta > 0`) the score of a portfolio fitted by the dedicated solver forgets it: on returns all
equal to -1 it is always above minus the average loss trained on. -/
theorem C77_portfolio_risk_false {G : Type} {n m J : ℕ} {ext : TorchExt G} {grads : Autograd m} {solve : Oracle} (hs : ExactSolver solve)
    {train : Trainer m} {p0 : Portfolio} {P : EstParams} (hP : P.solver = "dedicated".toList) {c : CostObj} (hc : cost_from_str P.cost = .ok c)
    (hp : NormOrder (c.power.map fun q : ℚ => (q : ℝ))) {C : Fin J → Fin m → ℝ} {D : Fin J → ℝ} {X : Fin n → Fin m → ℝ} {g : G} {f : Fitted m}
    (h : portfolioFit ext grads solve train p0 P C D X g = .ok f) (he : 0 < P.eta) (ha : 0 < P.alpha) (ha1 : P.alpha ≤ 1) :
    ∃ (w : Fin m → ℝ) (tau : ℝ), f.coef = some (listT (List.ofFn w)) ∧ f.tau = some (listT [tau]) ∧
      ∀ b, ∃ v, score (portfolioEval P f b fun (_ : Fin 1) (_ : Fin m) => (-1 : ℝ)) = .ok v ∧
        -pfLoss P.eta P.alpha w tau (fun (_ : Fin 1) (_ : Fin m) => (-1 : ℝ)) < v := by
  obtain ⟨w, tau, h1, h2, h3⟩ := portfolioFit_dedicated hs hP hc hp h
  refine ⟨w, tau, h2, h3, fun b => ⟨-1, ?_, ?_⟩⟩
  · rw [portfolioEval_dedicated hP h2]
    simp [score, Except.map, avg, h1.2]
  · have e : pfLoss P.eta P.alpha w tau (fun (_ : Fin 1) (_ : Fin m) => (-1 : ℝ)) = meanCVaR P.eta P.alpha (-1) tau := by
      simp [pfLoss, avg, h1.2]
    rw [e, ← C27_pieces _ _ _ _ he.le ha, neg_neg]
    have h4 : 1 ≤ tau + max 0 (1 - tau) / P.alpha := by
      have h5 : max 0 (1 - tau) ≤ max 0 (1 - tau) / P.alpha := le_div_self (le_max_left _ _) ha ha1
      have h6 := le_max_right (0 : ℝ) (1 - tau)
      linarith
    have h7 := mul_le_mul_of_nonneg_left h4 he.le
    linarith

/-- **C67**, and the assumptions of the statements above are met: the default portfolio, or one with any admissible risk parameters, fits
all data with an exact external solver, and is then scored on all data of any dtype. -/
theorem C67_portfolio_partial {G : Type} {n m : ℕ} (ext : TorchExt G) (grads : Autograd m) {solve : Oracle} (hs : ExactSolver solve)
    (train : Trainer m) (p0 : Portfolio) {eta alpha : ℝ} (he : 0 ≤ eta) (ha : 0 < alpha) (ha1 : alpha ≤ 1) (hn : 0 < n) (hm : 0 < m)
    (X : Fin n → Fin m → ℝ) (g : G) :
    ∃ f, portfolioFit ext grads solve train p0 { EstKind.portfolio.defaults with eta := eta, alpha := alpha } (zeroC m) zeroD X g = .ok f ∧
      ∀ (N : ℕ) (b : Bool) (X' : Fin N → Fin m → ℝ),
        ∃ v, score (portfolioEval { EstKind.portfolio.defaults with eta := eta, alpha := alpha } f b X') = .ok v := by
  have hcost : cost_from_str EstKind.portfolio.defaults.cost = _ := code_cost 1 1
  have hfit : ∃ f, portfolioFit ext grads solve train p0 { EstKind.portfolio.defaults with eta := eta, alpha := alpha } (zeroC m) zeroD X g = .ok f := by
    obtain ⟨theta, tau, lam, V, r, h1, h2, -⟩ := C63_optimal hs (p := .fin 1) (q := .pinf) (Or.inl ⟨1, le_refl _, rfl⟩) (by simp [pfQ]) hn hm
      (C := zeroC m) (d := zeroD) (fun _ _ => rfl) (fun _ => le_refl _) he ha ha1 (show (0 : ℝ) ≤ 1 / 100 by norm_num) X
    unfold portfolioFit
    rw [if_neg (by omega)]
    dsimp only
    rw [hcost, ok_bind, show route .portfolio EstKind.portfolio.defaults.solver = .ok .dedicated from by decide, ok_bind]
    dsimp only
    rw [show EstKind.portfolio.defaults.rho = .num (1 / 100) from rfl]
    simp only [Radius.toNum, ok_bind, XNum.map, Nat.cast_one, Rat.cast_one, h1, unpack4, h2]
    exact ⟨_, rfl⟩
  obtain ⟨f, hf⟩ := hfit
  obtain ⟨w, tau, -, h2, -⟩ := portfolioFit_dedicated (P := { EstKind.portfolio.defaults with eta := eta, alpha := alpha }) hs rfl hcost (Or.inl ⟨1, le_refl _, by simp [XNum.map]⟩) hf
  exact ⟨f, hf, fun N b X' => ⟨_, by rw [portfolioEval_dedicated rfl h2]; rfl⟩⟩

/-- **C77** (partial: evaluation data in single precision, see `C77_portfolio_dtype_false`) The score of a portfolio fitted by torch under
a name containing 'entropic' is minus the average loss of its weights (a portfolio) at the trained threshold. -/
theorem C77_portfolio_torch_partial {G : Type} {n m J : ℕ} {ext : TorchExt G} {grads : Autograd m} {solve : Oracle} {train : Trainer m}
    (ht : GoodTrainer train) {p0 : Portfolio} (h0 : p0.raw.length = m) {P : EstParams} (h1 : pyIn "torch".toList P.solver = true)
    (h2 : pyIn "entropic".toList P.solver = true) (he : 0 ≤ P.eta) (ha : 0 < P.alpha)
    {C : Fin J → Fin m → ℝ} {D : Fin J → ℝ} {X : Fin n → Fin m → ℝ} {g : G} {f : Fitted m}
    (h : portfolioFit ext grads solve train p0 P C D X g = .ok f) :
    ∃ (w : Fin m → ℝ) (q : Portfolio) (a : DualizeArgs), InSimplex w ∧ f.coef = some (listT (List.ofFn w)) ∧ f.torch = some (.portfolio q, a) ∧
      ∀ (N : ℕ) (X' : Fin N → Fin m → ℝ), score (portfolioEval P f true X') = .ok (-pfLoss P.eta P.alpha w q.tau X') := by
  obtain ⟨post, hr⟩ := route_torch .portfolio h1
  unfold portfolioFit at h
  split at h
  · cases h
  next hpos =>
  have hm : 0 < m := by omega
  obtain ⟨_, -, h⟩ := bind_ok h
  obtain ⟨c, -, h⟩ := bind_ok h
  rw [hr, ok_bind] at h
  dsimp only at h
  obtain ⟨M, hM, h⟩ := bind_ok h
  have hs := fitTorch_ok ht hM
  cases M with
  | portfolio q =>
    simp only [SameShape] at hs
    obtain ⟨hl, hq1, hq2⟩ := hs
    simp only [Except.ok.injEq] at h
    subst h
    obtain ⟨raw, tau, eta, alpha⟩ := q
    simp only at hl hq1 hq2
    rw [h0] at hl
    subst hq1 hq2
    obtain ⟨v, rfl⟩ : ∃ v : Fin m → ℝ, raw = List.ofFn v := by
      subst hl
      exact ⟨raw.get, (List.ofFn_get raw).symm⟩
    obtain ⟨w, hw, hsim, -⟩ := C27_weights hm v tau P.eta P.alpha
    refine ⟨w, _, _, hsim, by rw [hw], rfl, fun N X' => ?_⟩
    obtain ⟨w', -, hw', t, h5, h6⟩ := C27_batch hm v tau P.eta P.alpha he ha (hasRows_of_isMat (matT_is X'))
    have hww : w' = w := List.ofFn_injective (hw'.symm.trans hw)
    subst hww
    have hI : IsMat t (fun i (_ : Fin 1) => meanCVaR P.eta P.alpha (∑ k, w' k * X' i k) tau) := by
      refine ⟨h6.1, fun i c => ?_⟩
      have := h6.2 [i.1] (List.Forall₂.cons i.2 List.Forall₂.nil) c
      simpa [rowsOf_apply] using this
    unfold portfolioEval
    rw [if_pos h2, if_neg (by simp)]
    rw [torchEval_rows (M := .portfolio ⟨List.ofFn v, tau, P.eta, P.alpha⟩)
      (a := torchArgs grads .portfolio P post false (matT X) none (.portfolio ⟨List.ofFn v, tau, P.eta, P.alpha⟩)) rfl rfl rfl rfl X' h5 hI]
    have hz : ∀ th, ridge (torchArgs grads .portfolio P post false (matT X) none (.portfolio ⟨List.ofFn v, tau, P.eta, P.alpha⟩)).l2reg th = 0 := by
      intro th
      show ridge (some 0) th = 0
      simp [ridge]
    simp only [hz, add_zero]
    rfl
  | softMargin l => exact hs.elim
  | crossEnt l => exact hs.elim
  | mse l => exact hs.elim
  | weber p => exact hs.elim
  | newsvendor a b c => exact hs.elim

/-- **C77** (violated) On data in another precision (numpy's default, double) a portfolio fitted by torch cannot be scored. -/
theorem C77_portfolio_dtype_false {N m : ℕ} (P : EstParams) (f : Fitted m) (hf : f.torch ≠ none) (h2 : pyIn "entropic".toList P.solver = true)
    (X' : Fin N → Fin m → ℝ) : score (portfolioEval P f false X') = .error .runtimeError := by
  have : f.torch.isSome = true := Option.isSome_iff_ne_none.2 hf
  simp [portfolioEval, h2, this, score, Except.map, -String.reduceToList]

end Skwdro
