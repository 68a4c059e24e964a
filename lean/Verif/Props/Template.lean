import Verif.Model.Template

/-! # C122: the reference estimators -/

namespace Skwdro

/-- `j` is the first of the points closest to `x` -/
def Spec.FirstClosest {n d : ℕ} (X : Fin n → Fin d → ℝ) (x : Fin d → ℝ) (j : Fin n) : Prop :=
  (∀ i, ∑ k, (x k - X j k) ^ 2 ≤ ∑ k, (x k - X i k) ^ 2) ∧ ∀ i < j, ∑ k, (x k - X j k) ^ 2 < ∑ k, (x k - X i k) ^ 2

open Spec

theorem sum_sq_nonneg {d : ℕ} (x z : Fin d → ℝ) : 0 ≤ ∑ k, (x k - z k) ^ 2 := Finset.sum_nonneg fun _ _ => sq_nonneg _

theorem rowDist_le {d : ℕ} (x z w : Fin d → ℝ) : rowDist x z ≤ rowDist x w ↔ ∑ k, (x k - z k) ^ 2 ≤ ∑ k, (x k - w k) ^ 2 :=
  Real.sqrt_le_sqrt_iff (sum_sq_nonneg x w)

theorem npArgmin_spec {n : ℕ} (f : Fin n → ℝ) (hn : 0 < n) : ∃ j, npArgmin f = some j ∧ (∀ i, f j ≤ f i) ∧ ∀ i < j, f j < f i := by
  unfold npArgmin
  cases h : (List.finRange n).argmin f with
  | none =>
    rw [List.argmin_eq_none] at h
    have := congrArg List.length h
    simp at this
    omega
  | some j =>
    have hm : j ∈ (List.finRange n).argmin f := by rw [h]; rfl
    have hle : ∀ i, f j ≤ f i := fun i => List.le_of_mem_argmin (List.mem_finRange i) hm
    refine ⟨j, rfl, hle, fun i hi => lt_of_le_of_ne (hle i) fun e => ?_⟩
    have := List.index_of_argmin hm (List.mem_finRange i) e.ge
    simp only [List.idxOf_finRange] at this
    omega

theorem firstClosest_unique {n d : ℕ} {X : Fin n → Fin d → ℝ} {x : Fin d → ℝ} {i j : Fin n} (hi : FirstClosest X x i) (hj : FirstClosest X x j) :
    i = j := by
  rcases lt_trichotomy i j with h | h | h
  · exact absurd (hj.2 i h) (not_lt.2 (hi.1 j))
  · exact h
  · exact absurd (hi.2 j h) (not_lt.2 (hj.1 i))

theorem mapM_labels {L : Type} {n d N : ℕ} (hn : 0 < n) (X : Fin n → Fin d → ℝ) (y : Fin n → L) (X' : Fin N → Fin d → ℝ) (l : List (Fin N)) :
    ∃ c : Fin N → Fin n, (∀ i, FirstClosest X (X' i) (c i)) ∧
      (l.mapM fun i => nnLabel y (npArgmin fun j => rowDist (X' i) (X j))) = .ok (l.map fun i => y (c i)) := by
  choose c h1 h2 h3 using fun i => npArgmin_spec (fun j => rowDist (X' i) (X j)) hn
  refine ⟨c, fun i => ⟨fun j => (rowDist_le _ _ _).1 (h2 i j), fun j hj => ?_⟩, ?_⟩
  · exact lt_of_not_ge fun h => absurd (h3 i j hj) (not_lt.2 ((rowDist_le _ _ _).2 h))
  · induction l with
    | nil => rfl
    | cons a l ih => rw [List.mapM_cons, ih, h1]; rfl

/-- **C122** After any history of calls in which some fit returned, the classifier labels every point with the label of the first of the
training points closest to it, in the last fit that returned; data with another number of features is refused; before any successful fit
predictions raise `NotFittedError`. -/
theorem C122_nearest {L : Type} (before after : List (NNOp L)) {n d : ℕ} (hn : 0 < n) (hd : 0 < d) (X : Fin n → Fin d → ℝ) (y : Fin n → L)
    (hafter : ∀ op ∈ after, ∀ n' d' X' y', op = .fit n' d' X' y' → n' = 0 ∨ d' = 0) {N : ℕ} (hN : 0 < N) :
    (∀ X' : Fin N → Fin d → ℝ, ∃ c : Fin N → Fin n, (∀ i, FirstClosest X (X' i) (c i)) ∧
      nnPredict (nnRun (before ++ .fit n d X y :: after)) X' = .ok (List.ofFn fun i => y (c i))) ∧
    ∀ (d' : ℕ) (X' : Fin N → Fin d' → ℝ), d' ≠ d → nnPredict (nnRun (before ++ .fit n d X y :: after)) X' = .error .valueError := by
  have hrun : nnRun (before ++ .fit n d X y :: after) = some ⟨n, d, X, y⟩ := by
    have keep : ∀ (l : List (NNOp L)) (s : Option (NNFit L)), (∀ op ∈ l, ∀ n' d' X' y', op = .fit n' d' X' y' → n' = 0 ∨ d' = 0) →
        l.foldl NNOp.step s = s := by
      intro l
      induction l with
      | nil => intro s _; rfl
      | cons a l ih =>
        intro s h
        have e : NNOp.step s a = s := by
          cases a with
          | predict N d X => rfl
          | fit n' d' X' y' => simp only [NNOp.step, nnFit, if_pos (h _ List.mem_cons_self n' d' X' y' rfl)]
        rw [List.foldl_cons, e]
        exact ih s fun op hop => h op (List.mem_cons_of_mem _ hop)
    unfold nnRun
    rw [List.foldl_append, List.foldl_cons, keep after _ hafter]
    simp only [NNOp.step, nnFit, if_neg (show ¬(n = 0 ∨ d = 0) by omega)]
  rw [hrun]
  refine ⟨fun X' => ?_, fun d' X' hne => ?_⟩
  · obtain ⟨c, h1, h2⟩ := mapM_labels hn X y X' (List.finRange N)
    refine ⟨c, h1, ?_⟩
    unfold nnPredict
    simp only [if_neg (show ¬(N = 0 ∨ d = 0) by omega), dif_pos]
    rw [List.ofFn_eq_map]
    exact h2
  · unfold nnPredict
    simp only [dif_neg hne]
    split <;> rfl

/-- **C122** Training points are given back their own labels, as soon as equal points have equal labels. -/
theorem C122_training {L : Type} {n d : ℕ} (hn : 0 < n) (hd : 0 < d) (X : Fin n → Fin d → ℝ) (y : Fin n → L)
    (hxy : ∀ i j, X i = X j → y i = y j) : nnPredict (nnRun [.fit n d X y]) X = .ok (List.ofFn y) := by
  obtain ⟨c, h1, h2⟩ := (C122_nearest [] [] hn hd X y (by simp) hn).1 X
  have : (fun i => y (c i)) = y := by
    funext i
    refine (hxy _ _ ?_).symm
    have h := (h1 i).1 i
    simp only [sub_self, ne_eq, OfNat.ofNat_ne_zero, not_false_eq_true, zero_pow, Finset.sum_const_zero] at h
    have h0 := (Finset.sum_eq_zero_iff_of_nonneg fun k _ => sq_nonneg (X i k - X (c i) k)).1 (le_antisymm h (sum_sq_nonneg _ _))
    funext k
    have := h0 k (Finset.mem_univ k)
    have := pow_eq_zero_iff (two_ne_zero) |>.1 this
    linarith
  rw [this] at h2
  exact h2

/-- **C122** Calls before any fit, or after fits that raised only, raise `NotFittedError` (the third estimator on non-empty
matrices: it checks the matrix first). -/
theorem C122_not_fitted {L : Type} (ops : List (NNOp L)) (h : ∀ op ∈ ops, ∀ n' d' X' y', op = .fit n' d' X' y' → n' = 0 ∨ d' = 0) {N d : ℕ}
    (X : Fin N → Fin d → ℝ) : nnPredict (nnRun ops) X = .error .notFitted ∧ sqrtTransform none X = .error .notFitted ∧
      (0 < N → 0 < d → onesPredict false X = .error .notFitted) := by
  have : nnRun ops = none := by
    unfold nnRun
    suffices ∀ l : List (NNOp L), (∀ op ∈ l, ∀ n' d' X' y', op = .fit n' d' X' y' → n' = 0 ∨ d' = 0) → l.foldl NNOp.step none = none from this ops h
    intro l
    induction l with
    | nil => intro _; rfl
    | cons a l ih =>
      intro h
      have e : NNOp.step none a = none := by
        cases a with
        | predict N d X => rfl
        | fit n' d' X' y' => simp only [NNOp.step, nnFit, if_pos (h _ List.mem_cons_self n' d' X' y' rfl)]
      rw [List.foldl_cons, e]
      exact ih fun op hop => h op (List.mem_cons_of_mem _ hop)
  rw [this]
  refine ⟨rfl, rfl, fun hN hd => ?_⟩
  simp only [onesPredict, if_neg (show ¬(N = 0 ∨ d = 0) by omega)]
  rfl

/-- **C122** The transformer fitted on `m` features refuses any other number of features, and otherwise returns the numbers whose squares
are the data, and NaN exactly at negative entries. -/
theorem C122_transform {N d m : ℕ} (hN : 0 < N) (X : Fin N → Fin d → ℝ) :
    (d ≠ m → sqrtTransform (some m) X = .error .valueError) ∧
    (0 < d → d = m → ∃ Z, sqrtTransform (some m) X = .ok Z ∧ ∀ i j, (X i j < 0 → Z i j = .nan) ∧
      (0 ≤ X i j → ∃ r, Z i j = .fin r ∧ 0 ≤ r ∧ r * r = X i j)) := by
  refine ⟨fun h => ?_, fun hd h => ⟨fun i j => npSqrt (X i j), ?_, fun i j => ⟨fun h => ?_, fun h => ?_⟩⟩⟩
  · simp only [sqrtTransform, ne_eq, h, not_false_eq_true, if_true]
    split <;> rfl
  · simp only [sqrtTransform, if_neg (show ¬(N = 0 ∨ d = 0) by omega), if_neg (not_not.2 h)]
  · exact if_pos h
  · exact ⟨Real.sqrt (X i j), if_neg (not_lt.2 h), Real.sqrt_nonneg _, Real.mul_self_sqrt h⟩

/-- **C122** (violated) Unlike the two others, the reference estimator checks no number of features: once fitted on any data it answers ones
to matrices of every width. -/
theorem C122_width_false {N d : ℕ} (hN : 0 < N) (hd : 0 < d) (X : Fin N → Fin d → ℝ) : onesPredict true X = .ok (List.replicate N 1) := by
  simp only [onesPredict, if_neg (show ¬(N = 0 ∨ d = 0) by omega), if_true]

/-- the assumptions above are met: two training points on a line, with a failed refit in between -/
example : ∃ c : Fin 1 → Fin 2, nnPredict (nnRun [.fit 2 1 (fun i _ => (i : ℝ)) (fun i => i.1), .fit 0 1 (fun i => i.elim0) (fun i => i.elim0)])
    (fun (_ : Fin 1) (_ : Fin 1) => (3 : ℝ)) = .ok (List.ofFn fun i => (c i).1) ∧ c 0 = 1 := by
  obtain ⟨c, h1, h2⟩ := (C122_nearest [] [.fit 0 1 (fun i => i.elim0) (fun i => i.elim0)] (by norm_num) (by norm_num)
    (fun (i : Fin 2) (_ : Fin 1) => (i : ℝ)) (fun i => i.1) (by rintro op h n' d' X' y' rfl; simp at h; omega) (N := 1) (by norm_num)).1
    (fun _ _ => 3)
  refine ⟨c, h2, ?_⟩
  have h := (h1 0).1 1
  rcases Fin.exists_fin_two.1 ⟨c 0, rfl⟩ with e | e
  · rw [e] at h
    norm_num at h
  · exact e

end Skwdro
