import Verif.Props.Presentation

/-! # C129: fits on the same data presented in another way -/

namespace Skwdro
open Spec MeasureTheory Tensor

section
variable {d : ℕ} {U : Matrix (Fin d) (Fin d) ℝ}

theorem rotated_back (hU : U ∈ Matrix.orthogonalGroup (Fin d) ℝ) (x : Fin d → ℝ) : rotated U.transpose (rotated U x) = x := by
  have : U.transpose * U = 1 := (Matrix.mem_orthogonalGroup_iff' _ _).1 hU
  unfold rotated
  rw [Matrix.mulVec_mulVec, this, Matrix.one_mulVec]

theorem rotated_forth (hU : U ∈ Matrix.orthogonalGroup (Fin d) ℝ) (x : Fin d → ℝ) : rotated U (rotated U.transpose x) = x := by
  have : U * U.transpose = 1 := (Matrix.mem_orthogonalGroup_iff _ _).1 hU
  unfold rotated
  rw [Matrix.mulVec_mulVec, this, Matrix.one_mulVec]

theorem transpose_orthogonal (hU : U ∈ Matrix.orthogonalGroup (Fin d) ℝ) : U.transpose ∈ Matrix.orthogonalGroup (Fin d) ℝ := by
  have : U.transpose * U = 1 := (Matrix.mem_orthogonalGroup_iff' _ _).1 hU
  rw [Matrix.mem_orthogonalGroup_iff, Matrix.transpose_transpose]
  exact this

theorem rotated_dot (hU : U ∈ Matrix.orthogonalGroup (Fin d) ℝ) (x w : Fin d → ℝ) : ∑ j, rotated U x j * rotated U w j = ∑ j, x j * w j := by
  have h : U.transpose * U = 1 := (Matrix.mem_orthogonalGroup_iff' _ _).1 hU
  have : rotated U x ⬝ᵥ rotated U w = x ⬝ᵥ w := by
    unfold rotated
    rw [Matrix.dotProduct_mulVec, ← Matrix.mulVec_transpose, Matrix.mulVec_mulVec, h, Matrix.one_mulVec]
  exact this

theorem rotated_sub (x w : Fin d → ℝ) : rotated U x - rotated U w = rotated U (x - w) := by
  unfold rotated
  rw [Matrix.mulVec_sub]

theorem rotated_dist (hU : U ∈ Matrix.orthogonalGroup (Fin d) ℝ) (x w : Fin d → ℝ) : dist2 (rotated U x) (rotated U w) = dist2 x w := by
  unfold dist2
  congr 1
  have := rotated_dot hU (x - w) (x - w)
  rw [← rotated_sub] at this
  simpa [pow_two] using this

theorem rotated_measurable : Measurable (rotated U) := by
  unfold rotated
  exact measurable_pi_lambda _ fun i => by
    unfold Matrix.mulVec dotProduct
    fun_prop

theorem rmse_rotated (hU : U ∈ Matrix.orthogonalGroup (Fin d) ℝ) (Q : Measure ((Fin d → ℝ) × ℝ)) (w : Fin d → ℝ) (b : ℝ) :
    rmseUnder (Q.map (Prod.map (rotated U) id)) (rotated U w) b = rmseUnder Q w b := by
  unfold rmseUnder
  rw [integral_map (rotated_measurable.prodMap measurable_id).aemeasurable (by fun_prop)]
  simp only [Prod.map_fst, Prod.map_snd, id_eq, rotated_dot hU]

/-- labelled points in other coordinates, the two classes being possibly exchanged (`s = -1`) -/
noncomputable def relabel (U : Matrix (Fin d) (Fin d) ℝ) (s : ℝ) (p : (Fin d → ℝ) × ℝ) : (Fin d → ℝ) × ℝ := (rotated U p.1, s * p.2)

theorem relabel_measurable (s : ℝ) : Measurable (relabel U s) :=
  (rotated_measurable.comp measurable_fst).prodMk (measurable_snd.const_mul s)

theorem relabel_cost (hU : U ∈ Matrix.orthogonalGroup (Fin d) ℝ) {s : ℝ} (hs : s * s = 1) (kappa : ℝ) (a b : (Fin d → ℝ) × ℝ) :
    moveOrFlip kappa (relabel U s a) (relabel U s b) = moveOrFlip kappa a b := by
  have h0 : s ≠ 0 := by rintro rfl; simp at hs
  have e : (s * a.2 = s * b.2) ↔ a.2 = b.2 := mul_right_inj' h0
  unfold moveOrFlip relabel
  simp only [rotated_dist hU, e]

theorem moveOrFlip_measurable (kappa : ℝ) (a : (Fin d → ℝ) × ℝ) : Measurable (moveOrFlip kappa a) := by
  unfold moveOrFlip
  refine Measurable.add ?_ (Measurable.ite ?_ measurable_const measurable_const)
  · unfold dist2; fun_prop
  · exact measurableSet_eq_fun measurable_const measurable_snd

theorem relabel_back (hU : U ∈ Matrix.orthogonalGroup (Fin d) ℝ) {s : ℝ} (hs : s * s = 1) (p : (Fin d → ℝ) × ℝ) :
    relabel U.transpose s (relabel U s p) = p := by
  unfold relabel
  simp only [rotated_back hU, ← mul_assoc, hs, one_mul]

theorem relabel_forth (hU : U ∈ Matrix.orthogonalGroup (Fin d) ℝ) {s : ℝ} (hs : s * s = 1) (p : (Fin d → ℝ) × ℝ) :
    relabel U s (relabel U.transpose s p) = p := by
  unfold relabel
  simp only [rotated_forth hU, ← mul_assoc, hs, one_mul]

theorem labelBall_relabel {n : ℕ} {X : Fin n → Fin d → ℝ} {y : Fin n → ℝ} (hU : U ∈ Matrix.orthogonalGroup (Fin d) ℝ) {s : ℝ} (hs : s * s = 1) {kappa rho : ℝ}
    {Q : Measure ((Fin d → ℝ) × ℝ)} (h : Q ∈ LabelBall X y kappa rho) :
    Q.map (relabel U s) ∈ LabelBall (fun i => rotated U (X i)) (fun i => s * y i) kappa rho := by
  have hb := inBall_map (z := fun i => (X i, y i)) (cost := moveOrFlip kappa) (cost' := moveOrFlip kappa) (relabel_measurable (U := U) s)
    (relabel_cost hU hs kappa) (fun i => moveOrFlip_measurable kappa (relabel U s (X i, y i))) h.1
  refine ⟨hb, ?_⟩
  have hm : MeasurableSet {p : (Fin d → ℝ) × ℝ | p.2 = 1 ∨ p.2 = -1} :=
    (measurableSet_eq_fun measurable_snd measurable_const).union (measurableSet_eq_fun measurable_snd measurable_const)
  rw [ae_map_iff (relabel_measurable s).aemeasurable hm]
  filter_upwards [h.2] with p hp
  have hs' : s = 1 ∨ s = -1 := mul_self_eq_one_iff.1 hs
  simp only [relabel]
  rcases hs' with rfl | rfl <;> rcases hp with hp | hp <;> rw [hp] <;> norm_num

theorem logRisk_measurable (w : Fin d → ℝ) (b : ℝ) : Measurable fun p : (Fin d → ℝ) × ℝ => logloss p.2 (Spec.score w (some b) p.1) := by
  unfold logloss Spec.score
  exact Real.measurable_log.comp (by fun_prop)

theorem logRisk_relabel (hU : U ∈ Matrix.orthogonalGroup (Fin d) ℝ) {s : ℝ} (hs : s * s = 1) (Q : Measure ((Fin d → ℝ) × ℝ)) (w : Fin d → ℝ) (b : ℝ) :
    logRisk (fun j => s * rotated U w j) (s * b) (Q.map (relabel U s)) = logRisk w b Q := by
  unfold logRisk
  rw [integral_map (relabel_measurable s).aemeasurable (logRisk_measurable _ _).aestronglyMeasurable]
  have e : ∀ p : (Fin d → ℝ) × ℝ, (relabel U s p).2 * Spec.score (fun j => s * rotated U w j) (some (s * b)) (relabel U s p).1 =
      p.2 * Spec.score w (some b) p.1 := by
    intro p
    have h1 : Spec.score (fun j => s * rotated U w j) (some (s * b)) (relabel U s p).1 = s * Spec.score w (some b) p.1 := by
      unfold Spec.score relabel
      simp only [Option.getD_some, mul_assoc, ← Finset.mul_sum, rotated_dot hU, mul_add]
    rw [h1]
    unfold relabel
    linear_combination (p.2 * Spec.score w (some b) p.1) * hs
  simp only [logloss, e]

end

section
variable {G : Type} {n n' d : ℕ} {ext : TorchExt G} {solve : Oracle} {P : EstParams} {g : G}

/-- **C129** Linear regression with `solver="dedicated"`: fitting the samples in another order, all of them repeated equally often, and in
another orthonormal system of coordinates, returns the coefficients, in these coordinates, of a model that is optimal for the original data
(smallest worst-case RMSE when inputs move by a mean square of at most `rho^2`). -/
theorem C129_linreg (hs : ExactSolver solve) {grads : Autograd d} {train : Trainer d} {init : LinInit d} (hP : P.solver = "dedicated".toList)
    (hc : ∃ c, cost_from_str P.cost = .ok c) {rho : ℝ} (hR : P.rho = .num rho) (hr : 0 < rho) (hn : 0 < n') (hd : 0 < d)
    (X : Fin n → Fin d → ℝ) (y : Fin n → ℝ) {σ : Fin n' → Fin n} (hσ : ListsEqually σ) {U : Matrix (Fin d) (Fin d) ℝ}
    (hU : U ∈ Matrix.orthogonalGroup (Fin d) ℝ) :
    ∃ f wT bT w b, linregFit ext grads solve train init P (fun j => rotated U (X (σ j))) (fun j => y (σ j)) g = .ok f ∧ f.coef = some wT ∧
      IsVec wT (rotated U w) ∧ f.intercept = some bT ∧ IsVec bT (fun _ : Fin 1 => b) ∧ (P.fit_intercept = false → b = 0) ∧
      ∀ (w' : Fin d → ℝ) (b' : ℝ), (P.fit_intercept = false → b' = 0) → ∀ M, (∀ Q ∈ InputBall X y rho, rmseUnder Q w' b' ≤ M) →
        ∀ Q ∈ InputBall X y rho, rmseUnder Q w b ≤ M := by
  obtain ⟨f, wT, bT, v, b, h1, h2, h3, h4, h5, h6, h7⟩ :=
    C94_linreg (ext := ext) (g := g) hs (grads := grads) (train := train) (init := init) hP hc hR hr hn hd (fun j => rotated U (X (σ j))) (fun j => y (σ j))
  refine ⟨f, wT, bT, rotated U.transpose v, b, h1, h2, by rwa [rotated_forth hU], h4, h5, h6, fun w' b' hb' M hM Q hQ => ?_⟩
  rw [inputBall_lists hσ hn (fun i => rotated U (X i)) y rho] at h7
  have hUt := transpose_orthogonal hU
  have := h7 (rotated U w') b' hb' M (fun Q' hQ' => by
    have hb := inputBall_map rotated_measurable (rotated_dist hUt) hQ'
    simp only [rotated_back hU] at hb
    have := hM _ hb
    rwa [← rmse_rotated hUt, rotated_back hU]) _ (inputBall_map rotated_measurable (rotated_dist hU) hQ)
  rwa [← rotated_forth hU v, rmse_rotated hU] at this

/-- **C129** Logistic regression with `solver="dedicated"`: fitting the samples in another order, all of them repeated equally often, in another
orthonormal system of coordinates, with other names for the two classes (`s = -1` if their order is exchanged), returns the coefficients, in
these coordinates and for this order of the classes, of a model that is optimal for the original data. -/
theorem C129_logistic {L : Type} [LinearOrder L] (hs : ExactSolver solve) {grads : Autograd d} {train : Trainer d} {init : LinInit d}
    (hP : P.solver = "dedicated".toList) (hc : ∃ c, cost_from_str P.cost = .ok c) {rho : ℝ} (hR : P.rho = .num rho) (hr : 0 < rho)
    (hd : 0 < d) (X : Fin n → Fin d → ℝ) {s : Fin n → ℝ} {σ : Fin n' → Fin n} (hσ : ListsEqually σ) {U : Matrix (Fin d) (Fin d) ℝ}
    (hU : U ∈ Matrix.orthogonalGroup (Fin d) ℝ) {t : ℝ} (ht : t = 1 ∨ t = -1)
    {y : Fin n' → L} {c0 c1 : L} (hlt : c0 < c1) (hy : ∀ j, y j = c0 ∨ y j = c1) (h0 : ∃ j, y j = c0) (h1 : ∃ j, y j = c1)
    (hs0 : ∀ j, y j = c0 → s (σ j) = -t) (hs1 : ∀ j, y j = c1 → s (σ j) = t) :
    ∃ f wT bT w b V, logisticFit ext grads solve train init P (fun j => rotated U (X (σ j))) y g = .ok f ∧ f.classes = [c0, c1] ∧
      f.coef = some wT ∧ IsVec wT (fun k => t * rotated U w k) ∧ f.intercept = some bT ∧ IsScalar bT (t * b) ∧ (P.fit_intercept = false → b = 0) ∧
      IsLUB {e | ∃ Q ∈ LabelBall X s 1000 rho, e = logRisk w b Q} V ∧
      ∀ w' b', (P.fit_intercept = false → b' = 0) → ∀ M, (∀ Q ∈ LabelBall X s 1000 rho, logRisk w' b' Q ≤ M) → V ≤ M := by
  have htt : t * t = 1 := mul_self_eq_one_iff.2 ht
  have hn : 0 < n' := h0.choose.pos
  obtain ⟨f, wT, bT, lT, v, b, lam, V, e1, e2, e3, e4, e5, e6, e7, -, -, -, e8, e9⟩ :=
    C94_logistic (ext := ext) (g := g) hs (grads := grads) (train := train) (init := init) hP hc hR hr hd (fun j => rotated U (X (σ j))) hlt hy h0 h1
      (s := fun j => t * s (σ j)) (fun j hj => by rw [hs0 j hj]; linarith) (fun j hj => by rw [hs1 j hj]; exact htt)
  have hball : ∀ Q, Q ∈ LabelBall (fun j => rotated U (X (σ j))) (fun j => t * s (σ j)) 1000 rho ↔
      Q ∈ LabelBall (fun i => rotated U (X i)) (fun i => t * s i) 1000 rho := fun Q =>
    and_congr_left' (C129_same_ball hσ hn (fun i => (rotated U (X i), t * s i)) (fun i => moveOrFlip_measurable 1000 _) rho Q)
  simp only [hball] at e8 e9
  have hUt := transpose_orthogonal hU
  have hback : ∀ Q ∈ LabelBall (fun i => rotated U (X i)) (fun i => t * s i) 1000 rho, Q.map (relabel U.transpose t) ∈ LabelBall X s 1000 rho := by
    intro Q hQ
    have := labelBall_relabel hUt htt hQ
    simpa only [rotated_back hU, ← mul_assoc, htt, one_mul] using this
  have hv : (fun k => t * rotated U (fun k => t * rotated U.transpose v k) k) = v := by
    have : rotated U (fun k => t * rotated U.transpose v k) = fun k => t * v k := by
      have : (fun k => t * rotated U.transpose v k) = t • rotated U.transpose v := rfl
      rw [this]
      unfold rotated
      rw [Matrix.mulVec_smul]
      have := rotated_forth hU v
      unfold rotated at this
      rw [this]
      rfl
    rw [this]
    funext k
    rw [← mul_assoc, htt, one_mul]
  have hb : t * (t * b) = b := by rw [← mul_assoc, htt, one_mul]
  have hrisk : ∀ Q, logRisk (fun k => t * rotated U.transpose v k) (t * b) (Q.map (relabel U.transpose t)) = logRisk v b Q := fun Q => logRisk_relabel hUt htt Q v b
  have hrisk' : ∀ Q, logRisk v b (Q.map (relabel U t)) = logRisk (fun k => t * rotated U.transpose v k) (t * b) Q := by
    intro Q
    have := logRisk_relabel hU htt Q (fun k => t * rotated U.transpose v k) (t * b)
    rwa [hv, hb] at this
  refine ⟨f, wT, bT, fun k => t * rotated U.transpose v k, t * b, V, e1, e2, e3, by rwa [hv], e5, by rwa [hb], fun h => by rw [e7 h, mul_zero], ?_, ?_⟩
  · convert e8 using 1
    ext e
    constructor
    · rintro ⟨Q, hQ, rfl⟩
      exact ⟨_, labelBall_relabel hU htt hQ, (hrisk' Q).symm⟩
    · rintro ⟨Q, hQ, rfl⟩
      exact ⟨_, hback Q hQ, (hrisk Q).symm⟩
  · intro w' b' hb' M hM
    refine e9 (fun k => t * rotated U w' k) (t * b') (fun h => by rw [hb' h, mul_zero]) M fun Q hQ => ?_
    have h1 := hM _ (hback Q hQ)
    rw [← logRisk_relabel hU htt, Measure.map_map (relabel_measurable _) (relabel_measurable _)] at h1
    have : relabel U t ∘ relabel U.transpose t = id := by
      funext p
      exact relabel_forth hU htt p
    rwa [this, Measure.map_id] at h1

end
end Skwdro
