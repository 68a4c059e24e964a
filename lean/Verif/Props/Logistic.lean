import Verif.Lemmas.Logistic
import Verif.Props.Newsvendor
import Mathlib.Topology.MetricSpace.ProperSpace.Real

/-! C62: the dedicated logistic regression solver. -/

namespace Skwdro
open Spec MeasureTheory

variable {n d : ℕ}

/-! ## The two programs in terms of their named variables -/

theorem logisticProgram_feasible (rho kappa : ℝ) (X : Fin n → Fin d → ℝ) (y : Fin n → ℝ) (v : Fin (d + 1 + n + 1) → ℝ) :
    (logisticProgram rho kappa X y).Feasible v ↔
      LogFeas kappa X y (fun j => v ⟨j, by omega⟩) (v ⟨d + 1 + n, by omega⟩) (v ⟨d, by omega⟩) (fun i => v ⟨d + 1 + i, by omega⟩) := by
  unfold Program.Feasible logisticProgram LogFeas score
  simp [mul_comm]
  intro _
  exact ⟨fun h i => ⟨h _ i (Or.inl rfl), h _ i (Or.inr rfl)⟩, fun h a i ha => by rcases ha with rfl | rfl; exacts [(h i).1, (h i).2]⟩

theorem logisticProgram_objective (rho kappa : ℝ) (X : Fin n → Fin d → ℝ) (y : Fin n → ℝ) (v : Fin (d + 1 + n + 1) → ℝ) :
    (logisticProgram rho kappa X y).objective v = v ⟨d, by omega⟩ * rho + avg (fun i : Fin n => v ⟨d + 1 + i, by omega⟩) := by
  unfold logisticProgram avg
  simp only
  ring

theorem logisticProgram0_feasible (rho kappa : ℝ) (X : Fin n → Fin d → ℝ) (y : Fin n → ℝ) (v : Fin (d + 1 + n) → ℝ) :
    (logisticProgram0 rho kappa X y).Feasible v ↔
      LogFeas kappa X y (fun j => v ⟨j, by omega⟩) 0 (v ⟨d, by omega⟩) (fun i => v ⟨d + 1 + i, by omega⟩) := by
  have h : ∀ i, y i * ∑ j : Fin d, v ⟨j, by omega⟩ * X i j = ∑ j : Fin d, y i * X i j * v ⟨j, by omega⟩ := by
    intro i
    rw [Finset.mul_sum]
    exact Finset.sum_congr rfl fun j _ => by ring
  unfold Program.Feasible logisticProgram0 LogFeas score
  simp [h]
  intro _
  exact ⟨fun h i => ⟨h _ i (Or.inl rfl), h _ i (Or.inr rfl)⟩, fun h a i ha => by rcases ha with rfl | rfl; exacts [(h i).1, (h i).2]⟩

theorem logisticProgram0_objective (rho kappa : ℝ) (X : Fin n → Fin d → ℝ) (y : Fin n → ℝ) (v : Fin (d + 1 + n) → ℝ) :
    (logisticProgram0 rho kappa X y).objective v = v ⟨d, by omega⟩ * rho + avg (fun i : Fin n => v ⟨d + 1 + i, by omega⟩) := by
  unfold logisticProgram0 avg
  simp only
  ring

/-- the variable vector with given parts -/
def packLog (w : Fin d → ℝ) (lam : ℝ) (s : Fin n → ℝ) (b : ℝ) (k : Fin (d + 1 + n + 1)) : ℝ :=
  if h : k.val < d then w ⟨k, h⟩ else if h2 : k.val = d then lam
  else if h3 : k.val < d + 1 + n then s ⟨k - (d + 1), by omega⟩ else b

/-- the same without intercept -/
def packLog0 (w : Fin d → ℝ) (lam : ℝ) (s : Fin n → ℝ) (k : Fin (d + 1 + n)) : ℝ :=
  if h : k.val < d then w ⟨k, h⟩ else if h2 : k.val = d then lam else s ⟨k - (d + 1), by omega⟩

theorem packLog_w (w : Fin d → ℝ) (lam : ℝ) (s : Fin n → ℝ) (b : ℝ) : (fun j : Fin d => packLog w lam s b ⟨j, by omega⟩) = w := by
  funext j; simp [packLog]

theorem packLog_lam (w : Fin d → ℝ) (lam : ℝ) (s : Fin n → ℝ) (b : ℝ) : packLog w lam s b ⟨d, by omega⟩ = lam := by
  simp [packLog]

theorem packLog_s (w : Fin d → ℝ) (lam : ℝ) (s : Fin n → ℝ) (b : ℝ) : (fun i : Fin n => packLog w lam s b ⟨d + 1 + i, by omega⟩) = s := by
  funext i
  have h1 : ¬ (d + 1 + i.val < d) := by omega
  have h2 : ¬ (d + 1 + i.val = d) := by omega
  simp [packLog, h1, h2]

theorem packLog_b (w : Fin d → ℝ) (lam : ℝ) (s : Fin n → ℝ) (b : ℝ) : packLog w lam s b ⟨d + 1 + n, by omega⟩ = b := by
  have h1 : ¬ (d + 1 + n < d) := by omega
  have h2 : ¬ (d + 1 + n = d) := by omega
  simp [packLog, h1, h2]

theorem packLog0_w (w : Fin d → ℝ) (lam : ℝ) (s : Fin n → ℝ) : (fun j : Fin d => packLog0 w lam s ⟨j, by omega⟩) = w := by
  funext j; simp [packLog0]

theorem packLog0_lam (w : Fin d → ℝ) (lam : ℝ) (s : Fin n → ℝ) : packLog0 w lam s ⟨d, by omega⟩ = lam := by
  simp [packLog0]

theorem packLog0_s (w : Fin d → ℝ) (lam : ℝ) (s : Fin n → ℝ) : (fun i : Fin n => packLog0 w lam s ⟨d + 1 + i, by omega⟩) = s := by
  funext i
  have h1 : ¬ (d + 1 + i.val < d) := by omega
  have h2 : ¬ (d + 1 + i.val = d) := by omega
  simp [packLog0, h1, h2]

/-! ## Certificates -/

/-- C62. Every feasible point of the program with intercept bounds the expected logistic loss of its coefficients under every law of
labelled points at transport distance at most `rho` (moving inputs costs their distance, flipping a label costs `kappa`). -/
theorem C62_certificate {kappa rho : ℝ} {X : Fin n → Fin d → ℝ} {y : Fin n → ℝ} (hy : ∀ i, y i = 1 ∨ y i = -1)
    {v : Fin (d + 1 + n + 1) → ℝ} (hv : (logisticProgram rho kappa X y).Feasible v) {Q : Measure ((Fin d → ℝ) × ℝ)}
    (hQ : Q ∈ LabelBall X y kappa rho) :
    Integrable (fun p : (Fin d → ℝ) × ℝ => logloss p.2 (score (fun j => v ⟨j, by omega⟩) (some (v ⟨d + 1 + n, by omega⟩)) p.1)) Q ∧
    logRisk (fun j => v ⟨j, by omega⟩) (v ⟨d + 1 + n, by omega⟩) Q ≤ (logisticProgram rho kappa X y).objective v := by
  rw [logisticProgram_objective]
  exact logistic_certificate hy ((logisticProgram_feasible ..).1 hv) hQ

/-- C62. The same without intercept. -/
theorem C62_certificate0 {kappa rho : ℝ} {X : Fin n → Fin d → ℝ} {y : Fin n → ℝ} (hy : ∀ i, y i = 1 ∨ y i = -1)
    {v : Fin (d + 1 + n) → ℝ} (hv : (logisticProgram0 rho kappa X y).Feasible v) {Q : Measure ((Fin d → ℝ) × ℝ)}
    (hQ : Q ∈ LabelBall X y kappa rho) :
    Integrable (fun p : (Fin d → ℝ) × ℝ => logloss p.2 (score (fun j => v ⟨j, by omega⟩) (some 0) p.1)) Q ∧
    logRisk (fun j => v ⟨j, by omega⟩) 0 Q ≤ (logisticProgram0 rho kappa X y).objective v := by
  rw [logisticProgram0_objective]
  exact logistic_certificate hy ((logisticProgram0_feasible ..).1 hv) hQ

/-- C62. The certificate is tight: for given coefficients and intercept, the smallest objective of the program is the supremum of the
expected logistic loss over the ball. -/
theorem C62_exact (hn : 0 < n) {kappa rho : ℝ} (hk : 0 ≤ kappa) (hr : 0 ≤ rho) {X : Fin n → Fin d → ℝ} {y : Fin n → ℝ}
    (hy : ∀ i, y i = 1 ∨ y i = -1) (w : Fin d → ℝ) (b : ℝ) :
    ∃ V, IsLUB {e | ∃ Q ∈ LabelBall X y kappa rho, e = logRisk w b Q} V ∧
      IsLeast {o | ∃ v, (logisticProgram rho kappa X y).Feasible v ∧ (∀ j : Fin d, v ⟨j, by omega⟩ = w j) ∧ v ⟨d + 1 + n, by omega⟩ = b ∧
        o = (logisticProgram rho kappa X y).objective v} V ∧
      (b = 0 → IsLeast {o | ∃ v, (logisticProgram0 rho kappa X y).Feasible v ∧ (∀ j : Fin d, v ⟨j, by omega⟩ = w j) ∧
        o = (logisticProgram0 rho kappa X y).objective v} V) := by
  obtain ⟨lam, s, hf, hlub⟩ := logistic_exact hn hk hr hy w b
  refine ⟨_, hlub, ⟨⟨packLog w lam s b, ?_, ?_, packLog_b .., ?_⟩, ?_⟩, ?_⟩
  · rw [logisticProgram_feasible, packLog_w, packLog_lam, packLog_s, packLog_b]
    exact hf
  · exact fun j => congrFun (packLog_w w lam s b) j
  · rw [logisticProgram_objective, packLog_lam, packLog_s]
  · rintro _ ⟨v, hv, hw, hb, rfl⟩
    apply hlub.2
    rintro _ ⟨Q, hQ, rfl⟩
    have := (C62_certificate hy hv hQ).2
    rw [hb, show (fun j : Fin d => v ⟨j, by omega⟩) = w from funext hw] at this
    exact this
  · rintro rfl
    refine ⟨⟨packLog0 w lam s, ?_, fun j => congrFun (packLog0_w w lam s) j, ?_⟩, ?_⟩
    · rw [logisticProgram0_feasible, packLog0_w, packLog0_lam, packLog0_s]
      exact hf
    · rw [logisticProgram0_objective, packLog0_lam, packLog0_s]
    · rintro _ ⟨v, hv, hw, rfl⟩
      apply hlub.2
      rintro _ ⟨Q, hQ, rfl⟩
      have := (C62_certificate0 hy hv hQ).2
      rw [show (fun j : Fin d => v ⟨j, by omega⟩) = w from funext hw] at this
      exact this

/-- the hypotheses are met by a small data set; with a useless model every law has the same loss -/
example : ∃ V, IsLUB {e | ∃ Q ∈ LabelBall (n := 2) (d := 1) (fun i _ => (i : ℝ)) (fun i => if i = 0 then 1 else -1) 1 (1 / 2), e = logRisk (fun _ => 2) 1 Q} V := by
  obtain ⟨V, h, -, -⟩ := C62_exact (n := 2) (d := 1) (by norm_num) (kappa := 1) (rho := 1 / 2) (by norm_num) (by norm_num)
    (X := fun i _ => (i : ℝ)) (y := fun i => if i = 0 then 1 else -1) (by intro i; fin_cases i <;> simp) (fun _ => 2) 1
  exact ⟨V, h⟩

/-! ## Existence of solutions -/

theorem logistic_opt_exists (hn : 0 < n) {kappa rho : ℝ} (hk : 0 ≤ kappa) (hr : 0 < rho) {X : Fin n → Fin d → ℝ} {y : Fin n → ℝ}
    (hy : ∀ i, y i = 1 ∨ y i = -1) (fi : Bool) :
    ∃ (w : Fin d → ℝ) (b lam : ℝ) (s : Fin n → ℝ), LogFeas kappa X y w b lam s ∧ (fi = false → b = 0) ∧
      ∀ w' b' lam' s', LogFeas kappa X y w' b' lam' s' → (fi = false → b' = 0) → lam * rho + avg s ≤ lam' * rho + avg s' := by
  have hn' : (0 : ℝ) < n := by exact_mod_cast hn
  set C := {v : (Fin d → ℝ) × ℝ × ℝ × (Fin n → ℝ) | LogFeas kappa X y v.1 v.2.1 v.2.2.1 v.2.2.2 ∧ (fi = false → v.2.1 = 0)} with hC
  set f : (Fin d → ℝ) × ℝ × ℝ × (Fin n → ℝ) → ℝ := fun v => v.2.2.1 * rho + avg v.2.2.2 with hf
  have hfc : Continuous f := by unfold f avg; fun_prop
  have hsc : ∀ i, Continuous fun v : (Fin d → ℝ) × ℝ × ℝ × (Fin n → ℝ) => score v.1 (some v.2.1) (X i) := by
    intro i; unfold score; simp only [Option.getD_some]; fun_prop
  have hCc : IsClosed C := by
    have h1 : IsClosed {v : (Fin d → ℝ) × ℝ × ℝ × (Fin n → ℝ) | norm2 v.1 ≤ v.2.2.1} := by
      unfold norm2
      exact isClosed_le (by fun_prop) (by fun_prop)
    have h2 : ∀ i, IsClosed {v : (Fin d → ℝ) × ℝ × ℝ × (Fin n → ℝ) | cpLogistic (y i * score v.1 (some v.2.1) (X i)) - kappa * v.2.2.1 ≤ v.2.2.2 i} := by
      intro i
      refine isClosed_le (Continuous.sub (cpLogistic_continuous.comp (continuous_const.mul (hsc i))) (by fun_prop)) (by fun_prop)
    have h3 : ∀ i, IsClosed {v : (Fin d → ℝ) × ℝ × ℝ × (Fin n → ℝ) | cpLogistic (-(y i * score v.1 (some v.2.1) (X i))) ≤ v.2.2.2 i} := by
      intro i
      refine isClosed_le (cpLogistic_continuous.comp (continuous_const.mul (hsc i)).neg) (by fun_prop)
    have h4 : IsClosed {v : (Fin d → ℝ) × ℝ × ℝ × (Fin n → ℝ) | fi = false → v.2.1 = 0} := by
      cases fi
      · simp only [true_imp_iff]
        exact isClosed_eq (by fun_prop) continuous_const
      · simp
    have : C = ({v | norm2 v.1 ≤ v.2.2.1} ∩ ⋂ i, ({v | cpLogistic (y i * score v.1 (some v.2.1) (X i)) - kappa * v.2.2.1 ≤ v.2.2.2 i} ∩
        {v | cpLogistic (-(y i * score v.1 (some v.2.1) (X i))) ≤ v.2.2.2 i})) ∩ {v | fi = false → v.2.1 = 0} := by
      ext v
      simp only [hC, LogFeas, Set.mem_ofPred_eq, Set.mem_inter_iff, Set.mem_iInter]
    rw [this]
    exact (h1.inter (isClosed_iInter fun i => (h2 i).inter (h3 i))).inter h4
  -- a reference point
  set v0 : (Fin d → ℝ) × ℝ × ℝ × (Fin n → ℝ) := (0, 0, 0, fun _ => cpLogistic 0) with hv0
  have hv0C : v0 ∈ C := by
    refine ⟨⟨by simp [hv0, norm2], fun i => ?_⟩, fun _ => rfl⟩
    simp [hv0, score]
  set A := f v0 with hA
  set B := A / rho + n * A + (n * A + kappa * (A / rho) + ∑ j, |X ⟨0, hn⟩ j| * (A / rho)) with hB
  have hbd : ∀ v ∈ C, f v ≤ A → (∀ j, |v.1 j| ≤ B) ∧ |v.2.1| ≤ B ∧ |v.2.2.1| ≤ B ∧ ∀ i, |v.2.2.2 i| ≤ B := by
    rintro ⟨w, b, lam, s⟩ ⟨⟨h1, h2⟩, -⟩ hle
    simp only at h1 h2 hle ⊢
    have hs0 : ∀ i, 0 ≤ s i := fun i => (cpLogistic_pos _).le.trans (h2 i).2
    have hlam0 : 0 ≤ lam := (l2norm_nonneg w).trans h1
    have havg0 : 0 ≤ avg s := div_nonneg (Finset.sum_nonneg fun i _ => hs0 i) hn'.le
    simp only [hf] at hle
    have hlr : 0 ≤ lam * rho := by positivity
    have hA0 : 0 ≤ A := by linarith
    have hlam : lam ≤ A / rho := by rw [le_div_iff₀ hr]; linarith
    have hsi : ∀ i, s i ≤ n * A := by
      intro i
      have h5 : s i ≤ ∑ i, s i := Finset.single_le_sum (fun i _ => hs0 i) (Finset.mem_univ i)
      have h6 : ∑ i, s i = n * avg s := by unfold avg; field_simp
      have h7 : (n : ℝ) * avg s ≤ n * A := mul_le_mul_of_nonneg_left (by linarith) hn'.le
      linarith
    have hAr : 0 ≤ A / rho := by positivity
    have hnA : 0 ≤ n * A := by positivity
    have hkA : 0 ≤ kappa * (A / rho) := by positivity
    have hXs : 0 ≤ ∑ j, |X ⟨0, hn⟩ j| * (A / rho) := by positivity
    have hwj : ∀ j, |w j| ≤ A / rho := fun j => (abs_le_norm2 w j).trans (h1.trans hlam)
    refine ⟨fun j => (hwj j).trans (by linarith), ?_, ?_, fun i => ?_⟩
    · obtain ⟨h3, h4⟩ := h2 ⟨0, hn⟩
      have e1 := (cpLogistic_ge _).trans h4
      have e2 := cpLogistic_ge (y ⟨0, hn⟩ * score w (some b) (X ⟨0, hn⟩))
      have e3 := hsi ⟨0, hn⟩
      have e4 : kappa * lam ≤ kappa * (A / rho) := mul_le_mul_of_nonneg_left hlam hk
      have e5 : |score w (some b) (X ⟨0, hn⟩)| ≤ n * A + kappa * (A / rho) := by
        rcases hy ⟨0, hn⟩ with h | h <;> rw [h] at e1 e2 h3 <;> rw [abs_le] <;> constructor <;> linarith
      have e6 : |∑ j, w j * X ⟨0, hn⟩ j| ≤ ∑ j, |X ⟨0, hn⟩ j| * (A / rho) := by
        refine (Finset.abs_sum_le_sum_abs _ _).trans (Finset.sum_le_sum fun j _ => ?_)
        rw [abs_mul, mul_comm]
        exact mul_le_mul_of_nonneg_left (hwj j) (abs_nonneg _)
      unfold score at e5
      rw [abs_le] at e5 e6 ⊢
      simp only [Option.getD_some] at e5
      constructor <;> linarith
    · rw [abs_of_nonneg hlam0]; linarith
    · rw [abs_of_nonneg (hs0 i)]
      have := hsi i
      linarith
  set K : Set ((Fin d → ℝ) × ℝ × ℝ × (Fin n → ℝ)) :=
    (Set.univ.pi fun _ => Set.Icc (-B) B) ×ˢ Set.Icc (-B) B ×ˢ Set.Icc (-B) B ×ˢ (Set.univ.pi fun _ => Set.Icc (-B) B) with hK
  have hKc : IsCompact (K ∩ C) := by
    apply IsCompact.inter_right _ hCc
    exact (isCompact_univ_pi fun _ => isCompact_Icc).prod (isCompact_Icc.prod (isCompact_Icc.prod (isCompact_univ_pi fun _ => isCompact_Icc)))
  have hmem : ∀ v ∈ C, f v ≤ A → v ∈ K ∩ C := by
    intro v hv hle
    obtain ⟨h1, h2, h3, h4⟩ := hbd v hv hle
    exact ⟨⟨fun j _ => abs_le.1 (h1 j), abs_le.1 h2, abs_le.1 h3, fun i _ => abs_le.1 (h4 i)⟩, hv⟩
  obtain ⟨v, hv, hmin⟩ := hKc.exists_isMinOn ⟨v0, hmem _ hv0C le_rfl⟩ hfc.continuousOn
  refine ⟨v.1, v.2.1, v.2.2.1, v.2.2.2, hv.2.1, hv.2.2, fun w' b' lam' s' hf' hb' => ?_⟩
  have hu : ((w', b', lam', s') : (Fin d → ℝ) × ℝ × ℝ × (Fin n → ℝ)) ∈ C := ⟨hf', hb'⟩
  by_cases h : f (w', b', lam', s') ≤ A
  · exact hmin (hmem _ hu h)
  · push Not at h
    exact (hmin (hmem _ hv0C le_rfl)).trans h.le

/-! ## The solver -/

/-- C62. With an exact external solver and a positive radius, the dedicated logistic solver returns coefficients, an intercept (zero when
none is fitted), a multiplier and a robust loss: the robust loss is the supremum of the expected logistic loss of this model over
the ball, and no other allowed model has a smaller supremum. -/
theorem C62_solver (hn : 0 < n) {kappa rho : ℝ} (hk : 0 ≤ kappa) (hr : 0 < rho) {solve : Oracle} (hs : ExactSolver solve)
    {X : Fin n → Fin d → ℝ} {y : Fin n → ℝ} (hy : ∀ i, y i = 1 ∨ y i = -1) (fi : Bool) :
    ∃ (w : Fin d → ℝ) (b lam V : ℝ) (r : SolverResult SVal), logisticDedicated solve rho kappa X y fi = .ok r ∧
      r.toList = .ok [some (.vec (List.ofFn w)), some (.num b), some (.num lam), some (.num V)] ∧
      (fi = false → b = 0) ∧ norm2 w ≤ lam ∧
      IsLUB {e | ∃ Q ∈ LabelBall X y kappa rho, e = logRisk w b Q} V ∧
      ∀ w' b', (fi = false → b' = 0) → ∀ M, (∀ Q ∈ LabelBall X y kappa rho, logRisk w' b' Q ≤ M) → V ≤ M := by
  obtain ⟨w, b, lam, s, hf, hb, hopt⟩ := logistic_opt_exists hn hk hr (X := X) hy fi
  have hn0 : n ≠ 0 := by omega
  -- an optimal feasible tuple has the supremum as value, and beats every model
  have key : ∀ (w : Fin d → ℝ) (b lam : ℝ) (s : Fin n → ℝ), LogFeas kappa X y w b lam s → (fi = false → b = 0) →
      (∀ w' b' lam' s', LogFeas kappa X y w' b' lam' s' → (fi = false → b' = 0) → lam * rho + avg s ≤ lam' * rho + avg s') →
      IsLUB {e | ∃ Q ∈ LabelBall X y kappa rho, e = logRisk w b Q} (lam * rho + avg s) ∧
      ∀ w' b', (fi = false → b' = 0) → ∀ M, (∀ Q ∈ LabelBall X y kappa rho, logRisk w' b' Q ≤ M) → lam * rho + avg s ≤ M := by
    intro w b lam s hf hb hopt
    have h2 : ∀ w' b', (fi = false → b' = 0) → ∀ M, (∀ Q ∈ LabelBall X y kappa rho, logRisk w' b' Q ≤ M) → lam * rho + avg s ≤ M := by
      intro w' b' hb' M hM
      obtain ⟨lam', s', hf', hlub⟩ := logistic_exact hn hk hr.le (X := X) hy w' b'
      refine (hopt w' b' lam' s' hf' hb').trans (hlub.2 ?_)
      rintro _ ⟨Q, hQ, rfl⟩
      exact hM Q hQ
    refine ⟨⟨?_, fun M hM => h2 w b hb M fun Q hQ => hM ⟨Q, hQ, rfl⟩⟩, h2⟩
    rintro _ ⟨Q, hQ, rfl⟩
    exact (logistic_certificate hy hf hQ).2
  cases fi with
  | true =>
    have hex : ∃ v, (logisticProgram rho kappa X y).Optimal v := by
      refine ⟨packLog w lam s b, ?_, fun u hu => ?_⟩
      · rw [logisticProgram_feasible, packLog_w, packLog_lam, packLog_s, packLog_b]; exact hf
      · rw [logisticProgram_objective, logisticProgram_objective, packLog_lam, packLog_s]
        exact hopt _ _ _ _ ((logisticProgram_feasible ..).1 hu) (by simp)
    obtain ⟨v, hv⟩ := (hs _ _).2 hex
    obtain ⟨hvf, hvo⟩ := (hs _ _).1 v hv
    have hvf' := (logisticProgram_feasible ..).1 hvf
    obtain ⟨k1, k2⟩ := key _ _ _ _ hvf' (by simp) (by
      intro w' b' lam' s' hf' _
      have := hvo (packLog w' lam' s' b') (by rw [logisticProgram_feasible, packLog_w, packLog_lam, packLog_s, packLog_b]; exact hf')
      rw [logisticProgram_objective, logisticProgram_objective, packLog_lam, packLog_s] at this
      exact this)
    rw [← logisticProgram_objective rho kappa X y v] at k1 k2
    have : ∃ r : SolverResult SVal, logisticDedicated solve rho kappa X y true = .ok r ∧ r.toList = .ok [some (.vec (List.ofFn fun j : Fin d => v ⟨j, by omega⟩)),
        some (.num (v ⟨d + 1 + n, by omega⟩)), some (.num (v ⟨d, by omega⟩)), some (.num ((logisticProgram rho kappa X y).objective v))] := by
      unfold logisticDedicated
      rw [if_neg hn0]
      simp only [if_true, hv]
      exact ⟨_, rfl, rfl⟩
    obtain ⟨r, h1, h2⟩ := this
    exact ⟨_, _, _, _, r, h1, h2, by simp, hvf'.1, k1, k2⟩
  | false =>
    have hex : ∃ v, (logisticProgram0 rho kappa X y).Optimal v := by
      have := hb rfl; subst this
      refine ⟨packLog0 w lam s, ?_, fun u hu => ?_⟩
      · rw [logisticProgram0_feasible, packLog0_w, packLog0_lam, packLog0_s]; exact hf
      · rw [logisticProgram0_objective, logisticProgram0_objective, packLog0_lam, packLog0_s]
        exact hopt _ _ _ _ ((logisticProgram0_feasible ..).1 hu) (fun _ => rfl)
    obtain ⟨v, hv⟩ := (hs _ _).2 hex
    obtain ⟨hvf, hvo⟩ := (hs _ _).1 v hv
    have hvf' := (logisticProgram0_feasible ..).1 hvf
    obtain ⟨k1, k2⟩ := key _ _ _ _ hvf' (fun _ => rfl) (by
      intro w' b' lam' s' hf' hb'
      have := hb' rfl; subst this
      have := hvo (packLog0 w' lam' s') (by rw [logisticProgram0_feasible, packLog0_w, packLog0_lam, packLog0_s]; exact hf')
      rw [logisticProgram0_objective, logisticProgram0_objective, packLog0_lam, packLog0_s] at this
      exact this)
    rw [← logisticProgram0_objective rho kappa X y v] at k1 k2
    have : ∃ r : SolverResult SVal, logisticDedicated solve rho kappa X y false = .ok r ∧ r.toList = .ok [some (.vec (List.ofFn fun j : Fin d => v ⟨j, by omega⟩)),
        some (.num 0), some (.num (v ⟨d, by omega⟩)), some (.num ((logisticProgram0 rho kappa X y).objective v))] := by
      unfold logisticDedicated
      rw [if_neg hn0]
      simp only [Bool.false_eq_true, if_false, hv]
      exact ⟨_, rfl, rfl⟩
    obtain ⟨r, h1, h2⟩ := this
    exact ⟨_, 0, _, _, r, h1, h2, by simp, hvf'.1, k1, k2⟩

/-- the hypotheses are met by a small data set -/
example : ∃ solve : Oracle, ∃ r, logisticDedicated (n := 2) (d := 1) solve (1 / 2) 1 (fun i _ => (i : ℝ)) (fun i => if i = 0 then 1 else -1) true = .ok r := by
  obtain ⟨solve, hs⟩ := exactSolver_exists
  obtain ⟨w, b, lam, V, r, h, -⟩ := C62_solver (n := 2) (d := 1) (by norm_num) (kappa := 1) (rho := 1 / 2) (by norm_num) (by norm_num) hs
    (X := fun i _ => (i : ℝ)) (y := fun i => if i = 0 then 1 else -1) (by intro i; fin_cases i <;> simp) true
  exact ⟨solve, r, h⟩

end Skwdro
