import Verif.Lemmas.Wasserstein
import Mathlib.Analysis.SpecialFunctions.Log.Basic
import Mathlib.MeasureTheory.Function.SpecialFunctions.Basic

/-! Robust logistic regression: dual certificates, a fractional knapsack, worst-case plans. -/

namespace Skwdro
open Spec MeasureTheory

theorem l2norm_nonneg {d : ℕ} (v : Fin d → ℝ) : 0 ≤ norm2 v := Real.sqrt_nonneg _

theorem l2norm_sq {d : ℕ} (v : Fin d → ℝ) : norm2 v ^ 2 = ∑ j, v j ^ 2 :=
  Real.sq_sqrt (Finset.sum_nonneg fun _ _ => sq_nonneg _)

theorem dist2_sq {d : ℕ} (a b : Fin d → ℝ) : dist2 a b ^ 2 = ∑ j, (a j - b j) ^ 2 :=
  Real.sq_sqrt (Finset.sum_nonneg fun _ _ => sq_nonneg _)

theorem dist2_nonneg {d : ℕ} (a b : Fin d → ℝ) : 0 ≤ dist2 a b := Real.sqrt_nonneg _

theorem cs2 {d : ℕ} (a b w : Fin d → ℝ) : |∑ j, (b j - a j) * w j| ≤ dist2 a b * norm2 w := by
  apply abs_le_of_sq_le_sq' _ (mul_nonneg (dist2_nonneg _ _) (l2norm_nonneg _)) |> abs_le.2
  rw [mul_pow, dist2_sq, l2norm_sq]
  have := Finset.sum_mul_sq_le_sq_mul_sq Finset.univ (fun j => b j - a j) w
  calc _ ≤ _ := this
    _ = _ := by congr 1; exact Finset.sum_congr rfl fun j _ => by ring

theorem abs_le_norm2 {d : ℕ} (v : Fin d → ℝ) (j : Fin d) : |v j| ≤ norm2 v := by
  unfold norm2
  apply Real.abs_le_sqrt
  exact Finset.single_le_sum (f := fun j => v j ^ 2) (fun _ _ => sq_nonneg _) (Finset.mem_univ j)

/-! ## The logistic function -/

theorem cpLogistic_pos (x : ℝ) : 0 < cpLogistic x := Real.log_pos (by have := Real.exp_pos x; linarith)

theorem cpLogistic_ge (x : ℝ) : x ≤ cpLogistic x := by
  unfold cpLogistic
  rw [Real.le_log_iff_exp_le (by have := Real.exp_pos x; linarith)]
  linarith

theorem cpLogistic_mono {x y : ℝ} (h : x ≤ y) : cpLogistic x ≤ cpLogistic y := by
  unfold cpLogistic
  have := Real.exp_pos x
  exact Real.log_le_log (by linarith) (by have := Real.exp_le_exp.2 h; linarith)

theorem cpLogistic_add {x h : ℝ} (hh : 0 ≤ h) : cpLogistic (x + h) ≤ cpLogistic x + h := by
  unfold cpLogistic
  have h0 := Real.exp_pos x
  have h1 : 1 ≤ Real.exp h := Real.one_le_exp hh
  rw [← Real.log_exp h, ← Real.log_mul (by linarith) (Real.exp_pos h).ne', Real.exp_add, Real.log_exp h]
  apply Real.log_le_log (by positivity)
  nlinarith

theorem cpLogistic_lip (x y : ℝ) : cpLogistic y ≤ cpLogistic x + |y - x| := by
  rcases le_total y x with h | h
  · exact (cpLogistic_mono h).trans (by have := abs_nonneg (y - x); linarith)
  · have := cpLogistic_add (x := x) (h := y - x) (by linarith)
    rw [abs_of_nonneg (by linarith)]
    simpa using this

theorem cpLogistic_continuous : Continuous cpLogistic := by
  unfold cpLogistic
  exact Continuous.log (by fun_prop) fun x => by have := Real.exp_pos x; linarith

theorem logloss_eq (y s : ℝ) : logloss y s = cpLogistic (-(y * s)) := rfl

theorem logloss_measurable {d : ℕ} (w : Fin d → ℝ) (b : ℝ) :
    Measurable fun p : (Fin d → ℝ) × ℝ => logloss p.2 (score w (some b) p.1) := by
  unfold logloss score
  fun_prop

/-! ## Certificates -/

variable {n d : ℕ}

/-- the constraints common to both programs -/
def LogFeas (kappa : ℝ) (X : Fin n → Fin d → ℝ) (y : Fin n → ℝ) (w : Fin d → ℝ) (b lam : ℝ) (s : Fin n → ℝ) : Prop :=
  norm2 w ≤ lam ∧ ∀ i, cpLogistic (y i * score w (some b) (X i)) - kappa * lam ≤ s i ∧
    cpLogistic (-(y i * score w (some b) (X i))) ≤ s i

theorem score_sub (w : Fin d → ℝ) (b : ℝ) (x x' : Fin d → ℝ) :
    score w (some b) x' - score w (some b) x = ∑ j, (x' j - x j) * w j := by
  unfold score
  simp only [sub_mul, Finset.sum_sub_distrib]
  simp only [mul_comm (w _)]
  ring

theorem logistic_pointwise {kappa : ℝ} {X : Fin n → Fin d → ℝ} {y : Fin n → ℝ} (hy : ∀ i, y i = 1 ∨ y i = -1) {w : Fin d → ℝ}
    {b lam : ℝ} {s : Fin n → ℝ} (hf : LogFeas kappa X y w b lam s) (i : Fin n) (x : (Fin d → ℝ) × ℝ) (hx : x.2 = 1 ∨ x.2 = -1) :
    logloss x.2 (score w (some b) x.1) ≤ s i + lam * moveOrFlip kappa (X i, y i) x := by
  obtain ⟨h1, h2⟩ := hf
  obtain ⟨h3, h4⟩ := h2 i
  have hcs := cs2 (X i) x.1 w
  rw [← score_sub w b] at hcs
  have hlip := cpLogistic_lip (-(x.2 * score w (some b) (X i))) (-(x.2 * score w (some b) x.1))
  have habs : |-(x.2 * score w (some b) x.1) - -(x.2 * score w (some b) (X i))| = |score w (some b) x.1 - score w (some b) (X i)| := by
    rcases hx with h | h <;> rw [h]
    · rw [← abs_neg]; congr 1; ring
    · congr 1; ring
  rw [habs] at hlip
  have hmove : dist2 (X i) x.1 * norm2 w ≤ lam * dist2 (X i) x.1 := by
    rw [mul_comm]; exact mul_le_mul_of_nonneg_right h1 (dist2_nonneg _ _)
  unfold moveOrFlip
  rw [logloss_eq]
  by_cases he : y i = x.2
  · simp only [he, if_true]
    rw [he] at h4
    linarith
  · simp only [he, if_false]
    have hneg : -(x.2 * score w (some b) (X i)) = y i * score w (some b) (X i) := by
      have : x.2 = - y i := by
        rcases hx with h | h <;> rcases hy i with h' | h'
        · exact absurd (h'.trans h.symm) he
        · rw [h, h']; norm_num
        · rw [h, h']
        · exact absurd (h'.trans h.symm) he
      rw [this]; ring
    rw [hneg] at hlip
    rw [mul_add]
    linarith

theorem logistic_certificate {kappa rho : ℝ} {X : Fin n → Fin d → ℝ} {y : Fin n → ℝ} (hy : ∀ i, y i = 1 ∨ y i = -1) {w : Fin d → ℝ}
    {b lam : ℝ} {s : Fin n → ℝ} (hf : LogFeas kappa X y w b lam s) {Q : Measure ((Fin d → ℝ) × ℝ)} (hQ : Q ∈ LabelBall X y kappa rho) :
    Integrable (fun p : (Fin d → ℝ) × ℝ => logloss p.2 (score w (some b) p.1)) Q ∧ logRisk w b Q ≤ lam * rho + avg s := by
  obtain ⟨⟨π, hp, hmarg, rfl, hci, hc⟩, hS⟩ := hQ
  exact plan_bound hmarg hci hc (logloss_measurable w b) (fun x => (cpLogistic_pos _).le) ((l2norm_nonneg w).trans hf.1) (by
    filter_upwards [ae_of_ae_map measurable_snd.aemeasurable hS] with p hp
    exact logistic_pointwise hy hf p.1 p.2 hp)

/-! ## Fractional knapsack -/

theorem avg_le_avg {f g : Fin n → ℝ} (h : ∀ i, f i ≤ g i) : avg f ≤ avg g := by
  unfold avg
  exact div_le_div_of_nonneg_right (Finset.sum_le_sum fun i _ => h i) (Nat.cast_nonneg _)

theorem avg_add (f g : Fin n → ℝ) : avg (fun i => f i + g i) = avg f + avg g := by
  unfold avg; rw [Finset.sum_add_distrib]; ring

theorem avg_const_mul (a : ℝ) (f : Fin n → ℝ) : avg (fun i => a * f i) = a * avg f := by
  unfold avg; rw [← Finset.mul_sum]; ring

/-- which labels to flip: optimal fractions `a` for gains `g`, price `kappa`, budget `rho`, the rest of the budget earning `N` per unit;
`lam` is the optimal multiplier -/
theorem knapsack (hn : 0 < n) {kappa rho N : ℝ} (hk : 0 ≤ kappa) (hr : 0 ≤ rho) (g : Fin n → ℝ) :
    ∃ (lam : ℝ) (a : Fin n → ℝ), N ≤ lam ∧ (∀ i, 0 ≤ a i ∧ a i ≤ 1) ∧ kappa * avg a ≤ rho ∧
      (∀ i, a i * (g i - kappa * lam) = max 0 (g i - kappa * lam)) ∧ (lam - N) * (rho - kappa * avg a) = 0 := by
  classical
  have hn' : (0 : ℝ) < n := by exact_mod_cast hn
  set F : ℝ → ℝ := fun l => kappa * avg (fun i => if kappa * l < g i then 1 else 0) with hF
  by_cases h0 : F N ≤ rho
  · refine ⟨N, fun i => if kappa * N < g i then 1 else 0, le_rfl, ?_, h0, ?_, by ring⟩
    · intro i; dsimp only; split_ifs <;> norm_num
    · intro i; dsimp only; split_ifs with h
      · rw [max_eq_right (by linarith)]; ring
      · rw [max_eq_left (by linarith)]; ring
  push Not at h0
  have hkpos : 0 < kappa := by
    rcases hk.eq_or_lt with h | h
    · simp only [hF, ← h, zero_mul] at h0; linarith
    · exact h
  -- candidates
  set T := Finset.univ.filter fun i : Fin n => N < g i / kappa ∧ F (g i / kappa) ≤ rho with hT
  have hgk : ∀ i, kappa * (g i / kappa) = g i := fun i => by field_simp
  have hex : ∃ i, kappa * N < g i := by
    by_contra hcon
    push Not at hcon
    have : F N = 0 := by
      simp only [hF, avg]
      rw [Finset.sum_eq_zero fun i _ => if_neg (not_lt.2 (hcon i))]
      simp
    linarith
  have hTne : T.Nonempty := by
    obtain ⟨i0, hi0⟩ := hex
    have : Nonempty (Fin n) := ⟨i0⟩
    obtain ⟨i, -, hi⟩ := Finset.exists_max_image Finset.univ g ⟨i0, Finset.mem_univ _⟩
    refine ⟨i, Finset.mem_filter.2 ⟨Finset.mem_univ _, ?_, ?_⟩⟩
    · rw [lt_div_iff₀ hkpos]
      have := hi i0 (Finset.mem_univ _)
      linarith
    · have : F (g i / kappa) = 0 := by
        simp only [hF, avg, hgk]
        rw [Finset.sum_eq_zero fun j _ => if_neg (not_lt.2 (hi j (Finset.mem_univ _)))]
        simp
      linarith
  obtain ⟨i, hiT, hi⟩ := Finset.exists_min_image T g hTne
  obtain ⟨-, hi1, hi2⟩ := Finset.mem_filter.1 hiT
  set G := g i with hG
  -- enough items at or above the threshold
  have hge : rho ≤ kappa * avg (fun j => if G ≤ g j then (1 : ℝ) else 0) := by
    set U := Finset.univ.filter fun j : Fin n => kappa * N < g j ∧ g j < G with hU
    rcases U.eq_empty_or_nonempty with hUe | hUne
    · have : F N ≤ kappa * avg (fun j => if G ≤ g j then (1 : ℝ) else 0) := by
        apply mul_le_mul_of_nonneg_left _ hk
        apply avg_le_avg
        intro j
        by_cases h1 : kappa * N < g j
        · have : G ≤ g j := by
            by_contra h2
            have : j ∈ U := Finset.mem_filter.2 ⟨Finset.mem_univ _, h1, not_le.1 h2⟩
            rw [hUe] at this
            simp at this
          rw [if_pos h1, if_pos this]
        · rw [if_neg h1]; split_ifs <;> norm_num
      linarith
    · obtain ⟨j, hjU, hj⟩ := Finset.exists_max_image U g hUne
      obtain ⟨-, hj1, hj2⟩ := Finset.mem_filter.1 hjU
      have hFj : rho < F (g j / kappa) := by
        by_contra h
        push Not at h
        have : j ∈ T := Finset.mem_filter.2 ⟨Finset.mem_univ _, by rw [lt_div_iff₀ hkpos]; linarith, h⟩
        have := hi j this
        linarith
      have : F (g j / kappa) ≤ kappa * avg (fun j => if G ≤ g j then (1 : ℝ) else 0) := by
        apply mul_le_mul_of_nonneg_left _ hk
        apply avg_le_avg
        intro l
        rw [hgk]
        by_cases h1 : g j < g l
        · have : G ≤ g l := by
            by_contra h2
            have : l ∈ U := Finset.mem_filter.2 ⟨Finset.mem_univ _, by linarith, not_le.1 h2⟩
            have := hj l this
            linarith
          rw [if_pos h1, if_pos this]
        · rw [if_neg h1]; split_ifs <;> norm_num
      linarith
  set P := avg (fun j => if G < g j then (1 : ℝ) else 0) with hP
  set E := avg (fun j => if g j = G then (1 : ℝ) else 0) with hE
  have hPE : avg (fun j => if G ≤ g j then (1 : ℝ) else 0) = P + E := by
    rw [hP, hE, ← avg_add]
    congr 1; funext j
    rcases lt_trichotomy G (g j) with h | h | h
    · simp [h, h.le, h.ne']
    · simp [← h]
    · simp [not_le.2 h, not_lt.2 h.le, h.ne]
  have hEpos : 0 < E := by
    rw [hE]; unfold avg
    apply div_pos _ hn'
    apply Finset.sum_pos' (fun j _ => by split_ifs <;> norm_num)
    exact ⟨i, Finset.mem_univ _, by simp [hG]⟩
  have hlow : kappa * P ≤ rho := by
    have : F (G / kappa) = kappa * P := by simp only [hF, hgk i, hG, hP]
    linarith
  rw [hPE] at hge
  set t := (rho / kappa - P) / E with ht
  have ht0 : 0 ≤ t := by
    apply div_nonneg _ hEpos.le
    rw [sub_nonneg, le_div_iff₀ hkpos]; linarith
  have ht1 : t ≤ 1 := by
    rw [ht, div_le_one hEpos, sub_le_iff_le_add, div_le_iff₀ hkpos]; linarith
  have hbudget : kappa * avg (fun j => (if G < g j then (1 : ℝ) else 0) + t * (if g j = G then 1 else 0)) = rho := by
    rw [avg_add, avg_const_mul, ← hP, ← hE, ht]
    field_simp
    ring
  refine ⟨G / kappa, fun j => (if G < g j then (1 : ℝ) else 0) + t * (if g j = G then 1 else 0), hi1.le, ?_, hbudget.le, ?_, ?_⟩
  · intro j
    rcases lt_trichotomy G (g j) with h | h | h
    · simp [h, h.ne']
    · simp [← h, ht0, ht1]
    · simp [not_lt.2 h.le, h.ne]
  · intro j
    rw [hgk i, ← hG]
    rcases lt_trichotomy G (g j) with h | h | h
    · simp [h, h.ne', h.le]
    · simp [← h]
    · simp [not_lt.2 h.le, h.ne, h.le]
  · rw [hbudget]; ring

/-! ## Worst-case plans -/

theorem avg_const (hn : 0 < n) (a : ℝ) : avg (fun _ : Fin n => a) = a := by
  have : (n : ℝ) ≠ 0 := by positivity
  simp [avg]; field_simp

/-- destinations: stay, flip, move far, flip and move far -/
noncomputable def logDest (X : Fin n → Fin d → ℝ) (y : Fin n → ℝ) (w : Fin d → ℝ) (r : ℝ) (i : Fin n) (j : Fin 4) : (Fin d → ℝ) × ℝ :=
  if j = 0 then (X i, y i)
  else if j = 1 then (X i, -y i)
  else if j = 2 then (fun k => X i k - y i * r * w k / norm2 w, y i)
  else (fun k => X i k + y i * r * w k / norm2 w, -y i)

/-- their weights -/
noncomputable def logWeight (n : ℕ) (a : Fin n → ℝ) (δ : ℝ) (i : Fin n) (j : Fin 4) : ℝ :=
  if j = 0 then (1 - a i) * (1 - δ) / n
  else if j = 1 then a i * (1 - δ) / n
  else if j = 2 then (1 - a i) * δ / n
  else a i * δ / n

theorem dist_far {x : Fin d → ℝ} {w : Fin d → ℝ} {c : ℝ} (z : Fin d → ℝ) (hz : ∀ k, (x k - z k) ^ 2 = (c * w k / norm2 w) ^ 2) :
    dist2 x z ≤ |c| := by
  unfold dist2
  simp only [hz, div_pow, mul_pow]
  rw [← Finset.sum_div, ← Finset.mul_sum, ← l2norm_sq, mul_div_assoc]
  refine Real.sqrt_le_iff.2 ⟨abs_nonneg _, ?_⟩
  rw [sq_abs]
  refine mul_le_of_le_one_right (sq_nonneg _) (div_self_le_one _)

theorem score_far {w : Fin d → ℝ} {b c : ℝ} (x : Fin d → ℝ) :
    score w (some b) (fun k => x k + c * w k / norm2 w) = score w (some b) x + c * norm2 w := by
  unfold score
  have : ∀ k, w k * (x k + c * w k / norm2 w) = w k * x k + c / norm2 w * w k ^ 2 := fun k => by ring
  simp only [this, Finset.sum_add_distrib]
  rw [← Finset.mul_sum, ← l2norm_sq]
  rcases eq_or_ne (norm2 w) 0 with h | h
  · rw [h]; simp
  · field_simp
    ring

theorem logistic_lower (hn : 0 < n) {kappa rho : ℝ} {X : Fin n → Fin d → ℝ} {y : Fin n → ℝ} (hy : ∀ i, y i = 1 ∨ y i = -1)
    (w : Fin d → ℝ) (b : ℝ) {a : Fin n → ℝ} (ha : ∀ i, 0 ≤ a i ∧ a i ≤ 1) (hbud : kappa * avg a ≤ rho) {δ : ℝ} (h0 : 0 < δ) (h1 : δ ≤ 1) :
    ∃ Q ∈ LabelBall X y kappa rho,
      (1 - δ) * avg (fun i => (1 - a i) * cpLogistic (-(y i * score w (some b) (X i))) + a i * cpLogistic (y i * score w (some b) (X i))) +
      δ * avg (fun i => (1 - a i) * -(y i * score w (some b) (X i)) + a i * (y i * score w (some b) (X i))) +
      norm2 w * (rho - kappa * avg a) ≤ logRisk w b Q := by
  have hn' : (0 : ℝ) < n := by exact_mod_cast hn
  set e := rho - kappa * avg a with he
  have he0 : 0 ≤ e := by linarith
  set r := e / δ with hr
  have hr0 : 0 ≤ r := by positivity
  have hy1 : ∀ i, |y i| = 1 := fun i => by rcases hy i with h | h <;> simp [h]
  have hy2 : ∀ i, y i * y i = 1 := fun i => by rcases hy i with h | h <;> simp [h]
  have hyn : ∀ i, y i ≠ -y i := fun i => by rcases hy i with h | h <;> rw [h] <;> norm_num
  have hw : ∀ i j, 0 ≤ logWeight n a δ i j := by
    intro i j
    obtain ⟨h2, h3⟩ := ha i
    have : 0 ≤ 1 - a i := by linarith
    have : 0 ≤ 1 - δ := by linarith
    unfold logWeight
    split_ifs <;> positivity
  have hsum : ∀ i, ∑ j, logWeight n a δ i j = 1 / n := by
    intro i
    simp only [Fin.sum_univ_four, logWeight]
    simp
    field_simp
    ring
  refine ⟨(finPlan (logWeight n a δ) (logDest X y w r)).map Prod.snd, ⟨finPlan_inBall hn hw hsum _ ?_, ?_⟩, ?_⟩
  · have hc : ∀ i, ∑ j, logWeight n a δ i j * moveOrFlip kappa (X i, y i) (logDest X y w r i j) ≤ (kappa * a i + e) / n := by
      intro i
      obtain ⟨h2, h3⟩ := ha i
      have m0 : moveOrFlip kappa (X i, y i) (logDest X y w r i 0) = 0 := by simp [moveOrFlip, logDest, dist2]
      have m1 : moveOrFlip kappa (X i, y i) (logDest X y w r i 1) = kappa := by simp [moveOrFlip, logDest, dist2, hyn i]
      have m2 : moveOrFlip kappa (X i, y i) (logDest X y w r i 2) ≤ r := by
        have := dist_far (x := X i) (w := w) (c := y i * r) (fun k => X i k - y i * r * w k / norm2 w) (fun k => by ring)
        rw [abs_mul, hy1, abs_of_nonneg hr0] at this
        simpa [moveOrFlip, logDest] using this
      have m3 : moveOrFlip kappa (X i, y i) (logDest X y w r i 3) ≤ r + kappa := by
        have := dist_far (x := X i) (w := w) (c := y i * r) (fun k => X i k + y i * r * w k / norm2 w) (fun k => by ring)
        rw [abs_mul, hy1, abs_of_nonneg hr0] at this
        simpa [moveOrFlip, logDest, hyn i] using this
      have w2 : logWeight n a δ i 2 = (1 - a i) * δ / n := by simp [logWeight]
      have w3 : logWeight n a δ i 3 = a i * δ / n := by simp [logWeight]
      have w1 : logWeight n a δ i 1 = a i * (1 - δ) / n := by simp [logWeight]
      have k2 := mul_le_mul_of_nonneg_left m2 (hw i 2)
      have k3 := mul_le_mul_of_nonneg_left m3 (hw i 3)
      rw [Fin.sum_univ_four, m0, m1]
      rw [w2] at k2 ⊢
      rw [w3] at k3 ⊢
      rw [w1]
      have hd : δ * r = e := by rw [hr]; field_simp
      have : (kappa * a i + e) / n = a i * (1 - δ) / n * kappa + (1 - a i) * δ / n * r + a i * δ / n * (r + kappa) := by
        rw [← hd]; field_simp; ring
      rw [this]
      linarith
    calc _ ≤ ∑ i, (kappa * a i + e) / n := Finset.sum_le_sum fun i _ => hc i
      _ = kappa * avg a + e := by
          rw [← Finset.sum_div]
          have := avg_add (fun i => kappa * a i) (fun _ => e)
          rw [avg_const_mul, avg_const hn] at this
          exact this
      _ ≤ rho := by rw [he]; linarith
  · refine finPlan_snd_ae _ ?_ ?_
    · exact (measurable_snd (measurableSet_singleton _)).union (measurable_snd (measurableSet_singleton _))
    · intro i j
      unfold logDest
      rcases hy i with h | h <;> split_ifs <;> simp [h]
  · unfold logRisk
    rw [finPlan_snd_integral hw _ (logloss_measurable w b)]
    set S : Fin n → ℝ := fun i => y i * score w (some b) (X i) with hS
    have hc : ∀ i, ((1 - δ) * ((1 - a i) * cpLogistic (-S i) + a i * cpLogistic (S i)) + δ * ((1 - a i) * -S i + a i * S i) +
        norm2 w * e) / n ≤
        ∑ j, logWeight n a δ i j * logloss (logDest X y w r i j).2 (score w (some b) (logDest X y w r i j).1) := by
      intro i
      have l0 : logloss (logDest X y w r i 0).2 (score w (some b) (logDest X y w r i 0).1) = cpLogistic (-S i) := by
        simp [logDest, logloss_eq, hS]
      have l1 : logloss (logDest X y w r i 1).2 (score w (some b) (logDest X y w r i 1).1) = cpLogistic (S i) := by
        simp [logDest, logloss_eq, hS]
      have l2 : -S i + r * norm2 w ≤ logloss (logDest X y w r i 2).2 (score w (some b) (logDest X y w r i 2).1) := by
        have hsc := score_far (w := w) (b := b) (c := -(y i * r)) (X i)
        have : (fun k => X i k - y i * r * w k / norm2 w) = fun k => X i k + -(y i * r) * w k / norm2 w := by funext k; ring
        have e2 : logDest X y w r i 2 = (fun k => X i k - y i * r * w k / norm2 w, y i) := by simp [logDest]
        rw [e2, logloss_eq]
        simp only [this]
        rw [hsc]
        refine le_trans (le_of_eq ?_) (cpLogistic_ge _)
        simp only [hS]
        linear_combination (-(r * norm2 w)) * hy2 i
      have l3 : S i + r * norm2 w ≤ logloss (logDest X y w r i 3).2 (score w (some b) (logDest X y w r i 3).1) := by
        have hsc := score_far (w := w) (b := b) (c := y i * r) (X i)
        have e3 : logDest X y w r i 3 = (fun k => X i k + y i * r * w k / norm2 w, -y i) := by simp [logDest]
        rw [e3, logloss_eq]
        simp only []
        rw [hsc]
        refine le_trans (le_of_eq ?_) (cpLogistic_ge _)
        simp only [hS]
        linear_combination (-(r * norm2 w)) * hy2 i
      have w0 : logWeight n a δ i 0 = (1 - a i) * (1 - δ) / n := by simp [logWeight]
      have w2 : logWeight n a δ i 2 = (1 - a i) * δ / n := by simp [logWeight]
      have w3 : logWeight n a δ i 3 = a i * δ / n := by simp [logWeight]
      have w1 : logWeight n a δ i 1 = a i * (1 - δ) / n := by simp [logWeight]
      have k2 := mul_le_mul_of_nonneg_left l2 (hw i 2)
      have k3 := mul_le_mul_of_nonneg_left l3 (hw i 3)
      rw [Fin.sum_univ_four, l0, l1, w0, w1]
      rw [w2] at k2 ⊢
      rw [w3] at k3 ⊢
      have hd : δ * r = e := by rw [hr]; field_simp
      refine le_trans (le_of_eq ?_) (add_le_add (add_le_add le_rfl k2) k3)
      rw [← hd]
      field_simp
      ring
    refine le_trans (le_of_eq ?_) (Finset.sum_le_sum fun i _ => hc i)
    rw [← Finset.sum_div]
    have q1 := avg_add (fun i => (1 - δ) * ((1 - a i) * cpLogistic (-S i) + a i * cpLogistic (S i)) + δ * ((1 - a i) * -S i + a i * S i))
      (fun _ => norm2 w * e)
    have q2 := avg_add (fun i => (1 - δ) * ((1 - a i) * cpLogistic (-S i) + a i * cpLogistic (S i))) (fun i => δ * ((1 - a i) * -S i + a i * S i))
    rw [avg_const hn, q2, avg_const_mul, avg_const_mul] at q1
    exact q1.symm

/-- For given coefficients, the smallest certified bound is the worst-case expected loss. -/
theorem logistic_exact (hn : 0 < n) {kappa rho : ℝ} (hk : 0 ≤ kappa) (hr : 0 ≤ rho) {X : Fin n → Fin d → ℝ} {y : Fin n → ℝ}
    (hy : ∀ i, y i = 1 ∨ y i = -1) (w : Fin d → ℝ) (b : ℝ) :
    ∃ (lam : ℝ) (s : Fin n → ℝ), LogFeas kappa X y w b lam s ∧
      IsLUB {e | ∃ Q ∈ LabelBall X y kappa rho, e = logRisk w b Q} (lam * rho + avg s) := by
  set S : Fin n → ℝ := fun i => y i * score w (some b) (X i) with hS
  obtain ⟨lam, a, h1, h2, h3, h4, h5⟩ := knapsack hn hk hr (N := norm2 w) (fun i => cpLogistic (S i) - cpLogistic (-S i))
  set s : Fin n → ℝ := fun i => cpLogistic (-S i) + max 0 (cpLogistic (S i) - cpLogistic (-S i) - kappa * lam) with hs
  have hf : LogFeas kappa X y w b lam s := by
    refine ⟨h1, fun i => ⟨?_, ?_⟩⟩
    · have := le_max_right 0 (cpLogistic (S i) - cpLogistic (-S i) - kappa * lam)
      simp only [hs, hS] at this ⊢
      linarith
    · have := le_max_left 0 (cpLogistic (S i) - cpLogistic (-S i) - kappa * lam)
      simp only [hs, hS] at this ⊢
      linarith
  refine ⟨lam, s, hf, ?_, ?_⟩
  · rintro _ ⟨Q, hQ, rfl⟩
    exact (logistic_certificate hy hf hQ).2
  · intro M hM
    set A := avg (fun i => (1 - a i) * cpLogistic (-S i) + a i * cpLogistic (S i)) with hA
    set B := avg (fun i => (1 - a i) * -S i + a i * S i) with hB
    have hval : lam * rho + avg s = A + norm2 w * (rho - kappa * avg a) := by
      have hs' : s = fun i => ((1 - a i) * cpLogistic (-S i) + a i * cpLogistic (S i)) + (-(kappa * lam)) * a i := by
        funext i
        simp only [hs]
        rw [← h4 i]
        ring
      rw [hs', avg_add, avg_const_mul, ← hA]
      linear_combination h5
    rw [hval]
    by_contra hlt
    push Not at hlt
    set C := A + norm2 w * (rho - kappa * avg a) with hC
    have hstep : ∀ δ, 0 < δ → δ ≤ 1 → C + δ * (B - A) ≤ M := by
      intro δ h0 h01
      obtain ⟨Q, hQ, hle⟩ := logistic_lower hn hy w b h2 h3 h0 h01
      have := hM ⟨Q, hQ, rfl⟩
      have e1 : (1 - δ) * A + δ * B + norm2 w * (rho - kappa * avg a) = C + δ * (B - A) := by rw [hC]; ring
      rw [← e1]
      exact hle.trans this
    set δ := min 1 ((C - M) / (2 * (|B - A| + 1))) with hδ
    have hp : 0 < |B - A| + 1 := by positivity
    have hδ0 : 0 < δ := lt_min one_pos (div_pos (by linarith) (by positivity))
    have hδ1 := hstep δ hδ0 (min_le_left _ _)
    have hδ2 : δ * (|B - A| + 1) ≤ (C - M) / 2 := by
      have : δ ≤ (C - M) / (2 * (|B - A| + 1)) := min_le_right _ _
      have := mul_le_mul_of_nonneg_right this hp.le
      refine this.trans (le_of_eq ?_)
      field_simp
    have := neg_abs_le (B - A)
    have := mul_le_mul_of_nonneg_left this hδ0.le
    nlinarith

end Skwdro
