import Verif.Props.Newsvendor

/-! # C59: which orders are of least worst-case cost, and when the dedicated solver finds one -/

namespace Skwdro
open Spec MeasureTheory

section
variable {k u rho : ℝ} {samples : List ℝ}

theorem DemandBall_mono {n : ℕ} {z : Fin n → ℝ} {r r' : ℝ} (h : r ≤ r') : DemandBall z r ⊆ DemandBall z r' := by
  rintro Q ⟨⟨π, h1, h2, h3, h4, h5⟩, h6⟩
  exact ⟨⟨π, h1, h2, h3, h4, h5.trans h⟩, h6⟩

/-- an adversary good against all orders at once: under it the cost is either that of selling nothing, or linear up to some quantity and then
the average cost plus `u * rho` -/
theorem nv_adversary (hr : 0 ≤ rho) (hne : samples ≠ []) (hpos : ∀ x ∈ samples, 0 ≤ x) :
    ∃ Q ∈ DemandBall (fun i : Fin samples.length => samples[i]) rho,
      (∀ q, 0 ≤ q → ∫ x, newsvendor k u q x ∂Q = k * q) ∨
      ∃ t s, 0 ≤ t ∧ (∀ q, t ≤ q → ∫ x, newsvendor k u q x ∂Q = avgCost k u samples q + u * rho) ∧
        ∀ q, 0 ≤ q → q ≤ t → ∫ x, newsvendor k u q x ∂Q = q * s := by
  have hn : 0 < samples.length := List.length_pos_iff.2 hne
  have hnR : (0 : ℝ) < samples.length := by exact_mod_cast hn
  rcases le_total (samples.length * rho) samples.sum with hsum | hsum
  · obtain ⟨t, ht, c, hc, hbud⟩ := greedy_exists samples hne (by positivity) hsum
    have ht0 : 0 ≤ t := hpos t ht
    have hbud' : ∑ i : Fin samples.length, greedy t c samples[i] * samples[i] = samples.length * rho := by
      rw [← hbud, list_sum_fin samples fun x => greedy t c x * x]
    obtain ⟨Q', hball, hval⟩ := greedy_plan hne hpos (greedy_mem (t := t) hc) hbud'
    refine ⟨Q', hball, Or.inr ⟨t, k - u * ((∑ i : Fin samples.length, (1 - greedy t c samples[i])) / samples.length), ht0, ?_, ?_⟩⟩
    · intro q hq
      rw [hval k u q (ht0.trans hq), avgCost_eq k u samples hne, greedy_above hq, hbud', sub_div, mul_div_cancel_left₀ _ hnR.ne']
      ring
    · intro q hq0 hq
      rw [hval k u q hq0, greedy_below hq]; ring
  · have hb : ∑ i : Fin samples.length, (fun _ : ℝ => (1 : ℝ)) samples[i] * samples[i] = samples.length * (samples.sum / samples.length) := by
      have := list_sum_fin samples id
      simp only [List.map_id, id] at this
      simp only [one_mul]
      rw [mul_div_cancel₀ _ hnR.ne', this]
    obtain ⟨Q', hball, hval⟩ := greedy_plan hne hpos (g := fun _ => 1) (by intro; norm_num) hb
    refine ⟨Q', DemandBall_mono (by rw [div_le_iff₀ hnR]; linarith) hball, Or.inl fun q hq => ?_⟩
    rw [hval k u q hq]; simp

/-- ordering nothing costs nothing -/
theorem newsvendor_zero_cost {n : ℕ} {z : Fin n → ℝ} {Q : Measure ℝ} (hQ : Q ∈ DemandBall z rho) : ∫ x, newsvendor k u 0 x ∂Q = 0 := by
  apply integral_eq_zero_of_ae
  filter_upwards [hQ.2] with x hx
  simp [newsvendor, min_eq_left hx]

/-- **C59** Ordering nothing is of least worst-case cost exactly when no order has an average cost below `-u * rho` on the sample. -/
theorem C59_zero_iff (hk : 0 ≤ k) (hu : 0 ≤ u) (hr : 0 ≤ rho) (hne : samples ≠ []) (hpos : ∀ x ∈ samples, 0 ≤ x) :
    Minimax (DemandBall (fun i : Fin samples.length => samples[i]) rho) (newsvendor k u) (fun t => 0 ≤ t) 0 ↔
      ∀ t, 0 ≤ t → 0 ≤ avgCost k u samples t + u * rho := by
  obtain ⟨Q, hQ, hcase⟩ := nv_adversary (k := k) (u := u) hr hne hpos
  constructor
  · rintro ⟨-, h⟩ t ht
    have := h t ht (u * rho + avgCost k u samples t) (fun Q hQ => demand_upper hu samples hQ.1) Q hQ
    rw [newsvendor_zero_cost hQ] at this
    linarith
  · intro h
    refine ⟨le_refl _, fun q hq M hM Q' hQ' => ?_⟩
    rw [newsvendor_zero_cost hQ']
    have hMQ := hM Q hQ
    rcases hcase with h1 | ⟨t, s, ht, h1, h2⟩
    · rw [h1 q hq] at hMQ
      nlinarith
    · rcases le_total t q with htq | hqt
      · rw [h1 q htq] at hMQ
        linarith [h q hq]
      · rw [h2 q hq hqt] at hMQ
        have h3 := h1 t le_rfl
        rw [h2 t ht le_rfl] at h3
        have h4 := h t ht
        rcases ht.eq_or_lt with h0 | h0
        · have : q = 0 := le_antisymm (h0 ▸ hqt) hq
          subst this
          simpa using hMQ
        · have hs : 0 ≤ s := by
            by_contra hs
            nlinarith [not_le.1 hs]
          nlinarith

/-- **C59** A positive order of least average cost on the sample is of least worst-case cost exactly when this average cost is at most
`-u * rho` (positive order price `k`). -/
theorem C59_saa_iff (hk : 0 < k) (hu : 0 ≤ u) (hr : 0 ≤ rho) (hne : samples ≠ []) (hpos : ∀ x ∈ samples, 0 ≤ x) {theta : ℝ} (hth : 0 < theta)
    (hbest : ∀ t, 0 ≤ t → avgCost k u samples theta ≤ avgCost k u samples t) :
    Minimax (DemandBall (fun i : Fin samples.length => samples[i]) rho) (newsvendor k u) (fun t => 0 ≤ t) theta ↔
      avgCost k u samples theta + u * rho ≤ 0 := by
  obtain ⟨Q, hQ, hcase⟩ := nv_adversary (k := k) (u := u) hr hne hpos
  constructor
  · rintro ⟨-, h⟩
    have h0 := h 0 le_rfl 0 (fun Q hQ => (newsvendor_zero_cost hQ).le) Q hQ
    rcases hcase with h1 | ⟨t, s, ht, h1, h2⟩
    · rw [h1 theta hth.le] at h0
      nlinarith
    · rcases le_total t theta with htq | hqt
      · rw [h1 theta htq] at h0
        exact h0
      · rw [h2 theta hth.le hqt] at h0
        have h3 := h1 t le_rfl
        rw [h2 t ht le_rfl] at h3
        have h4 := hbest t ht
        have hs : s ≤ 0 := by
          by_contra hs
          nlinarith [not_le.1 hs]
        nlinarith
  · intro hle
    refine ⟨hth.le, fun q hq M hM Q' hQ' => ?_⟩
    have hup : ∫ x, newsvendor k u theta x ∂Q' ≤ u * rho + avgCost k u samples theta := demand_upper hu samples hQ'.1
    have hMQ := hM Q hQ
    rcases hcase with h1 | ⟨t, s, ht, h1, h2⟩
    · rw [h1 q hq] at hMQ
      nlinarith
    · rcases le_total t q with htq | hqt
      · rw [h1 q htq] at hMQ
        linarith [hbest q hq]
      · rw [h2 q hq hqt] at hMQ
        have h3 := h1 t le_rfl
        rw [h2 t ht le_rfl] at h3
        have h4 := hbest t ht
        rcases le_total 0 s with hs | hs
        · nlinarith
        · nlinarith

/-- **C59** (exactly when it holds) With an exact external solver, prices `k > 0`, `u >= 0` and non-negative demands, the order returned by the
dedicated solver is of least worst-case cost exactly when it is zero and no order has an average cost below `-u * rho`, or it is positive and
its own average cost is at most `-u * rho`. -/
theorem C59_exact_partial {solve : Oracle} (hs : ExactSolver solve) (hk : 0 < k) (hu : 0 ≤ u) (hr : 0 ≤ rho) (hne : samples ≠ [])
    (hpos : ∀ x ∈ samples, 0 ≤ x) {r : SolverResult SVal} {theta : ℝ}
    (hret : newsvendorDedicated solve k u rho (some samples) = .ok r) (hcoef : r.attrs .coef = some (some (.num theta))) :
    Minimax (DemandBall (fun i : Fin samples.length => samples[i]) rho) (newsvendor k u) (fun t => 0 ≤ t) theta ↔
      (theta = 0 ∧ ∀ t, 0 ≤ t → 0 ≤ avgCost k u samples t + u * rho) ∨ (0 < theta ∧ avgCost k u samples theta + u * rho ≤ 0) := by
  have hth : 0 ≤ theta ∧ (theta ≠ 0 → ∀ t, 0 ≤ t → avgCost k u samples theta ≤ avgCost k u samples t) := by
    rcases nv_cases solve k u hr samples hpos with ⟨-, heq⟩ | heq
    · rw [heq] at hret
      obtain ⟨r', theta', h1, -, h2, h0, hbest⟩ := C60_solver2 hs hk.le hu samples hne
      rw [h1] at hret
      cases hret
      rw [h2] at hcoef
      simp only [Option.some.injEq, SVal.num.injEq] at hcoef
      subst hcoef
      exact ⟨h0, fun _ => hbest⟩
    · rw [heq] at hret
      have : r.attrs .coef = some (some (.num 0)) := by cases hret; rfl
      rw [this] at hcoef
      simp only [Option.some.injEq, SVal.num.injEq] at hcoef
      subst hcoef
      exact ⟨le_rfl, fun h => absurd rfl h⟩
  rcases hth.1.eq_or_lt with h0 | h0
  · subst h0
    rw [C59_zero_iff hk.le hu hr hne hpos]
    simp
  · rw [C59_saa_iff hk hu hr hne hpos h0 (hth.2 h0.ne')]
    simp [h0.ne', h0]

/-- **C59** The best order is always one of the two the solver chooses from: the least worst-case cost is that of ordering nothing or that of
an order of least average cost. -/
theorem C59_two_candidates (hk : 0 < k) (hu : 0 ≤ u) (hr : 0 ≤ rho) (hne : samples ≠ []) (hpos : ∀ x ∈ samples, 0 ≤ x) {theta : ℝ}
    (hth : 0 ≤ theta) (hbest : ∀ t, 0 ≤ t → avgCost k u samples theta ≤ avgCost k u samples t) :
    Minimax (DemandBall (fun i : Fin samples.length => samples[i]) rho) (newsvendor k u) (fun t => 0 ≤ t) 0 ∨
    Minimax (DemandBall (fun i : Fin samples.length => samples[i]) rho) (newsvendor k u) (fun t => 0 ≤ t) theta := by
  rcases le_total 0 (avgCost k u samples theta + u * rho) with h | h
  · exact Or.inl ((C59_zero_iff hk.le hu hr hne hpos).2 fun t ht => h.trans (by linarith [hbest t ht]))
  · rcases hth.eq_or_lt with h0 | h0
    · left
      rw [C59_zero_iff hk.le hu hr hne hpos]
      intro t ht
      have h1 := hbest t ht
      have h2 : avgCost k u samples theta = 0 := by
        subst h0
        have : ∀ x ∈ samples, newsvendor k u 0 x = 0 := fun x hx => by simp [newsvendor, min_eq_left (hpos x hx)]
        unfold avgCost
        rw [List.map_congr_left this]
        simp
      have := mul_nonneg hu hr
      linarith
    · exact Or.inr ((C59_saa_iff hk hu hr hne hpos h0 hbest).2 h)

end

/-- non-vacuity: on the demands 1, 2, 3 with prices 5 and 7, ordering 1 has least average cost -2, so it is optimal for radius 1/7 and
ordering nothing is for radius 1 -/
example : avgCost 5 7 [1, 2, 3] 1 + 7 * (1 / 7) ≤ 0 ∧ (∀ t, 0 ≤ t → 0 ≤ avgCost 5 7 [1, 2, 3] t + 7 * 1) := by
  constructor
  · unfold avgCost newsvendor; norm_num
  · intro t ht
    unfold avgCost newsvendor
    simp only [List.map_cons, List.map_nil, List.sum_cons, List.sum_nil, List.length_cons, List.length_nil]
    have h1 := min_le_left t (1 : ℝ)
    have h1' := min_le_right t (1 : ℝ)
    have h2 := min_le_left t (2 : ℝ)
    have h3 := min_le_left t (3 : ℝ)
    norm_num
    linarith

end Skwdro
