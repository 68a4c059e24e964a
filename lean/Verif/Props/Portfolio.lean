import Verif.Lemmas.Portfolio
import Verif.Props.Newsvendor
import Verif.Lemmas.Logistic
import Mathlib.Topology.MetricSpace.ProperSpace.Real

/-! C63: the dedicated portfolio solver. -/

namespace Skwdro
open Spec MeasureTheory

variable {N m J : ℕ}

/-! ## Certificates -/

theorem portfolio_feasible {C : Fin J → Fin m → ℝ} {d : Fin J → ℝ} {q : XNum ℝ} (hq : NormOrder q) {eta alpha rho : ℝ}
    {samples : Fin N → Fin m → ℝ} (v : PfVars N m J) :
    (portfolioProgram C d q eta alpha rho samples).Feasible v ↔
      InSimplex v.theta ∧ 0 ≤ v.lam ∧ ∀ i k,
        pfB eta alpha k * v.tau + pfA eta alpha k * (∑ j, v.theta j * samples i j)
          + ∑ l, v.gamma (pfIx i k) l * (d l - ∑ j, C l j * samples i j) ≤ v.s i ∧
        pnorm q (fun j => (∑ l, C l j * v.gamma (pfIx i k) l) - pfA eta alpha k * v.theta j) ≤ v.lam ∧
        ∀ l, 0 ≤ v.gamma (pfIx i k) l := by
  unfold Program.Feasible portfolioProgram
  simp only [vnorm_ofFn hq]
  constructor
  · intro h
    refine ⟨⟨fun j => ?_, h (fun v => ∑ j, v.theta j = 1) (by simp)⟩, h (fun v => 0 ≤ v.lam) (by simp), fun i k => ?_⟩
    · exact h (fun v => 0 ≤ v.theta j) (List.mem_append_left _ (List.mem_append_right _ (List.mem_map.2 ⟨j, List.mem_finRange j, rfl⟩)))
    · have hmem : ∀ c ∈ [fun v : PfVars N m J => pfB eta alpha k * v.tau + pfA eta alpha k * (∑ j, v.theta j * samples i j)
          + ∑ l, v.gamma (pfIx i k) l * (d l - ∑ j, C l j * samples i j) ≤ v.s i,
          fun v => pnorm q (fun j => (∑ l, C l j * v.gamma (pfIx i k) l) - pfA eta alpha k * v.theta j) ≤ v.lam,
          fun v => ∀ l, 0 ≤ v.gamma (pfIx i k) l], c v := by
        intro c hc
        apply h
        refine List.mem_append_right _ (List.mem_flatMap.2 ⟨i, List.mem_finRange i, List.mem_flatMap.2 ⟨k, List.mem_finRange k, hc⟩⟩)
      exact ⟨hmem (fun v : PfVars N m J => pfB eta alpha k * v.tau + pfA eta alpha k * (∑ j, v.theta j * samples i j)
          + ∑ l, v.gamma (pfIx i k) l * (d l - ∑ j, C l j * samples i j) ≤ v.s i) (by simp), hmem (fun v => pnorm q (fun j => (∑ l, C l j * v.gamma (pfIx i k) l) - pfA eta alpha k * v.theta j) ≤ v.lam) (by simp),
        hmem (fun v => ∀ l, 0 ≤ v.gamma (pfIx i k) l) (by simp)⟩
  · rintro ⟨⟨h1, h2⟩, h3, h4⟩ c hc
    rcases List.mem_append.1 hc with hc | hc
    · rcases List.mem_append.1 hc with hc | hc
      · rcases List.mem_cons.1 hc with rfl | hc
        · exact h2
        · rw [List.mem_singleton] at hc
          subst hc
          exact h3
      · obtain ⟨j, -, rfl⟩ := List.mem_map.1 hc
        exact h1 j
    · obtain ⟨i, -, hc⟩ := List.mem_flatMap.1 hc
      obtain ⟨k, -, hc⟩ := List.mem_flatMap.1 hc
      obtain ⟨k1, k2, k3⟩ := h4 i k
      simp only [List.mem_cons, List.not_mem_nil, or_false] at hc
      rcases hc with rfl | rfl | rfl
      exacts [k1, k2, k3]

theorem meanCVaR_eq (eta alpha r tau : ℝ) :
    meanCVaR eta alpha r tau = max (pfB eta alpha 0 * tau + pfA eta alpha 0 * r) (pfB eta alpha 1 * tau + pfA eta alpha 1 * r) := by
  unfold meanCVaR pfA pfB
  congr 1
  · simp; ring
  · simp; ring

theorem portfolio_piece {p q : XNum ℝ} (hpq : Conj p q) {C : Fin J → Fin m → ℝ} {d : Fin J → ℝ} {a b lam s tau : ℝ} {theta xi x : Fin m → ℝ}
    {gamma : Fin J → ℝ} (hg : ∀ l, 0 ≤ gamma l) (hx : ∀ l, ∑ j, C l j * x j ≤ d l)
    (h1 : b * tau + a * (∑ j, theta j * xi j) + ∑ l, gamma l * (d l - ∑ j, C l j * xi j) ≤ s)
    (h2 : pnorm q (fun j => (∑ l, C l j * gamma l) - a * theta j) ≤ lam) :
    b * tau + a * (∑ j, theta j * x j) ≤ s + lam * pnorm p (fun j => xi j - x j) := by
  have h3 := holder hpq (fun j => (∑ l, C l j * gamma l) - a * theta j) (fun j => xi j - x j)
  have h4 := mul_le_mul_of_nonneg_right h2 (pnorm_nonneg p fun j => xi j - x j)
  have e1 : ∑ j, ((∑ l, C l j * gamma l) - a * theta j) * (xi j - x j) =
      (∑ l, gamma l * (∑ j, C l j * xi j)) - (∑ l, gamma l * (∑ j, C l j * x j)) - a * (∑ j, theta j * xi j) + a * (∑ j, theta j * x j) := by
    have hsw : ∀ z : Fin m → ℝ, ∑ l, gamma l * (∑ j, C l j * z j) = ∑ j, (∑ l, C l j * gamma l) * z j := by
      intro z
      simp only [Finset.mul_sum, Finset.sum_mul]
      rw [Finset.sum_comm]
      exact Finset.sum_congr rfl fun j _ => Finset.sum_congr rfl fun l _ => by ring
    rw [hsw, hsw, Finset.mul_sum, Finset.mul_sum, ← Finset.sum_sub_distrib, ← Finset.sum_sub_distrib, ← Finset.sum_add_distrib]
    exact Finset.sum_congr rfl fun j _ => by ring
  have e2 : ∑ l, gamma l * (d l - ∑ j, C l j * xi j) = ∑ l, gamma l * d l - ∑ l, gamma l * (∑ j, C l j * xi j) := by
    rw [← Finset.sum_sub_distrib]
    exact Finset.sum_congr rfl fun l _ => by ring
  have h5 : ∑ l, gamma l * (∑ j, C l j * x j) ≤ ∑ l, gamma l * d l :=
    Finset.sum_le_sum fun l _ => mul_le_mul_of_nonneg_left (hx l) (hg l)
  rw [e1] at h3
  rw [e2] at h1
  linarith

theorem cvar_measurable (eta alpha : ℝ) (theta : Fin m → ℝ) (tau : ℝ) :
    Measurable fun x : Fin m → ℝ => meanCVaR eta alpha (∑ j, theta j * x j) tau := by
  unfold meanCVaR
  fun_prop

/-- the loss is integrable over the ball -/
theorem cvar_integrable {p q : XNum ℝ} (hpq : Conj p q) {eta alpha rho : ℝ} {samples : Fin N → Fin m → ℝ} (theta : Fin m → ℝ) (tau : ℝ)
    {C : Fin J → Fin m → ℝ} {d : Fin J → ℝ} {Q : Measure (Fin m → ℝ)} (hQ : Q ∈ AssetBall C d p samples rho) :
    Integrable (fun x : Fin m → ℝ => meanCVaR eta alpha (∑ j, theta j * x j) tau) Q := by
  have hp : ∀ (a b : ℝ) (i : Fin N) (x : Fin m → ℝ), |b * tau + a * ∑ j, theta j * x j| ≤
      |b * tau + a * ∑ j, theta j * samples i j| + |a| * pnorm q theta * pnorm p (fun j => samples i j - x j) := by
    intro a b i x
    have h1 := holder_abs hpq theta (fun j => samples i j - x j)
    have e : ∑ j, theta j * (samples i j - x j) = ∑ j, theta j * samples i j - ∑ j, theta j * x j := by
      rw [← Finset.sum_sub_distrib]
      exact Finset.sum_congr rfl fun j _ => by ring
    rw [e] at h1
    have h2 : |a * (∑ j, theta j * samples i j - ∑ j, theta j * x j)| ≤ |a| * pnorm q theta * pnorm p (fun j => samples i j - x j) := by
      rw [abs_mul, mul_assoc]
      exact mul_le_mul_of_nonneg_left h1 (abs_nonneg _)
    have h3 : b * tau + a * ∑ j, theta j * x j = (b * tau + a * ∑ j, theta j * samples i j) +
        -(a * (∑ j, theta j * samples i j - ∑ j, theta j * x j)) := by ring
    rw [h3]
    refine (abs_add_le _ _).trans ?_
    rw [abs_neg]
    linarith
  refine ball_integrable hQ.1 (cvar_measurable eta alpha theta tau)
    (s := fun i => |pfB eta alpha 0 * tau + pfA eta alpha 0 * ∑ j, theta j * samples i j| +
      |pfB eta alpha 1 * tau + pfA eta alpha 1 * ∑ j, theta j * samples i j|)
    (lam := (|pfA eta alpha 0| + |pfA eta alpha 1|) * pnorm q theta) (fun _ => True) (by simp) ?_
  intro i x _
  rw [meanCVaR_eq]
  have h0 := hp (pfA eta alpha 0) (pfB eta alpha 0) i x
  have h1 := hp (pfA eta alpha 1) (pfB eta alpha 1) i x
  have h2 : ∀ u v : ℝ, |max u v| ≤ |u| + |v| := by
    intro u v
    rcases le_total u v with h | h
    · rw [max_eq_right h]; have := abs_nonneg u; linarith
    · rw [max_eq_left h]; have := abs_nonneg v; linarith
  refine (h2 _ _).trans ?_
  linarith

/-- C63. Every feasible point of the portfolio program bounds the expected mean-CVaR loss of its weights under every law of returns staying
in the polytope and within `rho` of the sample, distances being measured in the norm whose dual norm is constrained. -/
theorem C63_certificate {p q : XNum ℝ} (hp : NormOrder p) (hq : pfQ p = .ok q) {C : Fin J → Fin m → ℝ} {d : Fin J → ℝ}
    {eta alpha rho : ℝ} {samples : Fin N → Fin m → ℝ} {v : PfVars N m J} (hv : (portfolioProgram C d q eta alpha rho samples).Feasible v)
    {Q : Measure (Fin m → ℝ)} (hQ : Q ∈ AssetBall C d p samples rho) :
    InSimplex v.theta ∧ Integrable (fun x : Fin m → ℝ => meanCVaR eta alpha (∑ j, v.theta j * x j) v.tau) Q ∧
    cvarRisk eta alpha v.theta v.tau Q ≤ (portfolioProgram C d q eta alpha rho samples).objective v := by
  have hpq := pfQ_conj hp hq
  obtain ⟨h1, h2, h3⟩ := (portfolio_feasible hpq.normOrder_right v).1 hv
  have hint := cvar_integrable hpq (eta := eta) (alpha := alpha) v.theta v.tau hQ
  refine ⟨h1, hint, ?_⟩
  have := ball_bound hQ.1 h2 _ hQ.2 hint (s := v.s) (by
    intro i x hx
    rw [meanCVaR_eq]
    apply max_le
    · obtain ⟨k1, k2, k3⟩ := h3 i 0
      exact portfolio_piece hpq k3 hx k1 k2
    · obtain ⟨k1, k2, k3⟩ := h3 i 1
      exact portfolio_piece hpq k3 hx k1 k2)
  refine this.trans (le_of_eq ?_)
  unfold portfolioProgram avg
  simp only
  ring

/-! ## Exactness when returns are unrestricted -/

theorem pnorm_scale {p : XNum ℝ} (hp : NormOrder p) {c : ℝ} (hc : 0 ≤ c) (v : Fin m → ℝ) : pnorm p (fun j => c * v j) = c * pnorm p v := by
  rcases hp with ⟨q, hq, rfl⟩ | rfl
  · simp only [pnorm]
    have h1 : ∀ j, |c * v j| ^ q = c ^ q * |v j| ^ q := fun j => by
      rw [abs_mul, abs_of_nonneg hc, Real.mul_rpow hc (abs_nonneg _)]
    simp only [h1, ← Finset.mul_sum]
    rw [Real.mul_rpow (Real.rpow_nonneg hc _) (Finset.sum_nonneg fun j _ => Real.rpow_nonneg (abs_nonneg _) _), ← Real.rpow_mul hc,
      mul_one_div_cancel (by linarith), Real.rpow_one]
  · simp only [pnorm, abs_mul, abs_of_nonneg hc]
    exact (Real.mul_iSup_of_nonneg hc _).symm

/-- average loss of the data, plus the radius times the steeper slope times the dual norm of the weights -/
noncomputable def pfValue (q : XNum ℝ) (eta alpha rho : ℝ) (samples : Fin N → Fin m → ℝ) (theta : Fin m → ℝ) (tau : ℝ) : ℝ :=
  avg (fun i => meanCVaR eta alpha (∑ j, theta j * samples i j) tau) + rho * ((1 + eta / alpha) * pnorm q theta)

theorem pf_lower {p q : XNum ℝ} (hpq : Conj p q) (hN : 0 < N) (hm : 0 < m) {C : Fin J → Fin m → ℝ} {d : Fin J → ℝ} (hC : ∀ l j, C l j = 0)
    (hd : ∀ l, 0 ≤ d l) {eta alpha rho : ℝ} (hr : 0 ≤ rho) (samples : Fin N → Fin m → ℝ)
    {theta : Fin m → ℝ} (ht : ∀ j, 0 ≤ theta j) (tau : ℝ) {δ : ℝ} (h0 : 0 < δ) (h1 : δ ≤ 1) :
    ∃ Q ∈ AssetBall C d p samples rho,
      (1 - δ) * avg (fun i => meanCVaR eta alpha (∑ j, theta j * samples i j) tau) +
      δ * avg (fun i => pfB eta alpha 1 * tau + pfA eta alpha 1 * ∑ j, theta j * samples i j) +
      rho * ((1 + eta / alpha) * pnorm q theta) ≤ cvarRisk eta alpha theta tau Q := by
  have hN' : (0 : ℝ) < N := by exact_mod_cast hN
  obtain ⟨u, hu1, hu2⟩ := holder_attained hpq hm theta ht
  set w : Fin N → Fin 2 → ℝ := fun _ j => if j = 0 then (1 - δ) / N else δ / N with hw
  set dest : Fin N → Fin 2 → Fin m → ℝ := fun i j => if j = 0 then samples i else fun k => samples i k - rho / δ * u k with hdest
  have hw0 : ∀ i j, 0 ≤ w i j := by
    intro i j
    have : 0 ≤ 1 - δ := by linarith
    simp only [hw]
    split_ifs <;> positivity
  have hsum : ∀ i, ∑ j, w i j = 1 / N := by
    intro i
    simp only [hw, Fin.sum_univ_two]
    simp
    ring
  refine ⟨(finPlan w dest).map Prod.snd, ⟨finPlan_inBall hN hw0 hsum _ ?_, ?_⟩, ?_⟩
  · have hz : pnorm p (fun _ : Fin m => (0 : ℝ)) = 0 := (pnorm_eq_zero hpq.normOrder_left _).2 fun _ => rfl
    have hc : ∀ i, ∑ j, w i j * pnorm p (fun k => samples i k - dest i j k) ≤ rho / N := by
      intro i
      simp only [Fin.sum_univ_two, hw, hdest]
      simp only [if_pos, one_ne_zero, if_false, sub_self, hz, sub_sub_cancel]
      rw [pnorm_scale hpq.normOrder_left (by positivity)]
      have : δ / N * (rho / δ * pnorm p u) = rho / N * pnorm p u := by field_simp
      rw [this]
      have := mul_le_mul_of_nonneg_left hu1 (show 0 ≤ rho / N by positivity)
      linarith
    refine (Finset.sum_le_sum fun i _ => hc i).trans (le_of_eq ?_)
    simp
    field_simp
  · refine finPlan_snd_ae _ ?_ ?_
    · have : {x : Fin m → ℝ | ∀ l, ∑ j, C l j * x j ≤ d l} = Set.univ := by
        ext x; simp [hC, hd]
      rw [this]
      exact MeasurableSet.univ
    · intro i j l
      simp [hC, hd]
  · unfold cvarRisk
    rw [finPlan_snd_integral hw0 _ (cvar_measurable eta alpha theta tau)]
    set A := fun i => meanCVaR eta alpha (∑ j, theta j * samples i j) tau with hA
    set B := fun i => pfB eta alpha 1 * tau + pfA eta alpha 1 * ∑ j, theta j * samples i j with hB
    have hc : ∀ i, ((1 - δ) * A i + δ * B i + rho * ((1 + eta / alpha) * pnorm q theta)) / N ≤
        ∑ j, w i j * meanCVaR eta alpha (∑ k, theta k * dest i j k) tau := by
      intro i
      rw [Fin.sum_univ_two]
      have e0 : w i 0 * meanCVaR eta alpha (∑ k, theta k * dest i 0 k) tau = (1 - δ) / N * A i := by simp [hw, hdest, hA]
      have e1 : w i 1 = δ / N := by simp [hw]
      have e2 : ∑ k, theta k * dest i 1 k = ∑ k, theta k * samples i k - rho / δ * pnorm q theta := by
        rw [← hu2, Finset.mul_sum, ← Finset.sum_sub_distrib]
        refine Finset.sum_congr rfl fun k _ => ?_
        simp [hdest]; ring
      rw [e0, e1, e2, meanCVaR_eq]
      have h2 : pfB eta alpha 1 * tau + pfA eta alpha 1 * (∑ k, theta k * samples i k - rho / δ * pnorm q theta) =
          B i + rho / δ * ((1 + eta / alpha) * pnorm q theta) := by
        simp only [hB, pfA]; simp; ring
      rw [h2]
      have h3 := mul_le_mul_of_nonneg_left (le_max_right (pfB eta alpha 0 * tau + pfA eta alpha 0 * (∑ k, theta k * samples i k - rho / δ * pnorm q theta))
        (B i + rho / δ * ((1 + eta / alpha) * pnorm q theta))) (show 0 ≤ δ / N by positivity)
      refine le_trans (le_of_eq ?_) (add_le_add_right h3 _)
      field_simp
      ring
    refine le_trans (le_of_eq ?_) (Finset.sum_le_sum fun i _ => hc i)
    rw [← Finset.sum_div]
    generalize rho * ((1 + eta / alpha) * pnorm q theta) = R
    have h2 := avg_add (fun i => (1 - δ) * A i + δ * B i) (fun _ => R)
    rw [avg_const hN] at h2
    have h3 := avg_add (fun i => (1 - δ) * A i) (fun i => δ * B i)
    rw [avg_const_mul, avg_const_mul] at h3
    rw [h3] at h2
    exact h2.symm

theorem pf_lub {p q : XNum ℝ} (hpq : Conj p q) (hN : 0 < N) (hm : 0 < m) {C : Fin J → Fin m → ℝ} {d : Fin J → ℝ} (hC : ∀ l j, C l j = 0)
    (hd : ∀ l, 0 ≤ d l) {eta alpha rho : ℝ} (hr : 0 ≤ rho) (samples : Fin N → Fin m → ℝ)
    {theta : Fin m → ℝ} (ht : ∀ j, 0 ≤ theta j) (tau : ℝ) {M : ℝ} (hM : ∀ Q ∈ AssetBall C d p samples rho, cvarRisk eta alpha theta tau Q ≤ M) :
    pfValue q eta alpha rho samples theta tau ≤ M := by
  unfold pfValue
  set A := avg (fun i => meanCVaR eta alpha (∑ j, theta j * samples i j) tau)
  set B := avg (fun i => pfB eta alpha 1 * tau + pfA eta alpha 1 * ∑ j, theta j * samples i j)
  set R := rho * ((1 + eta / alpha) * pnorm q theta)
  by_contra hlt
  push Not at hlt
  have hstep : ∀ δ, 0 < δ → δ ≤ 1 → A + R + δ * (B - A) ≤ M := by
    intro δ h0 h01
    obtain ⟨Q, hQ, hle⟩ := pf_lower hpq hN hm hC hd (eta := eta) (alpha := alpha) hr samples ht tau h0 h01
    have := hle.trans (hM Q hQ)
    change (1 - δ) * A + δ * B + R ≤ M at this
    linarith
  set δ := min 1 ((A + R - M) / (2 * (|B - A| + 1))) with hδ
  have hp : 0 < |B - A| + 1 := by positivity
  have hδ0 : 0 < δ := lt_min one_pos (div_pos (by linarith) (by positivity))
  have hδ1 := hstep δ hδ0 (min_le_left _ _)
  have hδ2 : δ * (|B - A| + 1) ≤ (A + R - M) / 2 := by
    have : δ ≤ (A + R - M) / (2 * (|B - A| + 1)) := min_le_right _ _
    have := mul_le_mul_of_nonneg_right this hp.le
    refine this.trans (le_of_eq ?_)
    field_simp
  have := neg_abs_le (B - A)
  have := mul_le_mul_of_nonneg_left this hδ0.le
  nlinarith

/-- the feasible point attaining `pfValue` -/
noncomputable def pfPoint (q : XNum ℝ) (eta alpha : ℝ) (samples : Fin N → Fin m → ℝ) (theta : Fin m → ℝ) (tau : ℝ) : PfVars N m J where
  lam := (1 + eta / alpha) * pnorm q theta
  s := fun i => meanCVaR eta alpha (∑ j, theta j * samples i j) tau
  theta := theta
  tau := tau
  gamma := fun _ _ => 0

theorem pfPoint_feasible {q : XNum ℝ} (hq : NormOrder q) {C : Fin J → Fin m → ℝ} {d : Fin J → ℝ} {eta alpha rho : ℝ} (he : 0 ≤ eta) (ha : 0 < alpha)
    (samples : Fin N → Fin m → ℝ) {theta : Fin m → ℝ} (ht : InSimplex theta) (tau : ℝ) :
    (portfolioProgram C d q eta alpha rho samples).Feasible (pfPoint q eta alpha samples theta tau) ∧
    (portfolioProgram C d q eta alpha rho samples).objective (pfPoint q eta alpha samples theta tau) = pfValue q eta alpha rho samples theta tau := by
  have hs : 0 ≤ eta / alpha := by positivity
  have hn := pnorm_nonneg q theta
  constructor
  · rw [portfolio_feasible hq]
    refine ⟨ht, by simp only [pfPoint]; positivity, fun i k => ⟨?_, ?_, fun l => le_rfl⟩⟩
    · simp only [pfPoint, zero_mul, Finset.sum_const_zero, add_zero]
      rw [meanCVaR_eq]
      fin_cases k
      · exact le_max_left _ _
      · exact le_max_right _ _
    · simp only [pfPoint, mul_zero, Finset.sum_const_zero, zero_sub]
      rw [pnorm_neg]
      fin_cases k
      · have : (fun j => pfA eta alpha ((fun i => i) ⟨0, by decide⟩ : Fin 2) * theta j) = fun j => -theta j := by funext j; simp [pfA]
        rw [this, pnorm_neg]
        nlinarith
      · have : (fun j => pfA eta alpha ((fun i => i) ⟨1, by decide⟩ : Fin 2) * theta j) = fun j => -((1 + eta / alpha) * theta j) := by
          funext j; simp [pfA]; ring
        rw [this, pnorm_neg, pnorm_scale hq (by positivity)]
  · unfold portfolioProgram pfValue pfPoint avg
    simp only
    ring

/-- moving the threshold back into `[-R, R]` does not increase the loss -/
theorem clamp_le {eta alpha r tau R : ℝ} (he : 0 ≤ eta) (ha : 0 < alpha) (ha1 : alpha ≤ 1) (hr : |r| ≤ R) :
    meanCVaR eta alpha r (max (-R) (min R tau)) ≤ meanCVaR eta alpha r tau := by
  obtain ⟨h1, h2⟩ := abs_le.1 hr
  have h3 : 1 ≤ 1 / alpha := by rw [le_div_iff₀ ha]; linarith
  have h4 : eta / alpha = eta * (1 / alpha) := by ring
  unfold meanCVaR
  rw [h4]
  generalize 1 / alpha = c at h3
  have hec : 0 ≤ eta * (c - 1) := mul_nonneg he (by linarith)
  have hec' : 0 ≤ eta * c := mul_nonneg he (by linarith)
  rcases le_total tau R with h5 | h5
  · rw [min_eq_right h5]
    rcases le_total (-R) tau with h6 | h6
    · rw [max_eq_right h6]
    · rw [max_eq_left h6]
      have k1 := mul_le_mul_of_nonneg_left h6 hec
      have k2 := mul_le_mul_of_nonneg_left (show -R ≤ -r by linarith) hec'
      refine max_le (le_max_of_le_right ?_) (le_max_of_le_right ?_)
      · nlinarith
      · nlinarith
  · rw [min_eq_left h5, max_eq_right (a := -R) (b := R) (by linarith [abs_nonneg r])]
    have k1 := mul_le_mul_of_nonneg_left h5 he
    have k2 := mul_le_mul_of_nonneg_left (show -r ≤ R by linarith) hec'
    refine max_le (le_max_of_le_left ?_) (le_max_of_le_left ?_)
    · nlinarith
    · nlinarith

theorem pnorm_continuous {q : XNum ℝ} (hq : NormOrder q) : Continuous fun u : Fin m → ℝ => pnorm q u := by
  rcases hq with ⟨a, ha, rfl⟩ | rfl
  · have h1 : Continuous fun u : Fin m → ℝ => ∑ j, |u j| ^ a :=
      continuous_finsetSum _ fun j _ => (Real.continuous_rpow_const (by linarith)).comp (by fun_prop)
    exact (Real.continuous_rpow_const (by positivity)).comp h1
  · have : (fun u : Fin m → ℝ => pnorm .pinf u) = fun u => ‖u‖ := by
      funext u
      apply le_antisymm
      · exact Real.iSup_le (fun j => by simpa using norm_le_pi_norm u j) (norm_nonneg _)
      · rw [pi_norm_le_iff_of_nonneg (pnorm_nonneg _ _)]
        intro j
        exact abs_le_pinf u j
    rw [this]
    exact continuous_norm

theorem pf_min_exists {q : XNum ℝ} (hq : NormOrder q) (hm : 0 < m) {eta alpha rho : ℝ} (he : 0 ≤ eta) (ha : 0 < alpha) (ha1 : alpha ≤ 1)
    (samples : Fin N → Fin m → ℝ) :
    ∃ (theta : Fin m → ℝ) (tau : ℝ), InSimplex theta ∧ ∀ theta' tau', InSimplex theta' →
      pfValue q eta alpha rho samples theta tau ≤ pfValue q eta alpha rho samples theta' tau' := by
  set R := ∑ i, ∑ j, |samples i j| with hR
  have hret : ∀ theta, InSimplex theta → ∀ i, |∑ j, theta j * samples i j| ≤ R := by
    intro theta ht i
    have h1 : ∀ j, theta j ≤ 1 := fun j => by
      rw [← ht.2]
      exact Finset.single_le_sum (f := theta) (fun k _ => ht.1 k) (Finset.mem_univ j)
    calc |∑ j, theta j * samples i j| ≤ ∑ j, |theta j * samples i j| := Finset.abs_sum_le_sum_abs _ _
      _ ≤ ∑ j, |samples i j| := Finset.sum_le_sum fun j _ => by
          rw [abs_mul, abs_of_nonneg (ht.1 j)]
          exact mul_le_of_le_one_left (abs_nonneg _) (h1 j)
      _ ≤ R := Finset.single_le_sum (f := fun i => ∑ j, |samples i j|)
          (fun k _ => Finset.sum_nonneg fun j _ => abs_nonneg _) (Finset.mem_univ i)
  have hR0 : 0 ≤ R := Finset.sum_nonneg fun i _ => Finset.sum_nonneg fun j _ => abs_nonneg _
  set K : Set ((Fin m → ℝ) × ℝ) := ((Set.univ.pi fun _ => Set.Icc (0 : ℝ) 1) ×ˢ Set.Icc (-R) R) ∩ {v | ∑ j, v.1 j = 1} with hK
  have hKc : IsCompact K := by
    refine ((isCompact_univ_pi fun _ => isCompact_Icc).prod isCompact_Icc).inter_right ?_
    exact isClosed_eq (by fun_prop) continuous_const
  have hmem : ∀ theta tau, InSimplex theta → -R ≤ tau → tau ≤ R → (theta, tau) ∈ K := by
    intro theta tau ht h1 h2
    refine ⟨⟨fun j _ => ⟨ht.1 j, ?_⟩, h1, h2⟩, ht.2⟩
    rw [← ht.2]
    exact Finset.single_le_sum (f := theta) (fun k _ => ht.1 k) (Finset.mem_univ j)
  have hne : K.Nonempty := by
    refine ⟨_, hmem (fun j => if j = ⟨0, hm⟩ then 1 else 0) 0 ⟨fun j => by beta_reduce; split_ifs <;> norm_num, by simp⟩ (by linarith) hR0⟩
  have hcont : Continuous fun v : (Fin m → ℝ) × ℝ => pfValue q eta alpha rho samples v.1 v.2 := by
    unfold pfValue avg meanCVaR
    have h1 := (pnorm_continuous hq).comp (continuous_fst (X := Fin m → ℝ) (Y := ℝ))
    have h2 : Continuous fun v : (Fin m → ℝ) × ℝ => pnorm q v.1 := h1
    have h3 : Continuous fun v : (Fin m → ℝ) × ℝ => rho * ((1 + eta / alpha) * pnorm q v.1) := by
      exact (h2.const_mul _).const_mul _
    refine Continuous.add ?_ h3
    fun_prop
  obtain ⟨v, hv, hmin⟩ := hKc.exists_isMinOn hne hcont.continuousOn
  refine ⟨v.1, v.2, ⟨fun j => (hv.1.1 j (Set.mem_univ j)).1, hv.2⟩, fun theta' tau' ht' => ?_⟩
  have h1 := hmin (hmem theta' (max (-R) (min R tau')) ht' (le_max_left _ _) (max_le (by linarith) (min_le_left _ _)))
  refine le_trans h1 ?_
  unfold pfValue
  exact add_le_add_left (avg_le_avg fun i => clamp_le he ha ha1 (hret theta' ht' i)) _

/-- C63. When the polytope does not restrict the returns (the default: zero matrix), the smallest value the program assigns to given
weights and threshold is the supremum of their expected loss over the ball, the average loss of the sample plus
`rho (1 + eta/alpha)` times the dual norm of the weights. -/
theorem C63_exact {p q : XNum ℝ} (hp : NormOrder p) (hq : pfQ p = .ok q) (hN : 0 < N) (hm : 0 < m) {C : Fin J → Fin m → ℝ} {d : Fin J → ℝ}
    (hC : ∀ l j, C l j = 0) (hd : ∀ l, 0 ≤ d l) {eta alpha rho : ℝ} (he : 0 ≤ eta) (ha : 0 < alpha) (hr : 0 ≤ rho)
    (samples : Fin N → Fin m → ℝ) {theta : Fin m → ℝ} (ht : InSimplex theta) (tau : ℝ) :
    let V := avg (fun i => meanCVaR eta alpha (∑ j, theta j * samples i j) tau) + rho * ((1 + eta / alpha) * pnorm q theta)
    IsLUB {e | ∃ Q ∈ AssetBall C d p samples rho, e = cvarRisk eta alpha theta tau Q} V ∧
    IsLeast {e | ∃ v, (portfolioProgram C d q eta alpha rho samples).Feasible v ∧ v.theta = theta ∧ v.tau = tau ∧
      e = (portfolioProgram C d q eta alpha rho samples).objective v} V := by
  intro V
  have hpq := pfQ_conj hp hq
  obtain ⟨h1, h2⟩ := pfPoint_feasible hpq.normOrder_right (C := C) (d := d) (rho := rho) he ha samples ht tau
  refine ⟨⟨?_, fun M hM => ?_⟩, ⟨_, h1, rfl, rfl, h2.symm⟩, ?_⟩
  · rintro _ ⟨Q, hQ, rfl⟩
    exact (C63_certificate hp hq h1 hQ).2.2.trans (le_of_eq h2)
  · exact pf_lub hpq hN hm hC hd hr samples ht.1 tau fun Q hQ => hM ⟨Q, hQ, rfl⟩
  · rintro _ ⟨v, hv, rfl, rfl, rfl⟩
    exact pf_lub hpq hN hm hC hd hr samples ht.1 v.tau fun Q hQ => (C63_certificate hp hq hv hQ).2.2

/-- the hypotheses are met: two assets, one zero row, sup-norm cost -/
example : NormOrder (.pinf : XNum ℝ) ∧ pfQ .pinf = .ok (.fin 1) ∧ InSimplex (fun _ : Fin 2 => (1 / 2 : ℝ)) :=
  ⟨.inr rfl, rfl, fun _ => by norm_num, by norm_num⟩

theorem cpOrder_of {q : XNum ℝ} (hq : NormOrder q) : cpOrder q := by
  rcases hq with ⟨a, ha, rfl⟩ | rfl
  · exact ha
  · trivial

/-- C63. With an exact external solver, whatever the dedicated portfolio solver returns is a portfolio (non-negative weights summing to
one), a threshold, a multiplier and a robust value: the value bounds the expected loss of this portfolio over the ball, and no
feasible point of the program has a smaller value. -/
theorem C63_solver {solve : Oracle} (hs : ExactSolver solve) {p : XNum ℝ} (hp : NormOrder p) {C : Fin J → Fin m → ℝ} {d : Fin J → ℝ}
    {eta alpha rho : ℝ} {samples : Fin N → Fin m → ℝ} {r : SolverResult SVal}
    (h : portfolioDedicated solve C d p eta alpha rho samples = .ok r) :
    ∃ (theta : Fin m → ℝ) (tau lam V : ℝ), r.toList = .ok [some (.vec (List.ofFn theta)), some (.vec [tau]), some (.vec [lam]), some (.num V)] ∧
      InSimplex theta ∧ 0 ≤ lam ∧ (∀ Q ∈ AssetBall C d p samples rho, cvarRisk eta alpha theta tau Q ≤ V) ∧
      ∃ q, pfQ p = .ok q ∧ ∀ v, (portfolioProgram C d q eta alpha rho samples).Feasible v →
        V ≤ (portfolioProgram C d q eta alpha rho samples).objective v := by
  unfold portfolioDedicated at h
  split_ifs at h with h1 h2
  cases hq : pfQ p with
  | error e => rw [hq] at h; simp at h
  | ok q =>
    rw [hq] at h
    have hqo := (pfQ_conj hp hq).normOrder_right
    simp only [ok_bind, if_pos (cpOrder_of hqo)] at h
    cases hv : solve _ (portfolioProgram C d q eta alpha rho samples) with
    | none => rw [hv] at h; simp at h
    | some v =>
      rw [hv] at h
      obtain ⟨hf, ho⟩ := (hs _ _).1 v hv
      obtain ⟨r', hr', hl⟩ : ∃ r', wrapResult (.tuple [some (SVal.vec (List.ofFn v.theta)), some (.vec [v.tau]), some (.vec [v.lam]),
          some (.num ((portfolioProgram C d q eta alpha rho samples).objective v))]) = .ok r' ∧
          r'.toList = .ok [some (SVal.vec (List.ofFn v.theta)), some (.vec [v.tau]), some (.vec [v.lam]),
          some (.num ((portfolioProgram C d q eta alpha rho samples).objective v))] := ⟨_, rfl, rfl⟩
      have : r' = r := by simp only at h; rw [hr'] at h; exact Except.ok.inj h
      subst this
      refine ⟨v.theta, v.tau, v.lam, _, hl, ((portfolio_feasible hqo v).1 hf).1, ((portfolio_feasible hqo v).1 hf).2.1, fun Q hQ => ?_, q, rfl, ho⟩
      exact (C63_certificate hp hq hf hQ).2.2

/-- C63. When the returns are unrestricted and the risk parameters are valid, the dedicated solver with an exact external solver returns
a portfolio and threshold whose worst-case expected loss over the ball is the returned robust value, and no other portfolio and
threshold have a smaller worst-case expected loss. -/
theorem C63_optimal {solve : Oracle} (hs : ExactSolver solve) {p q : XNum ℝ} (hp : NormOrder p) (hq : pfQ p = .ok q) (hN : 0 < N) (hm : 0 < m)
    {C : Fin J → Fin m → ℝ} {d : Fin J → ℝ} (hC : ∀ l j, C l j = 0) (hd : ∀ l, 0 ≤ d l) {eta alpha rho : ℝ} (he : 0 ≤ eta) (ha : 0 < alpha)
    (ha1 : alpha ≤ 1) (hr : 0 ≤ rho) (samples : Fin N → Fin m → ℝ) :
    ∃ (theta : Fin m → ℝ) (tau lam V : ℝ) (r : SolverResult SVal), portfolioDedicated solve C d p eta alpha rho samples = .ok r ∧
      r.toList = .ok [some (.vec (List.ofFn theta)), some (.vec [tau]), some (.vec [lam]), some (.num V)] ∧ InSimplex theta ∧
      IsLUB {e | ∃ Q ∈ AssetBall C d p samples rho, e = cvarRisk eta alpha theta tau Q} V ∧
      ∀ theta' tau', InSimplex theta' → ∀ M, (∀ Q ∈ AssetBall C d p samples rho, cvarRisk eta alpha theta' tau' Q ≤ M) → V ≤ M := by
  have hpq := pfQ_conj hp hq
  have hqo := hpq.normOrder_right
  obtain ⟨theta0, tau0, ht0, hmin⟩ := pf_min_exists hqo hm (rho := rho) he ha ha1 samples
  have hex : ∃ v, (portfolioProgram C d q eta alpha rho samples).Optimal v := by
    obtain ⟨h1, h2⟩ := pfPoint_feasible hqo (C := C) (d := d) (rho := rho) he ha samples ht0 tau0
    refine ⟨_, h1, fun w hw => ?_⟩
    have hw1 := ((portfolio_feasible hqo w).1 hw).1
    rw [h2]
    refine (hmin w.theta w.tau hw1).trans ?_
    exact pf_lub hpq hN hm hC hd hr samples hw1.1 w.tau fun Q hQ => (C63_certificate hp hq hw hQ).2.2
  obtain ⟨v, hv⟩ := (hs _ _).2 hex
  obtain ⟨r, hr', hl⟩ : ∃ r, wrapResult (.tuple [some (SVal.vec (List.ofFn v.theta)), some (.vec [v.tau]), some (.vec [v.lam]),
      some (.num ((portfolioProgram C d q eta alpha rho samples).objective v))]) = .ok r ∧
      r.toList = .ok [some (SVal.vec (List.ofFn v.theta)), some (.vec [v.tau]), some (.vec [v.lam]),
      some (.num ((portfolioProgram C d q eta alpha rho samples).objective v))] := ⟨_, rfl, rfl⟩
  obtain ⟨hf, ho⟩ := (hs _ _).1 v hv
  have hsx := ((portfolio_feasible hqo v).1 hf).1
  have hleast : ∀ theta' tau', InSimplex theta' → ∀ M, (∀ Q ∈ AssetBall C d p samples rho, cvarRisk eta alpha theta' tau' Q ≤ M) →
      (portfolioProgram C d q eta alpha rho samples).objective v ≤ M := by
    intro theta' tau' ht' M hM
    obtain ⟨h1, h2⟩ := pfPoint_feasible hqo (C := C) (d := d) (rho := rho) he ha samples ht' tau'
    refine (ho _ h1).trans ?_
    rw [h2]
    exact pf_lub hpq hN hm hC hd hr samples ht'.1 tau' hM
  refine ⟨v.theta, v.tau, v.lam, _, r, ?_, hl, hsx, ⟨?_, fun M hM => ?_⟩, hleast⟩
  · unfold portfolioDedicated
    rw [if_neg ha.ne', if_neg (by omega), hq]
    simp only [ok_bind, if_pos (cpOrder_of hqo), hv]
    exact hr'
  · rintro _ ⟨Q, hQ, rfl⟩
    exact (C63_certificate hp hq hf hQ).2.2
  · exact hleast v.theta v.tau hsx M fun Q hQ => hM ⟨Q, hQ, rfl⟩

/-- the hypotheses are met -/
example : ∃ solve : Oracle, ∃ r, portfolioDedicated (N := 2) (m := 2) (J := 1) solve (fun _ _ => 0) (fun _ => 0) .pinf 1 (1 / 2) (1 / 10)
    (fun i j => (i : ℝ) - j) = .ok r := by
  obtain ⟨solve, hs⟩ := exactSolver_exists
  obtain ⟨-, -, -, -, r, h, -⟩ := C63_optimal (N := 2) (m := 2) (J := 1) hs (p := .pinf) (q := .fin 1) (.inr rfl) rfl (by norm_num) (by norm_num)
    (C := fun _ _ => 0) (d := fun _ => 0) (by simp) (by simp) (eta := 1) (alpha := 1 / 2) (rho := 1 / 10) (by norm_num) (by norm_num)
    (by norm_num) (by norm_num) (fun i j => (i : ℝ) - j)
  exact ⟨solve, r, h⟩

end Skwdro
