import Verif.Props.MoreDataLogistic

/-!
# More data: fits of logistic regression (C136)
-/

namespace Skwdro
open Spec Tensor MeasureTheory ProbabilityTheory Filter Topology

section
variable {d : ℕ} {Ω : Type} [MeasurableSpace Ω] {μ : Measure Ω} [IsProbabilityMeasure μ] {nu : Measure ((Fin d → ℝ) × ℝ)}
  {Z : ℕ → Ω → (Fin d → ℝ) × ℝ}

/-- the worst-case loss under a law is the smallest value of the dual -/
theorem dualLaw_least [IsProbabilityMeasure nu] (hx : ∀ j, Integrable (fun z => z.1 j) nu) (hl : ∀ᵐ z ∂nu, z.2 = 1 ∨ z.2 = -1)
    {kappa rho : ℝ} (hk : 0 ≤ kappa) (hr : 0 < rho) (w : Fin d → ℝ) (b : ℝ) :
    IsLUB {e | ∃ Q ∈ MovedOrFlipped nu kappa rho, e = logRisk w b Q} (sInf {v | ∃ lam, norm2 w ≤ lam ∧ v = dualLaw kappa rho nu w b lam}) := by
  have hN := l2norm_nonneg w
  have hti := margin_integrable hx hl w b
  have htm := margin_measurable w b
  have hbdd : BddBelow {v | ∃ lam, norm2 w ≤ lam ∧ v = dualLaw kappa rho nu w b lam} := by
    refine ⟨0, ?_⟩
    rintro _ ⟨lam, hlam, rfl⟩
    have h2 : 0 ≤ ∫ z, dualLog kappa w b lam z ∂nu := integral_nonneg fun z => (dualLog_pos ..).le
    have h1 := hN.trans hlam
    unfold dualLaw
    positivity
  constructor
  · rintro _ ⟨Q, hQ, rfl⟩
    refine le_csInf ⟨_, norm2 w, le_rfl, rfl⟩ ?_
    rintro _ ⟨lam, hlam, rfl⟩
    exact dualLaw_upper hx hl hk w b hlam hQ
  · intro M hM
    have hM' : ∀ Q ∈ MovedOrFlipped nu kappa rho, logRisk w b Q ≤ M := fun Q hQ => hM ⟨Q, hQ, rfl⟩
    -- points whose margin exceeds a level
    set I : ℝ → (Fin d → ℝ) × ℝ → ℝ := fun s => {z | s < margin w b z}.indicator fun _ => 1 with hI
    have hms : ∀ s, MeasurableSet {z : (Fin d → ℝ) × ℝ | s < margin w b z} := fun s => measurableSet_lt measurable_const htm
    have hIm : ∀ s, _root_.Measurable (I s) := fun s => measurable_const.indicator (hms s)
    have hI0 : ∀ s z, 0 ≤ I s z := fun s z => Set.indicator_nonneg (fun _ _ => zero_le_one) z
    have hI1 : ∀ s z, I s z ≤ 1 := fun s z => Set.indicator_le_self' (fun _ _ => zero_le_one) z
    have hIi : ∀ s, Integrable (I s) nu := fun s => (integrable_const 1).indicator (hms s)
    have hIt : ∀ s, Integrable (fun z => I s z * margin w b z) nu := by
      intro s
      have : (fun z => I s z * margin w b z) = {z | s < margin w b z}.indicator (margin w b) := by
        funext z
        by_cases h : s < margin w b z <;> simp [hI, Set.indicator, h]
      rw [this]
      exact hti.indicator (hms s)
    have hcpn : Integrable (fun z => cpLogistic (-margin w b z)) nu := by
      refine ((integrable_const (Real.log 2)).add hti.abs).mono' (cpLogistic_continuous.measurable.comp htm.neg).aestronglyMeasurable (ae_of_all _ fun z => ?_)
      rw [Real.norm_of_nonneg (cpLogistic_pos _).le]
      have := cpLogistic_le (-margin w b z)
      rwa [abs_neg] at this
    -- the dual value, from the points to flip
    have hdual : ∀ lam, dualLaw kappa rho nu w b lam = (∫ z, cpLogistic (-margin w b z) ∂nu) + (∫ z, I (kappa * lam) z * margin w b z ∂nu) +
        lam * (rho - kappa * ∫ z, I (kappa * lam) z ∂nu) := by
      intro lam
      have e : ∀ z, dualLog kappa w b lam z = cpLogistic (-margin w b z) + (I (kappa * lam) z * margin w b z - kappa * lam * I (kappa * lam) z) := by
        intro z
        unfold dualLog
        rw [cpLogistic_flip (margin w b z)]
        by_cases h : kappa * lam < margin w b z
        · rw [max_eq_left (by linarith)]
          simp [hI, Set.indicator, h]
          ring
        · rw [max_eq_right (by linarith)]
          simp [hI, Set.indicator, h]
      unfold dualLaw
      simp only [e]
      have hb : Integrable (fun z => I (kappa * lam) z * margin w b z - kappa * lam * I (kappa * lam) z) nu := (hIt _).sub ((hIi _).const_mul _)
      rw [integral_add hcpn hb, integral_sub (hIt _) ((hIi _).const_mul _), integral_const_mul]
      ring
    by_cases hq : kappa * (∫ z, I (kappa * norm2 w) z ∂nu) ≤ rho
    · refine (csInf_le hbdd ⟨norm2 w, le_rfl, rfl⟩).trans ?_
      have := dualLaw_lower hx hl hk w b (hIm (kappa * norm2 w)) (hI0 _) (hI1 _) (r := rho - kappa * ∫ z, I (kappa * norm2 w) z ∂nu) (by linarith) (by linarith) hM'
      rw [hdual]
      linarith
    · push Not at hq
      -- close levels around the budget
      refine le_of_forall_pos_le_add fun δ hδ => ?_
      set η : ℝ := δ / rho with hη
      have hη0 : 0 < η := by positivity
      have hex : ∃ k : ℕ, kappa * (∫ z, I (kappa * (norm2 w + k * η)) z ∂nu) ≤ rho := by
        obtain ⟨k, hk1⟩ := exists_nat_gt ((∫ z, |margin w b z| ∂nu) / rho / η + 1)
        refine ⟨k, ?_⟩
        set lam : ℝ := norm2 w + k * η with hlam
        have hE0 : 0 ≤ ∫ z, |margin w b z| ∂nu := integral_nonneg fun _ => abs_nonneg _
        have hk0 : (0 : ℝ) < k := lt_of_le_of_lt (by positivity) hk1
        have hlam0 : 0 < lam := by positivity
        have hge : (∫ z, |margin w b z| ∂nu) ≤ lam * rho := by
          have : (∫ z, |margin w b z| ∂nu) / rho / η ≤ k := by linarith
          rw [div_le_iff₀ hη0, div_le_iff₀ hr] at this
          have h2 : k * η * rho ≤ lam * rho := mul_le_mul_of_nonneg_right (by linarith) hr.le
          linarith
        have hmk : lam * (kappa * ∫ z, I (kappa * lam) z ∂nu) ≤ ∫ z, |margin w b z| ∂nu := by
          rw [← mul_assoc, mul_comm lam kappa, ← integral_const_mul]
          refine integral_mono ((hIi _).const_mul _) hti.abs fun z => ?_
          by_cases h : kappa * lam < margin w b z
          · have : I (kappa * lam) z = 1 := by simp [hI, Set.indicator, h]
            simp only [this, mul_one]
            exact h.le.trans (le_abs_self _)
          · have : I (kappa * lam) z = 0 := by simp [hI, Set.indicator, h]
            simp only [this, mul_zero]
            exact abs_nonneg _
        have : lam * (kappa * ∫ z, I (kappa * lam) z ∂nu) ≤ lam * rho := hmk.trans hge
        exact le_of_mul_le_mul_left this hlam0
      classical
      set k := Nat.find hex with hkdef
      have hk2 := Nat.find_spec hex
      have hkpos : 0 < k := by
        rcases Nat.eq_zero_or_pos k with h0 | h0
        · exfalso
          rw [← hkdef, h0] at hk2
          simp only [Nat.cast_zero, zero_mul, add_zero] at hk2
          linarith
        · exact h0
      have hk1 := Nat.find_min hex (m := k - 1) (by omega)
      push Not at hk1
      rw [← hkdef] at hk2
      set lam2 : ℝ := norm2 w + k * η with hlam2
      set lam1 : ℝ := norm2 w + ((k - 1 : ℕ) : ℝ) * η with hlam1
      have hk1' : (1 : ℝ) ≤ k := by exact_mod_cast hkpos
      have hstep : lam2 = lam1 + η := by rw [hlam1, hlam2, Nat.cast_sub hkpos]; push_cast; ring
      have hl1 : norm2 w ≤ lam1 := by have : 0 ≤ ((k - 1 : ℕ) : ℝ) * η := by positivity
                                      linarith
      have hl2 : norm2 w ≤ lam2 := by linarith
      set p1 := kappa * ∫ z, I (kappa * lam1) z ∂nu with hp1
      set p2 := kappa * ∫ z, I (kappa * lam2) z ∂nu with hp2
      have hp2' : 0 ≤ p2 := mul_nonneg hk (integral_nonneg fun z => hI0 _ z)
      have hgap : 0 < p1 - p2 := by linarith
      set θ := (rho - p2) / (p1 - p2) with hθ
      have hθ0 : 0 ≤ θ := div_nonneg (by linarith) hgap.le
      have hθ1 : θ ≤ 1 := by rw [hθ, div_le_one hgap]; linarith
      have hθg : θ * (p1 - p2) = rho - p2 := div_mul_cancel₀ _ hgap.ne'
      set a : (Fin d → ℝ) × ℝ → ℝ := fun z => (1 - θ) * I (kappa * lam2) z + θ * I (kappa * lam1) z with ha
      have hai : ∫ z, a z ∂nu = (1 - θ) * (∫ z, I (kappa * lam2) z ∂nu) + θ * ∫ z, I (kappa * lam1) z ∂nu := by
        rw [integral_add ((hIi _).const_mul _) ((hIi _).const_mul _), integral_const_mul, integral_const_mul]
      have hat : ∫ z, a z * margin w b z ∂nu = (1 - θ) * (∫ z, I (kappa * lam2) z * margin w b z ∂nu) + θ * ∫ z, I (kappa * lam1) z * margin w b z ∂nu := by
        have : (fun z => a z * margin w b z) = fun z => (1 - θ) * (I (kappa * lam2) z * margin w b z) + θ * (I (kappa * lam1) z * margin w b z) := by
          funext z; rw [ha]; ring
        rw [this, integral_add ((hIt _).const_mul _) ((hIt _).const_mul _), integral_const_mul, integral_const_mul]
      have hlow := dualLaw_lower hx hl hk w b (a := a) (((hIm _).const_mul _).add ((hIm _).const_mul _))
        (fun z => add_nonneg (mul_nonneg (by linarith) (hI0 _ z)) (mul_nonneg hθ0 (hI0 _ z)))
        (fun z => by
          have h1 := mul_le_mul_of_nonneg_left (hI1 (kappa * lam2) z) (by linarith : 0 ≤ 1 - θ)
          have h2 := mul_le_mul_of_nonneg_left (hI1 (kappa * lam1) z) hθ0
          show (1 - θ) * I (kappa * lam2) z + θ * I (kappa * lam1) z ≤ 1
          linarith) (r := 0) le_rfl (by
          rw [hai, add_zero]
          have : kappa * ((1 - θ) * (∫ z, I (kappa * lam2) z ∂nu) + θ * ∫ z, I (kappa * lam1) z ∂nu) = p2 + θ * (p1 - p2) := by
            rw [hp1, hp2]; ring
          rw [this, hθg]; linarith) hM'
      -- between the levels
      have hbetween : lam1 * (p1 - p2) ≤ (∫ z, I (kappa * lam1) z * margin w b z ∂nu) - ∫ z, I (kappa * lam2) z * margin w b z ∂nu := by
        have e1 : lam1 * (p1 - p2) = ∫ z, kappa * lam1 * (I (kappa * lam1) z - I (kappa * lam2) z) ∂nu := by
          rw [integral_const_mul, integral_sub (hIi _) (hIi _), hp1, hp2]; ring
        rw [e1, ← integral_sub (hIt _) (hIt _)]
        refine integral_mono (((hIi _).sub (hIi _)).const_mul _) ((hIt _).sub (hIt _)) fun z => ?_
        have hle : kappa * lam1 ≤ kappa * lam2 := mul_le_mul_of_nonneg_left (by linarith) hk
        show kappa * lam1 * (I (kappa * lam1) z - I (kappa * lam2) z) ≤ I (kappa * lam1) z * margin w b z - I (kappa * lam2) z * margin w b z
        by_cases h1 : kappa * lam1 < margin w b z
        · have i1 : I (kappa * lam1) z = 1 := by simp [hI, Set.indicator, h1]
          have h3 := hI1 (kappa * lam2) z
          rw [i1]
          have := mul_le_mul_of_nonneg_right h1.le (by linarith : 0 ≤ 1 - I (kappa * lam2) z)
          nlinarith
        · have i1 : I (kappa * lam1) z = 0 := by simp [hI, Set.indicator, h1]
          have i2 : I (kappa * lam2) z = 0 := by
            have : ¬ kappa * lam2 < margin w b z := by linarith
            simp [hI, Set.indicator, this]
          rw [i1, i2]; simp
      refine (csInf_le hbdd ⟨lam2, hl2, rfl⟩).trans ?_
      rw [hdual, ← hp2]
      rw [hat] at hlow
      have h1 := mul_le_mul_of_nonneg_left hbetween hθ0
      have h2 : θ * (lam1 * (p1 - p2)) = lam1 * (rho - p2) := by rw [← hθg]; ring
      have h3 : η * (rho - p2) ≤ δ := by
        have : η * (rho - p2) ≤ η * rho := mul_le_mul_of_nonneg_left (by linarith) hη0.le
        have e : η * rho = δ := by rw [hη]; field_simp
        linarith
      have h4 : lam2 * (rho - p2) = lam1 * (rho - p2) + η * (rho - p2) := by
        have := congrArg (· * (rho - p2)) hstep
        simpa only [add_mul] using this
      rw [h2] at h1
      linarith

/-- **C136** Binary logistic regression with `solver="dedicated"`, fitted on the first `n` points of a sequence of pairwise independent draws
of a law of inputs with finite means and labels `-1` or `1`, both having a positive probability: with probability one, for `n` large enough
the fit returns, and as `n` grows, the worst-case loss of the stored model over the laws obtained by moving the inputs drawn and changing
labels, at an average cost of at most `rho` where changing a label costs 1000, converges to the best such loss over all the linear models;
so does the worst-case loss reached on the data. -/
theorem C136_logistic {G : Type} {ext : TorchExt G} {solve : Oracle} {P : EstParams} {g : G} (hs : ExactSolver solve) {grads : Autograd d}
    {train : Trainer d} {init : LinInit d} (hP : P.solver = "dedicated".toList)
    (hc : ∃ c, cost_from_str P.cost = .ok c) {rho : ℝ} (hR : P.rho = .num rho) (hr : 0 < rho) (hd : 0 < d)
    (h : DrawsOf μ nu Z) (hx : ∀ j, Integrable (fun z => z.1 j) nu) (hl : ∀ᵐ z ∂nu, z.2 = 1 ∨ z.2 = -1)
    (hpos : nu.real {z | z.2 = 1} ≠ 0) (hneg : nu.real {z | z.2 = -1} ≠ 0) :
    ∃ best : ℝ, IsGLB {M | ∃ w' b', (P.fit_intercept = false → b' = 0) ∧ ∀ Q ∈ MovedOrFlipped nu 1000 rho, logRisk w' b' Q ≤ M} best ∧
    ∀ᵐ ω ∂μ, ∃ (w : ℕ → Fin d → ℝ) (b V V' : ℕ → ℝ), (∀ᶠ n in atTop,
        (∃ f wT bT, logisticFit ext grads solve train init P (fun i : Fin n => (Z i ω).1) (fun i => (Z i ω).2) g = .ok f ∧
          f.classes = [-1, 1] ∧ f.coef = some wT ∧ IsVec wT (w n) ∧ f.intercept = some bT ∧ IsScalar bT (b n)) ∧
        IsLUB {e | ∃ Q ∈ LabelBall (fun i : Fin n => (Z i ω).1) (fun i => (Z i ω).2) 1000 rho, e = logRisk (w n) (b n) Q} (V n)) ∧
      (∀ n, IsLUB {e | ∃ Q ∈ MovedOrFlipped nu 1000 rho, e = logRisk (w n) (b n) Q} (V' n)) ∧
      Tendsto V atTop (𝓝 best) ∧ Tendsto V' atTop (𝓝 best) := by
  have hnu := draws_probability h
  have hk : (0 : ℝ) ≤ 1000 := by norm_num
  have hlub := fun w b => dualLaw_least hx hl hk hr w b
  set S : Set ℝ := {v | ∃ w' b' lam', norm2 w' ≤ lam' ∧ (P.fit_intercept = false → b' = 0) ∧ v = dualLaw 1000 rho nu w' b' lam'} with hS
  have hdpos : ∀ (w : Fin d → ℝ) (b lam : ℝ), norm2 w ≤ lam → 0 ≤ dualLaw 1000 rho nu w b lam := by
    intro w b lam hlam
    have h2 : 0 ≤ ∫ z, dualLog 1000 w b lam z ∂nu := integral_nonneg fun z => (dualLog_pos ..).le
    have h1 := (l2norm_nonneg w).trans hlam
    unfold dualLaw
    positivity
  have hSb : BddBelow S := ⟨0, by rintro _ ⟨w, b, lam, hlam, -, rfl⟩; exact hdpos w b lam hlam⟩
  have hle : ∀ w b, (P.fit_intercept = false → b = 0) → sInf S ≤ sInf {v | ∃ lam, norm2 w ≤ lam ∧ v = dualLaw 1000 rho nu w b lam} := by
    intro w b hb
    refine le_csInf ⟨_, norm2 w, le_rfl, rfl⟩ ?_
    rintro _ ⟨lam, hlam, rfl⟩
    exact csInf_le hSb ⟨w, b, lam, hlam, hb, rfl⟩
  refine ⟨sInf S, ⟨?_, ?_⟩, ?_⟩
  · rintro M ⟨w', b', hb', hM⟩
    refine (hle w' b' hb').trans ((hlub w' b').2 ?_)
    rintro _ ⟨Q, hQ, rfl⟩
    exact hM Q hQ
  · intro m hm
    refine le_csInf ⟨_, 0, 0, 0, ((norm2_zero_iff _).2 rfl).le, fun _ => rfl, rfl⟩ ?_
    rintro _ ⟨w', b', lam', hlam', hb', rfl⟩
    exact hm ⟨w', b', hb', fun Q hQ => dualLaw_upper hx hl hk w' b' hlam' hQ⟩
  · -- both classes appear
    have hclass : ∀ c : ℝ, nu.real {z | z.2 = c} ≠ 0 → ∀ᵐ ω ∂μ, ∀ᶠ n : ℕ in atTop, ∃ i : Fin n, (Z i ω).2 = c := by
      intro c hne
      have hm : MeasurableSet {z : (Fin d → ℝ) × ℝ | z.2 = c} := measurable_snd (measurableSet_singleton c)
      have := draws_average h (F := {z : (Fin d → ℝ) × ℝ | z.2 = c}.indicator fun _ => (1 : ℝ)) (measurable_const.indicator hm) ((integrable_const 1).indicator hm)
      rw [integral_indicator_const _ hm] at this
      have hp : 0 < nu.real {z : (Fin d → ℝ) × ℝ | z.2 = c} := lt_of_le_of_ne measureReal_nonneg (Ne.symm hne)
      filter_upwards [this] with ω hω
      filter_upwards [hω.eventually_const_lt (by simpa using hp : (0 : ℝ) < _)] with n hn
      by_contra hno
      push Not at hno
      have : (avg fun i : Fin n => {z : (Fin d → ℝ) × ℝ | z.2 = c}.indicator (fun _ => (1 : ℝ)) (Z i ω)) = 0 := by
        unfold avg
        have h0 : ∀ i : Fin n, {z : (Fin d → ℝ) × ℝ | z.2 = c}.indicator (fun _ => (1 : ℝ)) (Z i ω) = 0 := fun i => by simp [Set.indicator, hno i]
        simp only [h0, Finset.sum_const_zero, zero_div]
      linarith
    filter_upwards [logistic_minimisers h hx hl hpos hneg hk hr (fun b => P.fit_intercept = false → b = 0) fun _ => rfl,
      hclass 1 hpos, hclass (-1) hneg, draws_ae h hl] with ω hω hc1 hc2 hlab
    have key : ∀ n, ∃ (w : Fin d → ℝ) (b lam V : ℝ), ((∃ i : Fin n, (Z i ω).2 = 1) ∧ ∃ i : Fin n, (Z i ω).2 = -1) →
        (∃ f wT bT, logisticFit ext grads solve train init P (fun i : Fin n => (Z i ω).1) (fun i => (Z i ω).2) g = .ok f ∧
          f.classes = [-1, 1] ∧ f.coef = some wT ∧ IsVec wT w ∧ f.intercept = some bT ∧ IsScalar bT b) ∧
        IsLUB {e | ∃ Q ∈ LabelBall (fun i : Fin n => (Z i ω).1) (fun i => (Z i ω).2) 1000 rho, e = logRisk w b Q} V ∧
        dualSample 1000 rho (fun i : Fin n => Z i ω) w b lam = V ∧ norm2 w ≤ lam ∧
        (P.fit_intercept = false → b = 0) ∧ ∀ w' b' lam', norm2 w' ≤ lam' → (P.fit_intercept = false → b' = 0) →
          dualSample 1000 rho (fun i : Fin n => Z i ω) w b lam ≤ dualSample 1000 rho (fun i : Fin n => Z i ω) w' b' lam' := by
      intro n
      by_cases hb : (∃ i : Fin n, (Z i ω).2 = 1) ∧ ∃ i : Fin n, (Z i ω).2 = -1
      · have hn : 0 < n := hb.1.choose.pos
        obtain ⟨f, wT, bT, lT, w, b, lam0, V, h1, h2, h3, h4, h5, h6, h7, -, -, -, h8, h9⟩ := C94_logistic (ext := ext) (g := g) hs (grads := grads)
          (train := train) (init := init) hP hc hR hr hd (fun i : Fin n => (Z i ω).1) (y := fun i => (Z i ω).2) (c0 := -1) (c1 := 1) (by norm_num)
          (fun i => (hlab i).symm) hb.2 hb.1 (s := fun i => (Z i ω).2) (fun i hi => hi) (fun i hi => hi)
        obtain ⟨⟨lam, hlam, he⟩, -⟩ := dualSample_least hn hk hr.le (Z := fun i : Fin n => Z i ω) (fun i => hlab i) w b h8
        refine ⟨w, b, lam, V, fun _ => ⟨⟨f, wT, bT, h1, h2, h3, h4, h5, h6⟩, h8, he, hlam, h7, fun w' b' lam' hlam' hb' => ?_⟩⟩
        rw [he]
        exact h9 w' b' hb' _ fun Q hQ => (logistic_certificate (fun i => hlab i) (dualSample_feasible (fun i : Fin n => Z i ω) hlam') hQ).2
      · exact ⟨0, 0, 0, 0, fun h => absurd h hb⟩
    choose w b lam V hwb using key
    have hev : ∀ᶠ n : ℕ in atTop, (∃ i : Fin n, (Z i ω).2 = 1) ∧ ∃ i : Fin n, (Z i ω).2 = -1 := hc1.and hc2
    obtain ⟨t1, t2⟩ := hω w b lam (by
      filter_upwards [hev] with n hn
      exact (hwb n hn).2.2.2)
    refine ⟨w, b, V, _, ?_, fun n => hlub (w n) (b n), ?_, ?_⟩
    · filter_upwards [hev] with n hn
      exact ⟨(hwb n hn).1, (hwb n hn).2.1⟩
    · refine t2.congr' ?_
      filter_upwards [hev] with n hn
      exact (hwb n hn).2.2.1
    · refine tendsto_of_tendsto_of_tendsto_of_le_of_le' tendsto_const_nhds t1 ?_ ?_
      · filter_upwards [hev] with n hn
        exact hle (w n) (b n) (hwb n hn).2.2.2.2.1
      · filter_upwards [hev] with n hn
        refine csInf_le ⟨0, ?_⟩ ⟨lam n, (hwb n hn).2.2.2.1, rfl⟩
        rintro _ ⟨l, hl', rfl⟩
        exact hdpos (w n) (b n) l hl'

end
end Skwdro
