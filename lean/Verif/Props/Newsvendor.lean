import Verif.Lemmas.Newsvendor
import Verif.Lemmas.Wasserstein

/-! C58-C60: the dedicated and sample-average newsvendor solvers. -/

namespace Skwdro
open Spec MeasureTheory

/-! ## Sample-average programs -/

/-- C60. An order quantity is part of an optimal solution of the second sample-average program exactly when it minimises the average
newsvendor cost over non-negative quantities, and the optimal value is that cost. -/
theorem C60_program2 {k u : ℝ} (hu : 0 ≤ u) (samples : List ℝ) (hne : samples ≠ []) (theta : ℝ) :
    ((∃ b, (saa2Program k u (npSort samples)).Optimal (b, theta)) ↔
      0 ≤ theta ∧ ∀ t, 0 ≤ t → avgCost k u samples theta ≤ avgCost k u samples t) ∧
    (∀ b, (saa2Program k u (npSort samples)).Optimal (b, theta) →
      (saa2Program k u (npSort samples)).objective (b, theta) = avgCost k u samples theta) := by
  have hz : npSort samples ≠ [] := by
    intro h
    apply hne
    have := npSort_length samples
    rw [h] at this
    exact List.length_eq_zero_iff.1 this.symm
  have hp : ∀ t, avgCost k u samples t = avgCost k u (npSort samples) t := fun t => avgCost_perm (npSort_perm samples).symm k u t
  simp only [hp]
  generalize npSort samples = z at hz
  have hval : ∀ b, (saa2Program k u z).Optimal (b, theta) → (saa2Program k u z).objective (b, theta) = avgCost k u z theta := by
    intro b hb
    apply le_antisymm
    · rw [← saa2_min_objective hz]
      exact hb.2 _ (saa2_min_feasible (saa2_feasible.1 hb.1).1)
    · exact saa2_objective_best hu hz hb.1
  refine ⟨⟨?_, ?_⟩, hval⟩
  · rintro ⟨b, hb⟩
    refine ⟨(saa2_feasible.1 hb.1).1, fun t ht => ?_⟩
    rw [← hval b hb, ← saa2_min_objective hz t]
    exact hb.2 _ (saa2_min_feasible ht)
  · rintro ⟨h0, h⟩
    refine ⟨_, saa2_min_feasible h0, ?_⟩
    rintro ⟨b, t⟩ hb
    rw [saa2_min_objective hz]
    exact (h t (saa2_feasible.1 hb).1).trans (saa2_objective_best hu hz hb)

/-- C60. The same for the first sample-average program, over all real quantities. -/
theorem C60_program {k u : ℝ} (hu : 0 ≤ u) (samples : List ℝ) (theta : ℝ) :
    ((∃ s, (saaProgram k u (npSort samples)).Optimal (theta, s)) ↔
      ∀ t, avgCost k u samples theta ≤ avgCost k u samples t) ∧
    (∀ s, (saaProgram k u (npSort samples)).Optimal (theta, s) →
      (saaProgram k u (npSort samples)).objective (theta, s) = avgCost k u samples theta) := by
  have hp : ∀ t, avgCost k u samples t = avgCost k u (npSort samples) t := fun t => avgCost_perm (npSort_perm samples).symm k u t
  simp only [hp]
  generalize npSort samples = z
  have hval : ∀ s, (saaProgram k u z).Optimal (theta, s) → (saaProgram k u z).objective (theta, s) = avgCost k u z theta := by
    intro s hs
    apply le_antisymm
    · rw [← saa_best_objective]
      exact hs.2 _ (saa_best_feasible hu theta)
    · exact saa_objective_best hu hs.1
  refine ⟨⟨?_, ?_⟩, hval⟩
  · rintro ⟨s, hs⟩ t
    rw [← hval s hs, ← saa_best_objective]
    exact hs.2 _ (saa_best_feasible hu t)
  · intro h
    refine ⟨_, saa_best_feasible hu theta, ?_⟩
    rintro ⟨t, s⟩ hs
    rw [saa_best_objective]
    exact (h t).trans (saa_objective_best hu hs)

/-- C60. With an exact external solver and non-negative prices, the second sample-average solver returns an order quantity of least
average cost among the non-negative ones. -/
theorem C60_solver2 {solve : Oracle} (hs : ExactSolver solve) {k u : ℝ} (hk : 0 ≤ k) (hu : 0 ≤ u) (samples : List ℝ)
    (hne : samples ≠ []) :
    ∃ r theta, saaNewsvendor2 solve k u (some samples) = .ok r ∧ r.toList = .ok [some (.num theta), some (.num 0)] ∧
      r.attrs .coef = some (some (.num theta)) ∧
      0 ≤ theta ∧ ∀ t, 0 ≤ t → avgCost k u samples theta ≤ avgCost k u samples t := by
  obtain ⟨t, h0, ht⟩ := avgCost_has_min_nonneg u hk samples
  obtain ⟨b, hb⟩ := (C60_program2 hu samples hne t).1.2 ⟨h0, ht⟩
  obtain ⟨⟨b', theta⟩, hv⟩ := (hs _ (saa2Program k u (npSort samples))).2 ⟨_, hb⟩
  have hopt := (hs _ _).1 _ hv
  have hn : (npSort samples).length ≠ 0 := by
    rw [npSort_length]; simpa using hne
  obtain ⟨g0, g⟩ := (C60_program2 hu samples hne theta).1.1 ⟨b', hopt⟩
  unfold saaNewsvendor2
  simp only [if_neg hn, hv]
  exact ⟨_, theta, rfl, rfl, rfl, g0, g⟩

/-- C60. With an exact external solver and `0 <= k <= u`, the first sample-average solver returns an order quantity of least average
cost together with that cost. -/
theorem C60_solver {solve : Oracle} (hs : ExactSolver solve) {k u : ℝ} (hk : 0 ≤ k) (hku : k ≤ u) (samples : List ℝ)
    (hne : samples ≠ []) :
    ∃ r theta, saaNewsvendor solve k u (some samples) = .ok r ∧
      r.toList = .ok [some (.num theta), some (.num (avgCost k u samples theta))] ∧
      ∀ t, avgCost k u samples theta ≤ avgCost k u samples t := by
  have hu : 0 ≤ u := hk.trans hku
  obtain ⟨t, ht⟩ := avgCost_has_min hk hku samples
  obtain ⟨b, hb⟩ := (C60_program hu samples t).1.2 ht
  obtain ⟨⟨theta, s⟩, hv⟩ := (hs _ (saaProgram k u (npSort samples))).2 ⟨_, hb⟩
  have hopt := (hs _ _).1 _ hv
  have hn : (npSort samples).length ≠ 0 := by
    rw [npSort_length]; simpa using hne
  have g := (C60_program hu samples theta).1.1 ⟨s, hopt⟩
  unfold saaNewsvendor
  simp only [if_neg hn, hv]
  refine ⟨_, theta, rfl, ?_, g⟩
  rw [(C60_program hu samples theta).2 s hopt]
  rfl

/-- exact solvers exist -/
theorem exactSolver_exists : ∃ solve : Oracle, ExactSolver solve := by
  classical
  refine ⟨fun V P => if h : ∃ v, P.Optimal v then some h.choose else none, fun V P => ⟨?_, ?_⟩⟩
  · intro v hv
    by_cases h : ∃ v, P.Optimal v
    · simp only [h, dif_pos, Option.some.injEq] at hv
      rw [← hv]; exact h.choose_spec
    · simp [h] at hv
  · intro h
    exact ⟨h.choose, by simp [h]⟩

example : ∃ solve : Oracle, ∃ r, saaNewsvendor solve 5 7 (some [3, 1]) = .ok r := by
  obtain ⟨solve, hs⟩ := exactSolver_exists
  obtain ⟨r, -, h, -⟩ := C60_solver hs (k := 5) (u := 7) (by norm_num) (by norm_num) [3, 1] (by simp)
  exact ⟨solve, r, h⟩

/-! ## No crash -/

theorem nvA_succ (z : List ℝ) (i : ℕ) : nvA z (i + 1) = nvA z i + z.getD i 0 := by
  unfold nvA
  rcases lt_or_ge i z.length with h | h
  · rw [List.take_succ_eq_append_getElem h]
    simp [List.getD, h]
  · rw [List.take_of_length_le (by omega), List.take_of_length_le h]
    simp [List.getD, h]

theorem nvA_nonneg {z : List ℝ} (h : ∀ x ∈ z, 0 ≤ x) (i : ℕ) : 0 ≤ nvA z i :=
  List.sum_nonneg fun x hx => h x (List.mem_of_mem_take hx)

theorem sorted_getD_le {z : List ℝ} (hz : z.Pairwise (· ≤ ·)) {i j : ℕ} (hij : i ≤ j) (hj : j < z.length) :
    z.getD i 0 ≤ z.getD j 0 := by
  rcases hij.eq_or_lt with rfl | hij
  · exact le_refl _
  · have := List.pairwise_iff_getElem.1 hz i j (by omega) hj hij
    simpa [List.getD, hj, show i < z.length by omega] using this

/-- the index search succeeds and the divisor is positive -/
theorem nv_search {z : List ℝ} {rho : ℝ} (hz : z.Pairwise (· ≤ ·)) (hpos : ∀ x ∈ z, 0 ≤ x) (hr : 0 ≤ rho)
    (hlow : ∃ i ∈ List.range (z.length - 1), nvLower rho z i) :
    (∃ i ∈ List.range (z.length - 1), nvUpper rho z i ∧ nvLower rho z i) ∧
    (∀ i ∈ List.range (z.length - 1), nvLower rho z i → 0 < z.getD (i + 1) 0) := by
  classical
  have hex : ∃ i, i < z.length - 1 ∧ nvLower rho z i := by
    obtain ⟨i, hi, h⟩ := hlow
    exact ⟨i, List.mem_range.1 hi, h⟩
  constructor
  · obtain ⟨hi, hl⟩ := Nat.find_spec hex
    have hmin := fun {m} (hm : m < Nat.find hex) => Nat.find_min hex hm
    generalize Nat.find hex = i at hi hl hmin
    refine ⟨i, List.mem_range.2 hi, ?_, hl⟩
    unfold nvUpper
    cases i with
    | zero =>
      have : nvA z 0 = 0 := by simp [nvA]
      rw [this]; positivity
    | succ j =>
      have hj := hmin (Nat.lt_succ_self j)
      have hnl : ¬ nvLower rho z j := fun h => hj ⟨by omega, h⟩
      unfold nvLower at hnl
      rw [nvA_succ]
      have := sorted_getD_le hz (Nat.le_succ j) (by omega)
      linarith [not_lt.1 hnl]
  · intro i hi hl
    have hi := List.mem_range.1 hi
    have hlt : i + 1 < z.length := by omega
    have h0 : 0 ≤ z.getD (i + 1) 0 := by
      simpa [List.getD, hlt] using hpos _ (List.getElem_mem hlt)
    rcases h0.eq_or_lt with h | h
    · exfalso
      unfold nvLower at hl
      have hz0 : nvA z i = 0 := by
        unfold nvA
        apply List.sum_eq_zero
        intro x hx
        obtain ⟨j, hj, rfl⟩ := List.getElem_of_mem hx
        have hj' : j < i := by simp at hj; omega
        rw [List.getElem_take]
        have := sorted_getD_le hz (show j ≤ i + 1 by omega) hlt
        have hjz : j < z.length := by omega
        rw [← h] at this
        have h1 : z[j] ≤ 0 := by simpa [List.getD, hjz] using this
        exact le_antisymm h1 (hpos _ (List.getElem_mem hjz))
      rw [hz0, ← h] at hl
      have : 0 ≤ (z.length : ℝ) * rho := by positivity
      linarith
    · exact h

/-- What the dedicated solver does on non-negative demands: it either hands over to the sample-average solver, or returns 0. -/
theorem nv_cases (solve : Oracle) (k u : ℝ) {rho : ℝ} (hr : 0 ≤ rho) (samples : List ℝ) (hpos : ∀ x ∈ samples, 0 ≤ x) :
    (((∀ i, i + 1 < samples.length → ¬ nvLower rho (npSort samples) i) ∨ ∃ i, i + 1 < samples.length ∧
        0 < (npSort samples).getD (i + 1) 0 ∧ nvT k u rho (npSort samples) (i + 1) < 0) ∧
      newsvendorDedicated solve k u rho (some samples) = saaNewsvendor2 solve k u (some samples)) ∨
    newsvendorDedicated solve k u rho (some samples) = wrapResult (.tuple [some (.num 0), some (.num 0)]) := by
  classical
  have hlen := npSort_length samples
  have hbind : (saaNewsvendor2 solve k u (some samples) >>= fun r => wrapResult (.result r)) =
      saaNewsvendor2 solve k u (some samples) := by
    cases saaNewsvendor2 solve k u (some samples) <;> rfl
  have hposz : ∀ x ∈ npSort samples, 0 ≤ x := fun x hx => hpos x ((npSort_perm samples).mem_iff.1 hx)
  unfold newsvendorDedicated
  simp only [hbind]
  by_cases hlow : ∃ i ∈ List.range ((npSort samples).length - 1), nvLower rho (npSort samples) i
  · obtain ⟨⟨i, hi, hup, hl⟩, hpd⟩ := nv_search (npSort_sorted samples) hposz hr hlow
    have hupe : ∃ i ∈ List.range ((npSort samples).length - 1), nvUpper rho (npSort samples) i := ⟨i, hi, hup⟩
    rw [if_neg (not_not.2 hlow), if_neg (not_not.2 hupe)]
    cases hf : (List.range ((npSort samples).length - 1)).find?
        fun i => decide (nvUpper rho (npSort samples) i ∧ nvLower rho (npSort samples) i) with
    | none =>
      exfalso
      have := List.find?_eq_none.1 hf i hi
      simp [hup, hl] at this
    | some j =>
      have hj := List.find?_some hf
      have hjm := List.mem_of_find?_eq_some hf
      simp only [decide_eq_true_eq] at hj
      have hd := hpd j hjm hj.2
      simp only [if_neg hd.ne']
      by_cases hT : nvT k u rho (npSort samples) (j + 1) ≥ 0
      · right; rw [if_pos hT]
      · left
        rw [if_neg hT]
        have := List.mem_range.1 hjm
        exact ⟨Or.inr ⟨j, by omega, hd, not_le.1 hT⟩, rfl⟩
  · left
    rw [if_pos hlow]
    refine ⟨Or.inl fun i hi h => hlow ⟨i, List.mem_range.2 (by omega), h⟩, rfl⟩

/-- C58. On a non-empty sample of non-negative demands and a non-negative radius, whatever the external solver does, the dedicated
newsvendor solver never fails in its index search nor divides by zero. -/
theorem C58_no_crash (solve : Oracle) (k u : ℝ) {rho : ℝ} (hr : 0 ≤ rho) (samples : List ℝ) (hne : samples ≠ [])
    (hpos : ∀ x ∈ samples, 0 ≤ x) :
    newsvendorDedicated solve k u rho (some samples) ≠ .error .valueError ∧
    newsvendorDedicated solve k u rho (some samples) ≠ .error .zeroDivision ∧
    newsvendorDedicated solve k u rho (some samples) ≠ .error .indexError := by
  have hn : (npSort samples).length ≠ 0 := by
    rw [npSort_length]; simpa using hne
  rcases nv_cases solve k u hr samples hpos with ⟨-, h⟩ | h
  · rw [h]
    unfold saaNewsvendor2
    simp only [if_neg hn]
    cases solve _ (saa2Program k u (npSort samples)) with
    | none => simp
    | some v => simp [wrapResult, SolverResult.init, tupleDict, dictGet, descriptors]
  · rw [h]; simp [wrapResult, SolverResult.init, tupleDict, dictGet, descriptors]

/-- C58. With an exact external solver and non-negative prices the dedicated solver always returns a non-negative order quantity and a
multiplier. -/
theorem C58_returns {solve : Oracle} (hs : ExactSolver solve) {k u rho : ℝ} (hk : 0 ≤ k) (hu : 0 ≤ u) (hr : 0 ≤ rho)
    (samples : List ℝ) (hne : samples ≠ []) (hpos : ∀ x ∈ samples, 0 ≤ x) :
    ∃ r theta lam, newsvendorDedicated solve k u rho (some samples) = .ok r ∧
      r.toList = .ok [some (.num theta), some (.num lam)] ∧ 0 ≤ theta := by
  rcases nv_cases solve k u hr samples hpos with ⟨-, h⟩ | h
  · rw [h]
    obtain ⟨r, theta, h1, h2, -, h3, -⟩ := C60_solver2 hs hk hu samples hne
    exact ⟨r, theta, 0, h1, h2, h3⟩
  · rw [h]
    exact ⟨_, 0, 0, rfl, rfl, le_refl _⟩

example : ∃ solve : Oracle, ∃ r theta lam, newsvendorDedicated solve 5 7 1 (some [3, 1, 2]) = .ok r ∧
    r.toList = .ok [some (.num theta), some (.num lam)] ∧ 0 ≤ theta := by
  obtain ⟨solve, hs⟩ := exactSolver_exists
  exact ⟨solve, C58_returns hs (by norm_num) (by norm_num) (by norm_num) [3, 1, 2] (by simp) (by simp)⟩

/-! ## Optimality -/

theorem newsvendor_measurable (k u theta : ℝ) : Measurable (newsvendor k u theta) := by
  unfold newsvendor
  fun_prop

/-- the newsvendor cost cannot grow faster than the price times the displacement -/
theorem newsvendor_lip {k u : ℝ} (hu : 0 ≤ u) (theta a b : ℝ) : newsvendor k u theta b ≤ newsvendor k u theta a + u * |a - b| := by
  unfold newsvendor
  have : min theta a ≤ min theta b + |a - b| := by
    rcases le_total theta b with h | h
    · rw [min_eq_left h]
      exact (min_le_left _ _).trans (by linarith [abs_nonneg (a - b)])
    · rw [min_eq_right h]
      exact (min_le_right _ _).trans (by linarith [le_abs_self (a - b)])
  nlinarith

theorem demand_upper {k u rho theta : ℝ} (hu : 0 ≤ u) (samples : List ℝ) {Q : Measure ℝ}
    (hQ : InBall (fun i : Fin samples.length => samples[i]) (fun a b => |a - b|) rho Q) :
    ∫ x, newsvendor k u theta x ∂Q ≤ u * rho + avgCost k u samples theta := by
  have hint : Integrable (newsvendor k u theta) Q := by
    refine ball_integrable hQ (newsvendor_measurable k u theta) (s := fun i => |newsvendor k u theta samples[i]|) (lam := u)
      (fun _ => True) (by simp) ?_
    intro i x _
    have h1 := newsvendor_lip (k := k) hu theta samples[i] x
    have h2 := newsvendor_lip (k := k) hu theta x samples[i]
    rw [abs_sub_comm x] at h2
    have h3 := neg_abs_le (newsvendor k u theta samples[i])
    have h4 := le_abs_self (newsvendor k u theta samples[i])
    rw [abs_le]
    constructor <;> linarith
  have := ball_bound hQ (s := fun i => newsvendor k u theta samples[i]) hu (fun _ => True) (by simp) hint
    (fun i x _ => newsvendor_lip hu theta _ x)
  rw [avgCost_fin]
  exact this

/-- the fraction of the mass at demand `x` moved to zero by the greedy adversary of threshold `t` -/
noncomputable def greedy (t c x : ℝ) : ℝ := if x < t then 1 else if t < x then 0 else c

theorem greedy_mem {t c : ℝ} (hc : 0 ≤ c ∧ c ≤ 1) (x : ℝ) : 0 ≤ greedy t c x ∧ greedy t c x ≤ 1 := by
  unfold greedy
  split_ifs
  · norm_num
  · norm_num
  · exact hc

/-- a greedy adversary can spend any budget not exceeding the total demand -/
theorem greedy_exists (z : List ℝ) (hz : z ≠ []) {B : ℝ} (hB : 0 ≤ B) (hBs : B ≤ z.sum) :
    ∃ t ∈ z, ∃ c, (0 ≤ c ∧ c ≤ 1) ∧ (z.map fun x => greedy t c x * x).sum = B := by
  classical
  -- total demand below or at a threshold
  let le (t : ℝ) : ℝ := (z.map fun x => if x ≤ t then x else 0).sum
  let lt (t : ℝ) : ℝ := (z.map fun x => if x < t then x else 0).sum
  have hzf : z.toFinset.Nonempty := by simpa using hz
  have hmax : ∃ t ∈ z, B ≤ le t := by
    obtain ⟨t, ht, hm⟩ := z.toFinset.exists_max_image id hzf
    refine ⟨t, by simpa using ht, hBs.trans (le_of_eq ?_)⟩
    simp only [le]
    congr 1
    conv_lhs => rw [← List.map_id z]
    apply List.map_congr_left
    intro x hx
    have : x ≤ t := hm x (by simpa using hx)
    simp [this]
  have hS : (z.toFinset.filter fun t => B ≤ le t).Nonempty := by
    obtain ⟨t, ht, h⟩ := hmax
    exact ⟨t, by simp [ht, h]⟩
  obtain ⟨t, ht, hmin⟩ := Finset.exists_min_image _ id hS
  simp only [Finset.mem_filter, List.mem_toFinset, id] at ht hmin
  have hlt : lt t ≤ B := by
    by_cases he : ∃ x ∈ z, x < t
    · have hT : (z.toFinset.filter fun x => x < t).Nonempty := by
        obtain ⟨x, hx, h⟩ := he
        exact ⟨x, by simp [hx, h]⟩
      obtain ⟨t', ht', hm'⟩ := Finset.exists_max_image _ id hT
      simp only [Finset.mem_filter, List.mem_toFinset, id] at ht' hm'
      have heq : lt t = le t' := by
        simp only [lt, le]
        congr 1
        apply List.map_congr_left
        intro x hx
        have : x < t ↔ x ≤ t' := ⟨fun h => hm' x ⟨hx, h⟩, fun h => h.trans_lt ht'.2⟩
        simp [this]
      rw [heq]
      by_contra hcon
      have := hmin t' ⟨ht'.1, (not_le.1 hcon).le⟩
      linarith [ht'.2]
    · have : lt t = 0 := by
        apply List.sum_eq_zero
        intro y hy
        obtain ⟨x, hx, rfl⟩ := List.mem_map.1 hy
        have : ¬ x < t := fun h => he ⟨x, hx, h⟩
        simp [this]
      rw [this]; exact hB
  refine ⟨t, ht.1, if le t = lt t then 0 else (B - lt t) / (le t - lt t), ?_, ?_⟩
  · split_ifs with h
    · norm_num
    · have hpos' : 0 < le t - lt t := by
        have := hlt.trans ht.2
        exact sub_pos.2 (lt_of_le_of_ne this (Ne.symm h))
      exact ⟨div_nonneg (by linarith) hpos'.le, (div_le_one hpos').2 (by linarith [ht.2])⟩
  · have hdec : ∀ c, (z.map fun x => greedy t c x * x).sum = lt t + c * (le t - lt t) := by
      intro c
      simp only [lt, le]
      have hgen : ∀ l : List ℝ, (l.map fun x => greedy t c x * x).sum = (l.map fun x => if x < t then x else 0).sum +
          c * ((l.map fun x => if x ≤ t then x else 0).sum - (l.map fun x => if x < t then x else 0).sum) := by
        intro l
        induction l with
        | nil => simp
        | cons a l ih =>
          simp only [List.map_cons, List.sum_cons, ih]
          unfold greedy
          rcases lt_trichotomy a t with h | h | h
          · simp [h, h.le]; ring
          · subst h; simp; ring
          · simp [h, not_lt.2 h.le, not_le.2 h]
      exact hgen z
    rw [hdec]
    split_ifs with h
    · have : lt t = B := le_antisymm hlt (by rw [← h]; exact ht.2)
      rw [this]; ring
    · have hne : le t - lt t ≠ 0 := sub_ne_zero.2 h
      field_simp
      ring

theorem list_sum_fin (z : List ℝ) (f : ℝ → ℝ) : (z.map f).sum = ∑ i : Fin z.length, f z[i] := by
  rw [← List.sum_ofFn]
  congr 1
  apply List.ext_getElem <;> simp

/-- the greedy adversary is in the ball, and what it costs -/
theorem greedy_plan {samples : List ℝ} (hne : samples ≠ []) (hpos : ∀ x ∈ samples, 0 ≤ x) {rho : ℝ} {g : ℝ → ℝ}
    (hg : ∀ x, 0 ≤ g x ∧ g x ≤ 1) (hbud : ∑ i : Fin samples.length, g samples[i] * samples[i] = samples.length * rho) :
    ∃ Q ∈ DemandBall (fun i : Fin samples.length => samples[i]) rho, ∀ k u q, 0 ≤ q → ∫ x, newsvendor k u q x ∂Q =
      k * q - u * ((∑ i : Fin samples.length, (1 - g samples[i]) * min q samples[i]) / samples.length) := by
  have hn : 0 < samples.length := List.length_pos_iff.2 hne
  have hnR : (0 : ℝ) < samples.length := by exact_mod_cast hn
  let w : Fin samples.length → Fin 2 → ℝ := fun i j =>
    if j = 0 then (1 - g samples[i]) / samples.length else g samples[i] / samples.length
  let dest : Fin samples.length → Fin 2 → ℝ := fun i j => if j = 0 then samples[i] else 0
  have hw : ∀ i j, 0 ≤ w i j := by
    intro i j
    simp only [w]
    split_ifs
    · exact div_nonneg (by linarith [(hg samples[i]).2]) hnR.le
    · exact div_nonneg (hg _).1 hnR.le
  have hws : ∀ i, ∑ j, w i j = 1 / samples.length := by
    intro i
    rw [Fin.sum_univ_two]
    simp only [w, if_true]
    simp only [Fin.one_eq_zero_iff, OfNat.ofNat_ne_one, if_false]
    field_simp
    ring
  have hcost : ∑ i, ∑ j, w i j * |samples[i] - dest i j| ≤ rho := by
    apply le_of_eq
    have : ∀ i : Fin samples.length, ∑ j, w i j * |samples[i] - dest i j| = g samples[i] * samples[i] / samples.length := by
      intro i
      rw [Fin.sum_univ_two]
      have hp := hpos samples[i] (List.getElem_mem _)
      simp only [w, dest, if_true]
      simp only [Fin.one_eq_zero_iff, OfNat.ofNat_ne_one, if_false, sub_self, abs_zero, mul_zero, zero_add, sub_zero]
      rw [abs_of_nonneg hp]
      ring
    rw [Finset.sum_congr rfl fun i _ => this i, ← Finset.sum_div, hbud]
    field_simp
  refine ⟨(finPlan w dest).map Prod.snd, ⟨finPlan_inBall hn hw hws dest hcost, ?_⟩, ?_⟩
  · apply finPlan_snd_ae dest measurableSet_Ici
    intro i j
    simp only [dest]
    split_ifs
    · exact hpos _ (List.getElem_mem _)
    · exact le_refl _
  · intro k u q hq
    rw [finPlan_snd_integral hw dest (newsvendor_measurable k u q)]
    have : ∀ i : Fin samples.length, ∑ j, w i j * newsvendor k u q (dest i j) =
        k * q / samples.length - u * ((1 - g samples[i]) * min q samples[i]) / samples.length := by
      intro i
      rw [Fin.sum_univ_two]
      simp only [w, dest, if_true, newsvendor]
      simp only [Fin.one_eq_zero_iff, OfNat.ofNat_ne_one, if_false, min_eq_right hq]
      ring
    rw [Finset.sum_congr rfl fun i _ => this i, Finset.sum_sub_distrib, Finset.sum_const, Finset.card_univ, Fintype.card_fin,
      nsmul_eq_mul, ← Finset.sum_div, ← Finset.mul_sum]
    field_simp

/-- the slope of the greedy adversary's cost is at most the solver's test quantity, at any divisor -/
theorem greedy_slope {samples : List ℝ} (hne : samples ≠ []) {u rho : ℝ} (k : ℝ) (hu : 0 ≤ u) {g : ℝ → ℝ}
    (hg : ∀ x, 0 ≤ g x ∧ g x ≤ 1) (hbud : ∑ i : Fin samples.length, g samples[i] * samples[i] = samples.length * rho)
    {s : ℝ} (hs : 0 < s) :
    k - u * ((∑ i : Fin samples.length, (1 - g samples[i])) / samples.length) ≤
      u * rho / s + k - u * ((samples.map fun x => min (x / s) 1).sum / samples.length) := by
  have hnR : (0 : ℝ) < samples.length := by exact_mod_cast List.length_pos_iff.2 hne
  rw [list_sum_fin samples fun x => min (x / s) 1]
  have hpt : ∀ i : Fin samples.length, g samples[i] + min (samples[i] / s) 1 ≤ 1 + g samples[i] * samples[i] / s := by
    intro i
    have h1 := hg samples[i]
    rcases le_total (samples[i] / s) 1 with h | h
    · rw [min_eq_left h, mul_div_assoc]
      nlinarith [h1.1, h1.2]
    · rw [min_eq_right h, mul_div_assoc]
      nlinarith [h1.1, h1.2]
  have hsum := Finset.sum_le_sum fun i (_ : i ∈ (Finset.univ : Finset (Fin samples.length))) => hpt i
  rw [Finset.sum_add_distrib, Finset.sum_add_distrib, ← Finset.sum_div, hbud] at hsum
  simp only [Finset.sum_const, Finset.card_univ, Fintype.card_fin, nsmul_eq_mul, mul_one] at hsum
  rw [Finset.sum_sub_distrib]
  simp only [Finset.sum_const, Finset.card_univ, Fintype.card_fin, nsmul_eq_mul, mul_one]
  generalize (∑ i : Fin samples.length, min (samples[i] / s) 1) = A at hsum ⊢
  generalize (∑ i : Fin samples.length, g samples[i]) = G at hsum ⊢
  generalize (samples.length : ℝ) = n at hnR hsum ⊢
  have hkey : A / n ≤ rho / s + (n - G) / n := by
    rw [div_le_iff₀ hnR]
    have : (rho / s + (n - G) / n) * n = n * rho / s + (n - G) := by
      field_simp
    rw [this]; linarith
  have := mul_le_mul_of_nonneg_left hkey hu
  rw [mul_add] at this
  rw [mul_div_assoc u rho s]
  linarith

theorem greedy_above {samples : List ℝ} {t c q : ℝ} (hq : t ≤ q) :
    ∑ i : Fin samples.length, (1 - greedy t c samples[i]) * min q samples[i] =
      ∑ i : Fin samples.length, min q samples[i] - ∑ i : Fin samples.length, greedy t c samples[i] * samples[i] := by
  rw [← Finset.sum_sub_distrib]
  apply Finset.sum_congr rfl
  intro i _
  by_cases hx : samples[i] ≤ q
  · rw [min_eq_right hx]; ring
  · have h1 : t < samples[i] := hq.trans_lt (not_le.1 hx)
    have : greedy t c samples[i] = 0 := by
      unfold greedy
      rw [if_neg (not_lt.2 h1.le), if_pos h1]
    rw [this]; ring

theorem greedy_below {samples : List ℝ} {t c q : ℝ} (hq : q ≤ t) :
    ∑ i : Fin samples.length, (1 - greedy t c samples[i]) * min q samples[i] =
      (∑ i : Fin samples.length, (1 - greedy t c samples[i])) * q := by
  rw [Finset.sum_mul]
  apply Finset.sum_congr rfl
  intro i _
  by_cases hx : samples[i] < t
  · have : greedy t c samples[i] = 1 := by unfold greedy; rw [if_pos hx]
    rw [this]; ring
  · rw [min_eq_left (hq.trans (not_lt.1 hx))]

/-- C59, partial: when the radius is small enough for the solver's search to apply (the demands other than the second largest sum to
more than `n * rho`) and the returned order quantity is not zero, that quantity minimises the worst-case expected cost over the
Wasserstein ball.  Missing: the other returns, which can be wrong (`C59_zero_false`, `C59_large_radius_false`). -/
theorem C59_nonzero_partial {solve : Oracle} (hs : ExactSolver solve) {k u rho : ℝ} (hk : 0 ≤ k) (hu : 0 ≤ u) (hr : 0 ≤ rho)
    (samples l : List ℝ) (a b : ℝ) (hsplit : samples.Perm (l ++ [a, b])) (hla : ∀ x ∈ l, x ≤ a) (hab : a ≤ b)
    (hsmall : samples.length * rho < l.sum + b) (hpos : ∀ x ∈ samples, 0 ≤ x) {r : SolverResult SVal} {theta : ℝ}
    (hret : newsvendorDedicated solve k u rho (some samples) = .ok r) (hcoef : r.attrs .coef = some (some (.num theta)))
    (hnz : theta ≠ 0) :
    Minimax (DemandBall (fun i : Fin samples.length => samples[i]) rho) (newsvendor k u) (fun t => 0 ≤ t) theta := by
  have hne : samples ≠ [] := by
    intro h
    have := hsplit.length_eq
    simp [h] at this
  have hlen : samples.length = l.length + 2 := by simpa using hsplit.length_eq
  have hn : 0 < samples.length := by omega
  have hnR : (0 : ℝ) < samples.length := by exact_mod_cast hn
  -- the sorted sample ends with `a, b`
  have hsort : npSort samples = npSort l ++ [a, b] := by
    apply List.Perm.eq_of_pairwise (le := (· ≤ ·)) (fun x y _ _ h1 h2 => le_antisymm h1 h2) (npSort_sorted _)
    · rw [List.pairwise_append]
      refine ⟨npSort_sorted l, by simpa using hab, ?_⟩
      intro x hx y hy
      have hxa := hla x ((npSort_perm l).mem_iff.1 hx)
      rcases List.mem_cons.1 hy with rfl | hy
      · exact hxa
      · rw [List.mem_singleton.1 hy]; exact hxa.trans hab
    · exact (npSort_perm samples).trans (hsplit.trans ((npSort_perm l).symm.append_right _))
  have hlow : nvLower rho (npSort samples) l.length := by
    unfold nvLower nvA
    rw [npSort_length, hsort]
    have h1 : (npSort l ++ [a, b]).take l.length = npSort l := by
      rw [← npSort_length l]; simp
    have h2 : (npSort l ++ [a, b]).getD (l.length + 1) 0 = b := by
      rw [← npSort_length l]; simp [List.getD]
    rw [h1, h2, (npSort_perm l).sum_eq]
    linarith
  -- hence the non-zero answer comes from the last branch
  rcases nv_cases solve k u hr samples hpos with ⟨hcase, heq⟩ | heq
  swap
  · rw [heq] at hret
    have : r.attrs .coef = some (some (.num 0)) := by
      cases hret; rfl
    rw [this] at hcoef
    simp only [Option.some.injEq, SVal.num.injEq] at hcoef
    exact absurd hcoef.symm hnz
  obtain ⟨i, hi, hd, hT⟩ : ∃ i, i + 1 < samples.length ∧ 0 < (npSort samples).getD (i + 1) 0 ∧
      nvT k u rho (npSort samples) (i + 1) < 0 := by
    rcases hcase with h | h
    · exact absurd hlow (h l.length (by omega))
    · exact h
  rw [heq] at hret
  obtain ⟨r', theta', h1, -, h2, h0, hbest⟩ := C60_solver2 hs hk hu samples hne
  rw [h1] at hret
  cases hret
  rw [h2] at hcoef
  simp only [Option.some.injEq, SVal.num.injEq] at hcoef
  subst hcoef
  refine ⟨h0, ?_⟩
  intro q hq M hM Q hQ
  -- the greedy adversary
  have hsum : samples.length * rho ≤ samples.sum := by
    have ha : 0 ≤ a := hpos a (hsplit.mem_iff.2 (by simp))
    have := hsplit.sum_eq
    simp at this
    rw [this]; linarith
  obtain ⟨t, ht, c, hc, hbud⟩ := greedy_exists samples hne (by positivity) hsum
  have ht0 : 0 ≤ t := hpos t ht
  have hg := greedy_mem (t := t) hc
  have hbud' : ∑ i : Fin samples.length, greedy t c samples[i] * samples[i] = samples.length * rho := by
    rw [← hbud, list_sum_fin samples fun x => greedy t c x * x]
  obtain ⟨Q', hball, hval⟩ := greedy_plan hne hpos hg hbud'
  -- above the threshold its cost is the average cost plus `u * rho`
  have habove : ∀ q, t ≤ q → ∫ x, newsvendor k u q x ∂Q' = avgCost k u samples q + u * rho := by
    intro q hq
    rw [hval k u q (ht0.trans hq), avgCost_eq k u samples hne, greedy_above hq, hbud', sub_div, mul_div_cancel_left₀ _ hnR.ne']
    ring
  -- below the threshold it is linear
  have hbelow : ∀ q, 0 ≤ q → q ≤ t → ∫ x, newsvendor k u q x ∂Q' =
      q * (k - u * ((∑ i : Fin samples.length, (1 - greedy t c samples[i])) / samples.length)) := by
    intro q hq0 hq
    rw [hval k u q hq0, greedy_below hq]; ring
  have hslope : k - u * ((∑ i : Fin samples.length, (1 - greedy t c samples[i])) / samples.length) ≤ 0 := by
    refine le_trans (greedy_slope hne k hu hg hbud' hd) (le_trans (le_of_eq ?_) hT.le)
    unfold nvT
    simp only
    rw [((npSort_perm samples).map _).sum_eq, npSort_length]
  -- conclusion
  have hup : ∫ x, newsvendor k u theta' x ∂Q ≤ u * rho + avgCost k u samples theta' := demand_upper hu samples hQ.1
  have hMq := hM _ hball
  rcases le_total t q with h | h
  · rw [habove q h] at hMq
    linarith [hbest q hq]
  · rw [hbelow q hq h] at hMq
    have h3 := habove t (le_refl t)
    rw [hbelow t ht0 (le_refl t)] at h3
    have h4 := hbest t ht0
    nlinarith

/-- an exact solver gives a non-zero answer on the demands 9, 10, 10 -/
theorem exDemand {solve : Oracle} (hs : ExactSolver solve) : ∃ r theta, newsvendorDedicated solve 1 7 1 (some [9, 10, 10]) = .ok r ∧
    r.attrs .coef = some (some (.num theta)) ∧ theta ≠ 0 := by
  obtain ⟨r, theta, h1, -, h3, h4, h5⟩ := C60_solver2 hs (k := 1) (u := 7) (by norm_num) (by norm_num) [9, 10, 10] (by simp)
  refine ⟨r, theta, ?_, h3, ?_⟩
  · have hsort : npSort [9, 10, 10] = [9, 10, 10] := by
      unfold npSort
      apply List.Pairwise.insertionSort_eq
      simp; norm_num
    rcases nv_cases solve 1 7 (rho := 1) (by norm_num) [9, 10, 10] (by simp) with ⟨-, h⟩ | h
    · rw [h, h1]
    · exfalso
      classical
      unfold newsvendorDedicated at h
      simp only [hsort] at h
      have hl0 : nvLower 1 ([9, 10, 10] : List ℝ) 0 := by unfold nvLower nvA; norm_num
      have hu0 : nvUpper 1 ([9, 10, 10] : List ℝ) 0 := by unfold nvUpper nvA; norm_num
      rw [if_neg (not_not.2 ⟨0, by simp, hl0⟩), if_neg (not_not.2 ⟨0, by simp, hu0⟩)] at h
      have hr : List.range (([9, 10, 10] : List ℝ).length - 1) = [0, 1] := rfl
      rw [hr, List.find?_cons_of_pos (by simp [hl0, hu0])] at h
      simp only at h
      rw [if_neg (by norm_num), if_neg (by unfold nvT; norm_num)] at h
      have hb : (saaNewsvendor2 solve 1 7 (some [9, 10, 10]) >>= fun r => wrapResult (.result r)) = .ok r := by
        rw [h1]; rfl
      rw [hb] at h
      cases h
      have h0 : theta = 0 := by
        simpa [wrapResult, SolverResult.init, tupleDict, dictGet, descriptors] using h3.symm
      have := h5 1 (by norm_num)
      rw [h0] at this
      unfold avgCost newsvendor at this
      norm_num at this
  · intro h0
    have := h5 1 (by norm_num)
    rw [h0] at this
    unfold avgCost newsvendor at this
    norm_num at this

/-- the hypotheses of `C59_nonzero_partial` can hold with a non-zero answer -/
example {solve : Oracle} (hs : ExactSolver solve) : ∃ theta, theta ≠ 0 ∧
    Minimax (DemandBall (fun i : Fin [9, 10, 10].length => ([9, 10, 10] : List ℝ)[i]) 1) (newsvendor 1 7) (fun t => 0 ≤ t) theta := by
  obtain ⟨r, theta, h1, h2, h3⟩ := exDemand hs
  exact ⟨theta, h3, C59_nonzero_partial hs (by norm_num) (by norm_num) (by norm_num) _ [9] 10 10 (List.Perm.refl _) (by norm_num) le_rfl
    (by norm_num) (by norm_num) h1 h2 h3⟩

/-- C59 is false: with radius 0 on the demands 1 and 100 (prices 5 and 7) the solver answers 0, whose worst-case cost 0 is beaten by
ordering 1, which costs -2 under the only distribution of the ball. -/
theorem C59_zero_false : ∃ (k u rho : ℝ) (samples : List ℝ), 0 ≤ k ∧ k ≤ u ∧ 0 ≤ rho ∧ (∀ x ∈ samples, 0 ≤ x) ∧ samples ≠ [] ∧
    ∀ solve : Oracle, ∃ r theta, newsvendorDedicated solve k u rho (some samples) = .ok r ∧
      r.attrs .coef = some (some (.num theta)) ∧ r.toList = .ok [some (.num theta), some (.num 0)] ∧
      ¬ Minimax (DemandBall (fun i : Fin samples.length => samples[i]) rho) (newsvendor k u) (fun t => 0 ≤ t) theta := by
  refine ⟨5, 7, 0, [1, 100], by norm_num, by norm_num, le_refl _, by simp, by simp, fun solve => ?_⟩
  have hsort : npSort [1, 100] = [1, 100] := by
    unfold npSort
    apply List.Pairwise.insertionSort_eq
    simp
  have hret : newsvendorDedicated solve 5 7 0 (some [1, 100]) = wrapResult (.tuple [some (.num 0), some (.num 0)]) := by
    classical
    unfold newsvendorDedicated
    simp only [hsort]
    have hl0 : nvLower 0 ([1, 100] : List ℝ) 0 := by unfold nvLower nvA; norm_num
    have hu0 : nvUpper 0 ([1, 100] : List ℝ) 0 := by unfold nvUpper nvA; norm_num
    rw [if_neg (not_not.2 ⟨0, by simp, hl0⟩), if_neg (not_not.2 ⟨0, by simp, hu0⟩)]
    have hr : List.range (([1, 100] : List ℝ).length - 1) = [0] := rfl
    rw [hr, List.find?_cons_of_pos (by simp [hl0, hu0])]
    simp only
    rw [if_neg (by norm_num), if_pos (by unfold nvT; norm_num)]
  rw [hret]
  refine ⟨_, 0, rfl, rfl, rfl, ?_⟩
  rintro ⟨-, h⟩
  have hemp : (finPlan (fun (_ : Fin 2) (_ : Fin 1) => (1 / 2 : ℝ)) (fun i _ => ([1, 100] : List ℝ)[i])).map Prod.snd ∈
      DemandBall (fun i : Fin ([1, 100] : List ℝ).length => ([1, 100] : List ℝ)[i]) 0 := by
    refine ⟨finPlan_inBall (n := 2) (by norm_num) (by intros; norm_num) (by intro i; simp) _ (by simp), ?_⟩
    apply finPlan_snd_ae _ measurableSet_Ici
    intro i _
    fin_cases i <;> simp
  have h1 := h 1 (by norm_num) (-2) (by
    intro Q hQ
    refine (demand_upper (by norm_num) [1, 100] hQ.1).trans ?_
    unfold avgCost newsvendor
    norm_num) _ hemp
  rw [finPlan_snd_integral (by intros; norm_num) _ (newsvendor_measurable _ _ _)] at h1
  simp [newsvendor, Fin.sum_univ_two] at h1
  norm_num at h1

/-- C59 is false in a second way: with one demand of 10 and radius 100 the solver orders 10, whose worst-case cost is at least 50, while
ordering nothing costs 0 whatever happens. -/
theorem C59_large_radius_false : ∃ (k u rho : ℝ) (samples : List ℝ), 0 ≤ k ∧ k ≤ u ∧ 0 ≤ rho ∧ (∀ x ∈ samples, 0 ≤ x) ∧
    samples ≠ [] ∧ ∀ solve : Oracle, ExactSolver solve → ∃ r theta, newsvendorDedicated solve k u rho (some samples) = .ok r ∧
      r.attrs .coef = some (some (.num theta)) ∧
      ¬ Minimax (DemandBall (fun i : Fin samples.length => samples[i]) rho) (newsvendor k u) (fun t => 0 ≤ t) theta := by
  refine ⟨5, 7, 100, [10], by norm_num, by norm_num, by norm_num, by simp, by simp, fun solve hs => ?_⟩
  obtain ⟨r, theta, h1, -, h3, h4, h5⟩ := C60_solver2 hs (k := 5) (u := 7) (by norm_num) (by norm_num) [10] (by simp)
  have hret : newsvendorDedicated solve 5 7 100 (some [10]) = .ok r := by
    classical
    unfold newsvendorDedicated
    have hr : List.range ((npSort [10]).length - 1) = [] := rfl
    simp only [hr]
    rw [if_pos (by simp), h1]
    rfl
  refine ⟨r, theta, hret, h3, ?_⟩
  have hth : 10 ≤ theta := by
    have := h5 10 (by norm_num)
    unfold avgCost newsvendor at this
    simp at this
    by_contra hlt
    rw [min_eq_left (not_le.1 hlt).le] at this
    linarith
  rintro ⟨-, h⟩
  have hzero : (finPlan (fun (_ : Fin 1) (_ : Fin 1) => (1 : ℝ)) (fun _ _ => (0 : ℝ))).map Prod.snd ∈
      DemandBall (fun i : Fin ([10] : List ℝ).length => ([10] : List ℝ)[i]) 100 := by
    refine ⟨finPlan_inBall (n := 1) (by norm_num) (by intros; norm_num) (by intro i; simp) _ (by simp; norm_num), ?_⟩
    apply finPlan_snd_ae _ measurableSet_Ici
    intro i _
    simp
  have h6 := h 0 (le_refl _) 0 (by
    intro Q hQ
    apply le_of_eq
    apply integral_eq_zero_of_ae
    filter_upwards [hQ.2] with x hx
    simp [newsvendor, min_eq_left hx]) _ hzero
  rw [finPlan_snd_integral (by intros; norm_num) _ (newsvendor_measurable _ _ _)] at h6
  simp [newsvendor, min_eq_right h4] at h6
  linarith

end Skwdro
