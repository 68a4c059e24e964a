import Verif.Props.Dedicated
import Verif.Props.NewsvendorExact
import Verif.Props.MoreData

/-!
# How far the dedicated newsvendor can be from the best order (C137)
-/

namespace Skwdro
open Spec Tensor MeasureTheory ProbabilityTheory Filter Topology

/-- what the dedicated solver does on non-negative demands, with the comparison that made it return 0 -/
theorem nv_cases_zero (solve : Oracle) (k u : ℝ) {rho : ℝ} (hr : 0 ≤ rho) (samples : List ℝ) (hpos : ∀ x ∈ samples, 0 ≤ x) :
    newsvendorDedicated solve k u rho (some samples) = saaNewsvendor2 solve k u (some samples) ∨
    (newsvendorDedicated solve k u rho (some samples) = wrapResult (.tuple [some (.num 0), some (.num 0)]) ∧
      ∃ i, i + 1 < samples.length ∧ 0 < (npSort samples).getD (i + 1) 0 ∧ nvUpper rho (npSort samples) i ∧ nvLower rho (npSort samples) i ∧
        0 ≤ nvT k u rho (npSort samples) (i + 1)) := by
  classical
  have hlen := npSort_length samples
  have hbind : (saaNewsvendor2 solve k u (some samples) >>= fun r => wrapResult (.result r)) =
      saaNewsvendor2 solve k u (some samples) := by
    cases saaNewsvendor2 solve k u (some samples) <;> rfl
  have hposz : ∀ x ∈ npSort samples, 0 ≤ x := fun x hx => hpos x ((npSort_perm samples).mem_iff.1 hx)
  unfold newsvendorDedicated
  simp only [hbind]
  by_cases hlow : ∃ i ∈ List.range ((npSort samples).length - 1), nvLower rho (npSort samples) i
  · obtain ⟨⟨i, hi, hup, hl⟩, hpd⟩ := nv_search (npSort_sorted samples) hposz hr hlow
    have hupe : ∃ i ∈ List.range ((npSort samples).length - 1), nvUpper rho (npSort samples) i := ⟨i, hi, hup⟩
    rw [if_neg (not_not.2 hlow), if_neg (not_not.2 hupe)]
    cases hf : (List.range ((npSort samples).length - 1)).find?
        fun i => decide (nvUpper rho (npSort samples) i ∧ nvLower rho (npSort samples) i) with
    | none =>
      exfalso
      have := List.find?_eq_none.1 hf i hi
      simp [hup, hl] at this
    | some j =>
      have hj := List.find?_some hf
      have hjm := List.mem_of_find?_eq_some hf
      simp only [decide_eq_true_eq] at hj
      have hd := hpd j hjm hj.2
      simp only [if_neg hd.ne']
      by_cases hT : nvT k u rho (npSort samples) (j + 1) ≥ 0
      · right
        rw [if_pos hT]
        have := List.mem_range.1 hjm
        exact ⟨rfl, j, by omega, hd, hj.1, hj.2, hT⟩
      · left
        rw [if_neg hT]
  · left
    rw [if_pos hlow]

/-- the quantity compared with zero by the solver is off by at most one sample -/
theorem nv_off_by_one {L R : List ℝ} {x y nr t : ℝ} (hx : 0 ≤ x) (hxy : x ≤ y) (hL : ∀ a ∈ L, a ≤ y) (hR : ∀ a ∈ R, y ≤ a) (hup : L.sum ≤ nr)
    (hlow : nr < L.sum + y) (ht : 0 ≤ t) :
    (((L ++ x :: y :: R).map fun a => min t a).sum - nr) * y ≤ t * (((L ++ x :: y :: R).map fun a => min y a).sum - nr) + t * y := by
  have hy : 0 ≤ y := hx.trans hxy
  have e1 : (L.map fun a => min y a) = L := by
    conv_rhs => rw [← List.map_id L]
    exact List.map_congr_left fun a ha => min_eq_right (hL a ha)
  have e2 : (R.map fun a => min y a).sum = R.length * y := by
    rw [List.map_congr_left fun a ha => min_eq_left (hR a ha)]
    simp
  have b1 : (L.map fun a => min t a).sum ≤ L.sum := by
    have := List.sum_le_sum (l := L) (f := fun a => min t a) (g := fun a => a) fun a _ => min_le_right t a
    simpa using this
  have b2 : (R.map fun a => min t a).sum ≤ R.length * t := by
    have := List.sum_le_sum (l := R) (f := fun a => min t a) (g := fun _ => t) fun a _ => min_le_left t a
    simpa using this
  simp only [List.map_append, List.map_cons, List.sum_append, List.sum_cons, e1, e2, min_self, min_eq_right hxy]
  have m1 := min_le_left t x
  have m2 := min_le_right t x
  have m3 := min_le_left t y
  have m4 := min_le_right t y
  have hr : (0 : ℝ) ≤ R.length := Nat.cast_nonneg _
  set A := (L.map fun a => min t a).sum
  set B := (R.map fun a => min t a).sum
  set r : ℝ := (R.length : ℝ)
  set S := L.sum
  rcases le_total (nr - S) x with hD | hD
  · have h1 : A + (min t x + (min t y + B)) - nr ≤ S - nr + 2 * t + r * t := by linarith
    have h2 := mul_le_mul_of_nonneg_right h1 hy
    have h3 : 0 ≤ t * (x - (nr - S)) := mul_nonneg ht (by linarith)
    have h4 : 0 ≤ (nr - S) * y := mul_nonneg (by linarith) hy
    nlinarith
  · rcases le_total t y with hty | hty
    · have h1 : A + (min t x + (min t y + B)) - nr ≤ S - nr + x + t + r * t := by linarith
      have h2 := mul_le_mul_of_nonneg_right h1 hy
      have h3 : 0 ≤ (y - t) * ((nr - S) - x) := mul_nonneg (by linarith) (by linarith)
      have h4 : 0 ≤ t * y := mul_nonneg ht hy
      nlinarith
    · have h1 : A + (min t x + (min t y + B)) - nr ≤ S - nr + x + y + r * t := by linarith
      have h2 := mul_le_mul_of_nonneg_right h1 hy
      have h3 : 0 ≤ (t - y) * (x + y - (nr - S)) := mul_nonneg (by linarith) (by linarith)
      have h4 : 0 ≤ t * y := mul_nonneg ht hy
      nlinarith

/-- when the solver's comparison makes it order nothing, no order has an average cost below `-u * rho` by more than `u / n` per unit -/
theorem nv_zero_near {k u rho : ℝ} (hu : 0 ≤ u) {samples : List ℝ} (hpos : ∀ x ∈ samples, 0 ≤ x) {i : ℕ} (hi : i + 1 < samples.length)
    (hd : 0 < (npSort samples).getD (i + 1) 0) (hup : nvUpper rho (npSort samples) i) (hlow : nvLower rho (npSort samples) i)
    (hT : 0 ≤ nvT k u rho (npSort samples) (i + 1)) {t : ℝ} (ht : 0 ≤ t) :
    0 ≤ avgCost (k + u / samples.length) u samples t + u * rho := by
  have hlen := npSort_length samples
  have hsorted := npSort_sorted samples
  have hposz : ∀ x ∈ npSort samples, 0 ≤ x := fun x hx => hpos x ((npSort_perm samples).mem_iff.1 hx)
  have hn : (0 : ℝ) < samples.length := by exact_mod_cast (by omega : 0 < samples.length)
  rw [← avgCost_perm (npSort_perm samples)]
  rw [← hlen] at hi hn ⊢
  generalize npSort samples = z at *
  -- the sorted sample around the chosen index
  have hi0 : i < z.length := by omega
  have hz : z = z.take i ++ z[i] :: z[i + 1] :: z.drop (i + 2) := by
    conv_lhs => rw [← List.take_append_drop i z, List.drop_eq_getElem_cons hi0, List.drop_eq_getElem_cons hi]
  have hy : z.getD (i + 1) 0 = z[i + 1] := by simp [List.getD, hi]
  rw [hy] at hd
  have hp := hsorted
  rw [hz, List.pairwise_append, List.pairwise_cons, List.pairwise_cons] at hp
  obtain ⟨-, ⟨hx1, hx2, -⟩, hx3⟩ := hp
  have hkey := nv_off_by_one (L := z.take i) (R := z.drop (i + 2)) (x := z[i]) (y := z[i + 1]) (nr := z.length * rho) (t := t)
    (hposz _ (List.getElem_mem _)) (hx1 _ List.mem_cons_self) (fun a ha => hx3 a ha _ (List.mem_cons_of_mem _ List.mem_cons_self)) (fun a ha => hx2 a ha) hup
    (by unfold nvLower nvA at hlow; rw [hy] at hlow; linarith) ht
  rw [← hz] at hkey
  have hT' : 0 ≤ z.length * k * z[i + 1] - u * ((z.map fun a => min z[i + 1] a).sum - z.length * rho) := by
    have e : z.length * z[i + 1] * nvT k u rho z (i + 1) = z.length * k * z[i + 1] - u * ((z.map fun a => min z[i + 1] a).sum - z.length * rho) := by
      unfold nvT
      simp only [hy]
      have e2 : (z.map fun x => min (x / z[i + 1]) 1).sum = (z.map fun a => min z[i + 1] a).sum / z[i + 1] := by
        have : ∀ l : List ℝ, (l.map fun x => min (x / z[i + 1]) 1).sum = (l.map fun a => min z[i + 1] a).sum / z[i + 1] := by
          intro l
          induction l with
          | nil => simp
          | cons a l ih =>
            simp only [List.map_cons, List.sum_cons, ih, add_div]
            congr 1
            rw [← min_div_div_right hd.le, div_self hd.ne', min_comm]
        exact this z
      rw [e2]
      field_simp
      ring
    rw [← e]
    positivity
  have hav : avgCost (k + u / z.length) u z t + u * rho = (z.length * k * t + u * t - u * ((z.map fun a => min t a).sum - z.length * rho)) / z.length := by
    unfold avgCost newsvendor
    have e3 : (z.map fun x => (k + u / z.length) * t - u * min t x).sum = z.length * ((k + u / z.length) * t) - u * (z.map fun a => min t a).sum := by
      have : ∀ l : List ℝ, (l.map fun x => (k + u / z.length) * t - u * min t x).sum = l.length * ((k + u / z.length) * t) - u * (l.map fun a => min t a).sum := by
        intro l
        induction l with
        | nil => simp
        | cons a l ih => simp only [List.map_cons, List.sum_cons, List.length_cons, ih, Nat.cast_add, Nat.cast_one]; ring
      exact this z
    rw [e3]
    field_simp
    ring
  rw [hav]
  refine div_nonneg ?_ hn.le
  have h1 := mul_le_mul_of_nonneg_left hkey hu
  have h2 := mul_nonneg ht hT'
  have h3 : 0 ≤ z[i + 1] * (z.length * k * t + u * t - u * ((z.map fun a => min t a).sum - z.length * rho)) := by nlinarith
  exact nonneg_of_mul_nonneg_right h3 hd

theorem newsvendor_buy (k c u t x : ℝ) : newsvendor (k + c) u t x = newsvendor k u t x + c * t := by unfold newsvendor; ring

theorem newsvendor_integrable {k u rho theta : ℝ} (hu : 0 ≤ u) {samples : List ℝ} {Q : Measure ℝ}
    (hQ : InBall (fun i : Fin samples.length => samples[i]) (fun a b => |a - b|) rho Q) : Integrable (newsvendor k u theta) Q := by
  refine ball_integrable hQ (newsvendor_measurable k u theta) (s := fun i => |newsvendor k u theta samples[i]|) (lam := u)
    (fun _ => True) (by simp) ?_
  intro i x _
  have h1 := newsvendor_lip (k := k) hu theta samples[i] x
  have h2 := newsvendor_lip (k := k) hu theta x samples[i]
  rw [abs_sub_comm x] at h2
  have h3 := neg_abs_le (newsvendor k u theta samples[i])
  have h4 := le_abs_self (newsvendor k u theta samples[i])
  rw [abs_le]
  constructor <;> linarith

theorem avgCost_zero {k u : ℝ} {samples : List ℝ} (hpos : ∀ x ∈ samples, 0 ≤ x) : avgCost k u samples 0 = 0 := by
  have : ∀ x ∈ samples, newsvendor k u 0 x = 0 := fun x hx => by simp [newsvendor, min_eq_left (hpos x hx)]
  unfold avgCost
  rw [List.map_congr_left this]
  simp

/-- the worst-case cost of the order returned, compared with that of any other order -/
theorem nv_regret {solve : Oracle} (hs : ExactSolver solve) {k u rho : ℝ} (hk : 0 ≤ k) (hu : 0 ≤ u) (hr : 0 ≤ rho)
    (samples l : List ℝ) (a b : ℝ) (hsplit : samples.Perm (l ++ [a, b])) (hla : ∀ x ∈ l, x ≤ a) (hab : a ≤ b)
    (hsmall : samples.length * rho < l.sum + b) (hpos : ∀ x ∈ samples, 0 ≤ x) {r : SolverResult SVal} {theta : ℝ}
    (hret : newsvendorDedicated solve k u rho (some samples) = .ok r) (hcoef : r.attrs .coef = some (some (.num theta))) {t M : ℝ} (ht : 0 ≤ t)
    (hM : ∀ Q ∈ DemandBall (fun i : Fin samples.length => samples[i]) rho, ∫ x, newsvendor k u t x ∂Q ≤ M) :
    ∀ Q ∈ DemandBall (fun i : Fin samples.length => samples[i]) rho, ∫ x, newsvendor k u theta x ∂Q ≤ M + u * t / samples.length := by
  intro Q hQ
  have hne : samples ≠ [] := by
    intro h
    have := hsplit.length_eq
    simp [h] at this
  have hn : (0 : ℝ) < samples.length := by exact_mod_cast List.length_pos_iff.2 hne
  by_cases h0 : theta = 0
  swap
  · have h1 := (C59_nonzero_partial hs hk hu hr samples l a b hsplit hla hab hsmall hpos hret hcoef h0).2 t ht M hM Q hQ
    have : 0 ≤ u * t / samples.length := by positivity
    linarith
  subst h0
  rw [newsvendor_zero_cost hQ]
  rcases nv_cases_zero solve k u hr samples hpos with heq | ⟨-, i, hi, hd, hup, hlow, hT⟩
  · rw [heq] at hret
    obtain ⟨r', theta', h1, -, h2, -, hbest⟩ := C60_solver2 hs hk hu samples hne
    rw [h1] at hret
    cases hret
    rw [h2] at hcoef
    simp only [Option.some.injEq, SVal.num.injEq] at hcoef
    subst hcoef
    rw [avgCost_zero hpos] at hbest
    have h3 := (C59_zero_iff hk hu hr hne hpos).2 fun t ht => add_nonneg (hbest t ht) (mul_nonneg hu hr)
    have h4 := h3.2 t ht M hM Q hQ
    rw [newsvendor_zero_cost hQ] at h4
    have : 0 ≤ u * t / samples.length := by positivity
    linarith
  · have h3 := (C59_zero_iff (k := k + u / samples.length) (by positivity) hu hr hne hpos).2
      fun t ht => nv_zero_near hu hpos hi hd hup hlow hT ht
    have h4 := h3.2 t ht (M + u * t / samples.length) (fun Q' hQ' => by
      have hpr : IsProbabilityMeasure Q' := by
        obtain ⟨π, h1, -, h2, -⟩ := hQ'.1
        rw [← h2]
        exact Measure.isProbabilityMeasure_map measurable_snd.aemeasurable
      simp only [newsvendor_buy]
      rw [integral_add (newsvendor_integrable hu hQ'.1) (integrable_const _), integral_const, probReal_univ, one_smul]
      have := hM Q' hQ'
      have e : u / samples.length * t = u * t / samples.length := by ring
      linarith) Q hQ
    rwa [newsvendor_zero_cost hQ] at h4

/-- what the newsvendor fit with the dedicated solver stores -/
theorem nv_fit {G : Type} {ext : TorchExt G} {solve : Oracle} {g : G} {P : EstParams} (hs : ExactSolver solve) {grads : Autograd 1}
    {train : Trainer 1} {theta0 : ℝ} (hP : P.solver = "dedicated".toList) (hc : ∃ c, cost_from_str P.cost = .ok c) {rho : ℝ} (hR : P.rho = .num rho)
    (hr : 0 ≤ rho) (hk : 0 ≤ P.k) (hu : 0 ≤ P.u) {n d : ℕ} (hn : 0 < n) (hd : 0 < d) (X : Fin n → Fin d → ℝ)
    (hX : ∀ i, 0 ≤ avg (X i)) :
    ∃ r theta f, newsvendorDedicated solve P.k P.u rho (some (List.ofFn fun i => avg (X i))) = .ok r ∧ r.attrs .coef = some (some (.num theta)) ∧
      0 ≤ theta ∧ newsvendorFit ext grads solve train theta0 P X g = .ok f ∧ f.coef = some (Tensor.scalar theta) := by
  classical
  obtain ⟨c, hc⟩ := hc
  have hr' : route .newsvendor P.solver = .ok .dedicated := by rw [(C66_route_partial .newsvendor P.solver).2.1 hP]; rfl
  set z : Fin n → ℝ := fun i => avg (X i) with hz
  have hne : List.ofFn z ≠ [] := by
    intro h
    have := congrArg List.length h
    simp at this
    omega
  have hpos : ∀ x ∈ List.ofFn z, 0 ≤ x := by
    intro x hx
    obtain ⟨i, rfl⟩ := List.mem_ofFn.1 hx
    exact hX i
  have hrow : rowMeans X = z := rfl
  have hsol : ∃ r theta, newsvendorDedicated solve P.k P.u rho (some (List.ofFn z)) = .ok r ∧ 0 ≤ theta ∧
      r.toList = .ok [some (.num theta), some (.num 0)] ∧ r.attrs .coef = some (some (.num theta)) := by
    rcases nv_cases solve P.k P.u hr (List.ofFn z) hpos with ⟨-, h⟩ | h
    · obtain ⟨r, theta, h1, h2, h3, h4, h5⟩ := C60_solver2 hs hk hu (List.ofFn z) hne
      exact ⟨r, theta, h.trans h1, h4, h2, h3⟩
    · exact ⟨_, 0, h, le_refl _, rfl, rfl⟩
  obtain ⟨r, theta, hret, hth, hl, hcoef⟩ := hsol
  have hun : unpack2 r = .ok (some (.num theta), some (.num 0)) := by unfold unpack2; rw [hl]; rfl
  refine ⟨r, theta, { coef := some (Tensor.scalar theta), dual_var := some (Tensor.scalar (if theta = 0 then 0 else P.u)) }, hret, hcoef, hth, ?_, rfl⟩
  unfold newsvendorFit
  rw [if_neg (by omega), hc, hr', hR]
  simp only [ok_bind, newsvendorAt, hrow, hret, hun]
  rfl

/-- a sample without its two largest demands -/
theorem ofFn_split {n : ℕ} (z : Fin n → ℝ) {a b : Fin n} (hab : a ≠ b) :
    ∃ l : List ℝ, (List.ofFn z).Perm (l ++ [z a, z b]) ∧ (∀ x ∈ l, ∃ i, i ≠ b ∧ x = z i) ∧ l.sum + z b = ∑ i, z i - z a := by
  classical
  have h1 := List.perm_cons_erase (List.mem_finRange b)
  have ha : a ∈ (List.finRange n).erase b := (List.mem_erase_of_ne hab).2 (List.mem_finRange a)
  have h2 := List.perm_cons_erase ha
  have h3 : (List.ofFn z).Perm ((((List.finRange n).erase b).erase a).map z ++ [z a, z b]) := by
    rw [List.ofFn_eq_map]
    refine (h1.map z).trans ?_
    rw [List.map_cons]
    refine ((h2.map z).cons _).trans ?_
    rw [List.map_cons]
    refine (List.Perm.swap _ _ _).trans ?_
    exact List.perm_append_comm (l₁ := [z a, z b])
  refine ⟨_, h3, ?_, ?_⟩
  · intro x hx
    obtain ⟨i, hi, rfl⟩ := List.mem_map.1 hx
    refine ⟨i, ?_, rfl⟩
    rintro rfl
    exact (List.nodup_finRange n).not_mem_erase (List.mem_of_mem_erase hi)
  · have := h3.sum_eq
    rw [List.sum_ofFn] at this
    rw [this]
    simp
    ring

section
variable {G : Type} {ext : TorchExt G} {solve : Oracle} {g : G} {P : EstParams} {n d : ℕ}

/-- **C137** Newsvendor with `solver="dedicated"`, prices `k, u >= 0`, a non-negative radius and non-negative demands (the means of the rows).
Whenever the demands other than the second largest sum to more than `n * rho`, the worst-case cost of the order stored by the fit exceeds
that of any order `t` by at most `u * t / n`. -/
theorem C137_regret (hs : ExactSolver solve) {grads : Autograd 1} {train : Trainer 1} {theta0 : ℝ} (hP : P.solver = "dedicated".toList)
    (hc : ∃ c, cost_from_str P.cost = .ok c) {rho : ℝ} (hR : P.rho = .num rho) (hr : 0 ≤ rho) (hk : 0 ≤ P.k) (hu : 0 ≤ P.u)
    (hd : 0 < d) (X : Fin n → Fin d → ℝ) (hX : ∀ i, 0 ≤ avg (X i)) {a b : Fin n} (hne : a ≠ b) (hab : avg (X a) ≤ avg (X b))
    (ha : ∀ i, i ≠ b → avg (X i) ≤ avg (X a)) (hsmall : n * rho < ∑ i, avg (X i) - avg (X a)) :
    ∃ f cT theta, newsvendorFit ext grads solve train theta0 P X g = .ok f ∧ f.coef = some cT ∧ IsScalar cT theta ∧ 0 ≤ theta ∧
      ∀ t M, 0 ≤ t → (∀ Q ∈ DemandBall (fun i => avg (X i)) rho, ∫ x, newsvendor P.k P.u t x ∂Q ≤ M) →
        ∀ Q ∈ DemandBall (fun i => avg (X i)) rho, ∫ x, newsvendor P.k P.u theta x ∂Q ≤ M + P.u * t / n := by
  obtain ⟨r, theta, f, hret, hcoef, hth, hf, hfc⟩ := nv_fit (ext := ext) (g := g) (grads := grads) (train := train) (theta0 := theta0) hs hP hc hR hr hk
    hu (Fin.pos a) hd X hX
  obtain ⟨l, hperm, hl, hsum⟩ := ofFn_split (fun i => avg (X i)) hne
  refine ⟨f, _, theta, hf, hfc, ⟨rfl, rfl⟩, hth, fun t M ht hM => ?_⟩
  have := nv_regret hs hk hu hr (List.ofFn fun i => avg (X i)) l (avg (X a)) (avg (X b)) hperm
    (fun x hx => by obtain ⟨i, hi, rfl⟩ := hl x hx; exact ha i hi) hab (by rw [List.length_ofFn, hsum]; exact hsmall)
    (fun x hx => by obtain ⟨i, rfl⟩ := List.mem_ofFn.1 hx; exact hX i) hret hcoef ht (M := M)
  rw [demandBall_list, List.length_ofFn] at this
  exact this hM

/-- **C137** (violated for large radii) Whenever the average demand is at most the radius and ordering is worthwhile without ambiguity
(`k > 0` and `k * n` less than `u` times the number of positive demands), the order stored by the fit is positive and not of least worst-case
cost: ordering nothing costs less in the worst case. -/
theorem C137_large_radius_false (hs : ExactSolver solve) {grads : Autograd 1} {train : Trainer 1} {theta0 : ℝ} (hP : P.solver = "dedicated".toList)
    (hc : ∃ c, cost_from_str P.cost = .ok c) {rho : ℝ} (hR : P.rho = .num rho) (hr : 0 ≤ rho) (hk : 0 < P.k) (hu : 0 ≤ P.u) (hn : 0 < n)
    (hd : 0 < d) (X : Fin n → Fin d → ℝ) (hX : ∀ i, 0 ≤ avg (X i)) (hlarge : ∑ i, avg (X i) ≤ n * rho)
    (hworth : P.k * n < P.u * Nat.card {i // 0 < avg (X i)}) :
    ∃ f cT theta, newsvendorFit ext grads solve train theta0 P X g = .ok f ∧ f.coef = some cT ∧ IsScalar cT theta ∧ 0 < theta ∧
      (∀ Q ∈ DemandBall (fun i => avg (X i)) rho, ∫ x, newsvendor P.k P.u 0 x ∂Q ≤ 0) ∧
      ∃ Q ∈ DemandBall (fun i => avg (X i)) rho, 0 < ∫ x, newsvendor P.k P.u theta x ∂Q := by
  classical
  obtain ⟨r, theta, f, hret, hcoef, hth, hf, hfc⟩ := nv_fit (ext := ext) (g := g) (grads := grads) (train := train) (theta0 := theta0) hs hP hc hR hr
    hk.le hu hn hd X hX
  set z : Fin n → ℝ := fun i => avg (X i) with hz
  have hnR : (0 : ℝ) < n := by exact_mod_cast hn
  have hpos : ∀ x ∈ List.ofFn z, 0 ≤ x := by
    intro x hx
    obtain ⟨i, rfl⟩ := List.mem_ofFn.1 hx
    exact hX i
  have hne : List.ofFn z ≠ [] := by
    intro h
    have := congrArg List.length h
    simp at this
    omega
  have havg : ∀ t, avgCost P.k P.u (List.ofFn z) t = P.k * t - P.u * ((∑ i, min t (z i)) / n) := by
    intro t
    unfold avgCost newsvendor
    rw [List.map_ofFn, List.sum_ofFn, List.length_ofFn]
    simp only [Function.comp, Finset.sum_sub_distrib, ← Finset.mul_sum, Finset.sum_const, Finset.card_univ, Fintype.card_fin, nsmul_eq_mul]
    field_simp
  have hlow : ∀ t, 0 ≤ t → P.k * t ≤ avgCost P.k P.u (List.ofFn z) t + P.u * rho := by
    intro t ht
    rw [havg]
    have h1 : (∑ i, min t (z i)) / n ≤ rho := by
      rw [div_le_iff₀ hnR, mul_comm]
      exact (Finset.sum_le_sum fun i _ => min_le_right t (z i)).trans hlarge
    nlinarith
  -- the search fails, so the order is of least average cost
  have hbest : ∀ t, 0 ≤ t → avgCost P.k P.u (List.ofFn z) theta ≤ avgCost P.k P.u (List.ofFn z) t := by
    rcases nv_cases_zero solve P.k P.u hr (List.ofFn z) hpos with heq | ⟨-, i, hi, -, -, hl, -⟩
    · rw [heq] at hret
      obtain ⟨r', theta', h1, -, h2, -, hbest⟩ := C60_solver2 hs hk.le hu (List.ofFn z) hne
      rw [h1] at hret
      cases hret
      rw [h2] at hcoef
      simp only [Option.some.injEq, SVal.num.injEq] at hcoef
      subst hcoef
      exact hbest
    · exfalso
      have hsum : (npSort (List.ofFn z)).sum = ∑ i, z i := by rw [(npSort_perm _).sum_eq, List.sum_ofFn]
      have hlen : (npSort (List.ofFn z)).length = n := by rw [npSort_length, List.length_ofFn]
      have hposz : ∀ x ∈ npSort (List.ofFn z), 0 ≤ x := fun x hx => hpos x ((npSort_perm _).mem_iff.1 hx)
      rw [List.length_ofFn] at hi
      unfold nvLower nvA at hl
      rw [hlen] at hl
      generalize npSort (List.ofFn z) = w at *
      have hi1 : i + 1 < w.length := by omega
      have hi0 : i < w.length := by omega
      have hw : w.sum = (w.take i).sum + (w[i] + (w[i + 1] + (w.drop (i + 2)).sum)) := by
        conv_lhs => rw [← List.take_append_drop i w, List.drop_eq_getElem_cons hi0, List.drop_eq_getElem_cons hi1]
        simp only [List.sum_append, List.sum_cons]
      have hy : w.getD (i + 1) 0 = w[i + 1] := by simp [List.getD, hi1]
      have h1 := hposz _ (List.getElem_mem hi0)
      have h2 : 0 ≤ (w.drop (i + 2)).sum := List.sum_nonneg fun x hx => hposz x (List.mem_of_mem_drop hx)
      rw [hy] at hl
      linarith
  have hth' : 0 < theta := by
    refine hth.lt_of_ne fun h0 => ?_
    subst h0
    rw [avgCost_zero hpos] at hbest
    have hcard : Nat.card {i // 0 < z i} = (Finset.univ.filter fun i => 0 < z i).card := by
      rw [Nat.card_eq_fintype_card, Fintype.card_subtype]
    rw [hcard] at hworth
    have hex : (Finset.univ.filter fun i => 0 < z i).Nonempty := by
      rw [Finset.nonempty_iff_ne_empty]
      intro h
      rw [h] at hworth
      have : 0 < P.k * n := by positivity
      simp at hworth
      linarith
    obtain ⟨m, hm, hmin⟩ := Finset.exists_min_image _ z hex
    have hzm : 0 < z m := by simpa using hm
    have h1 := hbest (z m) hzm.le
    rw [havg] at h1
    have h2 : (Finset.univ.filter fun i => 0 < z i).card * z m ≤ ∑ i, min (z m) (z i) := by
      rw [← nsmul_eq_mul, ← Finset.sum_const, ← Finset.sum_filter_add_sum_filter_not Finset.univ fun i => 0 < z i]
      have h3 : 0 ≤ ∑ i ∈ Finset.univ.filter fun i => ¬ 0 < z i, min (z m) (z i) := Finset.sum_nonneg fun i _ => le_min hzm.le (hX i)
      have h4 : ∑ i ∈ Finset.univ.filter (fun i => 0 < z i), z m ≤ ∑ i ∈ Finset.univ.filter (fun i => 0 < z i), min (z m) (z i) :=
        Finset.sum_le_sum fun i hi => le_min le_rfl (hmin i hi)
      linarith
    have h5 : P.u * (∑ i, min (z m) (z i)) ≤ P.k * n * z m := by
      have h6 : P.u * ((∑ i, min (z m) (z i)) / n) * n ≤ P.k * z m * n := mul_le_mul_of_nonneg_right (by linarith) hnR.le
      have e : P.u * ((∑ i, min (z m) (z i)) / n) * n = P.u * (∑ i, min (z m) (z i)) := by field_simp
      linarith
    have h7 := mul_le_mul_of_nonneg_left h2 hu
    have h8 := mul_lt_mul_of_pos_right hworth hzm
    nlinarith
  refine ⟨f, _, theta, hf, hfc, ⟨rfl, rfl⟩, hth', fun Q hQ => (newsvendor_zero_cost hQ).le, ?_⟩
  obtain ⟨Q, hQ, hcase⟩ := nv_adversary (k := P.k) (u := P.u) hr hne hpos
  rw [demandBall_list] at hQ
  refine ⟨Q, hQ, ?_⟩
  rcases hcase with h1 | ⟨t, s, ht, h1, h2⟩
  · rw [h1 theta hth]
    positivity
  · rcases le_total t theta with htq | hqt
    · rw [h1 theta htq]
      exact lt_of_lt_of_le (by positivity) (hlow theta hth)
    · rw [h2 theta hth hqt]
      have h3 := h1 t le_rfl
      rw [h2 t ht le_rfl] at h3
      have ht0 : 0 < t := hth'.trans_le hqt
      have h4 := hlow t ht
      rw [← h3] at h4
      have : 0 < P.k * t := by positivity
      have hs0 : 0 < s := by
        by_contra hs0
        nlinarith [not_lt.1 hs0]
      positivity

end

section
variable {Ω : Type} [MeasurableSpace Ω] {μ : Measure Ω} {nu : Measure ℝ} {Z : ℕ → Ω → ℝ}

/-- demands whose mean exceeds the radius eventually satisfy the condition of the search, whichever demand is left out -/
theorem demands_enough [IsProbabilityMeasure nu] (h : DrawsOf μ nu Z) (hi : Integrable (fun x => x) nu) (hpos : ∀ᵐ x ∂nu, 0 ≤ x) {rho : ℝ}
    (hrho : rho < ∫ x, x ∂nu) : ∀ᵐ ω ∂μ, ∀ᶠ n : ℕ in atTop, ∀ i : Fin n, n * rho < ∑ j : Fin n, Z j ω - Z i ω := by
  -- a truncation whose mean exceeds the radius
  have hlim : Tendsto (fun C : ℕ => ∫ x, min x C ∂nu) atTop (𝓝 (∫ x, x ∂nu)) := by
    refine tendsto_integral_of_dominated_convergence (fun x => |x|) (fun C => (by fun_prop : Measurable fun x : ℝ => min x C).aestronglyMeasurable)
      hi.abs (fun C => ?_) ?_
    · filter_upwards [hpos] with x hx
      rw [Real.norm_eq_abs, abs_of_nonneg (le_min hx (Nat.cast_nonneg _)), abs_of_nonneg hx]
      exact min_le_left _ _
    · filter_upwards with x
      refine tendsto_const_nhds.congr' ?_
      obtain ⟨N, hN⟩ := exists_nat_ge x
      filter_upwards [eventually_ge_atTop N] with C hC
      rw [min_eq_left (hN.trans (by exact_mod_cast hC))]
  obtain ⟨C, hC⟩ := (hlim.eventually (eventually_gt_nhds hrho)).exists
  have hpos' : ∀ᵐ ω ∂μ, ∀ i, 0 ≤ Z i ω := by
    rw [ae_all_iff]
    intro i
    have := hpos
    rw [← h.law i] at this
    exact ae_of_ae_map (h.meas i).aemeasurable this
  have hmin : Integrable (fun x : ℝ => min x C) nu := hi.inf (integrable_const _)
  filter_upwards [hpos', draws_average h (F := fun x => min x C) (by fun_prop) hmin] with ω hp hav
  have hC' : Tendsto (fun n : ℕ => (C : ℝ) / n) atTop (𝓝 0) := tendsto_const_div_atTop_nhds_zero_nat _
  have hdiff := hav.sub hC'
  rw [sub_zero] at hdiff
  filter_upwards [hdiff.eventually (eventually_gt_nhds hC), eventually_gt_atTop 0] with n hn hn0 i
  have hnR : (0 : ℝ) < n := by exact_mod_cast hn0
  have h1 : n * rho < (∑ j : Fin n, min (Z j ω) C) - C := by
    have e : (avg fun j : Fin n => min (Z j ω) (C : ℝ)) - C / n = ((∑ j : Fin n, min (Z j ω) C) - C) / n := by unfold avg; ring
    rw [e, lt_div_iff₀ hnR] at hn
    linarith
  have h2 : (∑ j : Fin n, min (Z j ω) C) - C ≤ ∑ j : Fin n, Z j ω - Z i ω := by
    rw [← Finset.add_sum_erase _ _ (Finset.mem_univ i), ← Finset.add_sum_erase _ (fun j : Fin n => Z j ω) (Finset.mem_univ i)]
    have h3 : ∑ j ∈ Finset.univ.erase i, min (Z (j : Fin n) ω) C ≤ ∑ j ∈ Finset.univ.erase i, Z (j : Fin n) ω :=
      Finset.sum_le_sum fun j _ => min_le_left _ _
    have h4 := min_le_right (Z i ω) (C : ℝ)
    linarith
  exact h1.trans_le h2

variable {G : Type} {ext : TorchExt G} {solve : Oracle} {g : G} {P : EstParams}

/-- **C137** Demands drawn independently from a law of mean greater than the radius, prices `k > 0`, `u >= 0`: almost surely, for every
`eps > 0`, the orders stored by the fits with `solver="dedicated"` on the first `n` demands are, for all large `n`, within `eps` of the least
worst-case cost. -/
theorem C137_more_data (hs : ExactSolver solve) {grads : Autograd 1} {train : Trainer 1} {theta0 : ℝ} (hP : P.solver = "dedicated".toList)
    (hc : ∃ c, cost_from_str P.cost = .ok c) {rho : ℝ} (hR : P.rho = .num rho) (hr : 0 ≤ rho) (hk : 0 < P.k) (hu : 0 ≤ P.u)
    [IsProbabilityMeasure nu] (h : DrawsOf μ nu Z) (hi : Integrable (fun x => x) nu) (hpos : ∀ᵐ x ∂nu, 0 ≤ x) (hrho : rho < ∫ x, x ∂nu) :
    ∀ᵐ ω ∂μ, ∀ eps > 0, ∀ᶠ n : ℕ in atTop, ∃ f cT theta,
      newsvendorFit ext grads solve train theta0 P (fun (i : Fin n) (_ : Fin 1) => Z i ω) g = .ok f ∧ f.coef = some cT ∧ IsScalar cT theta ∧
      0 ≤ theta ∧ ∀ t M, 0 ≤ t → (∀ Q ∈ DemandBall (fun i : Fin n => Z i ω) rho, ∫ x, newsvendor P.k P.u t x ∂Q ≤ M) →
        ∀ Q ∈ DemandBall (fun i : Fin n => Z i ω) rho, ∫ x, newsvendor P.k P.u theta x ∂Q ≤ M + eps := by
  have hpos' : ∀ᵐ ω ∂μ, ∀ i, 0 ≤ Z i ω := by
    rw [ae_all_iff]
    intro i
    have := hpos
    rw [← h.law i] at this
    exact ae_of_ae_map (h.meas i).aemeasurable this
  filter_upwards [hpos', demands_enough h hi hpos hrho, draws_average h (F := fun x => x) measurable_id hi] with ω hp hen hav eps heps
  -- orders beyond `T` cost at least 0 on average
  set m := ∫ x, x ∂nu
  set T := P.u * (m + 1) / P.k with hT
  have hm : 0 < m := hr.trans_lt hrho
  have hT0 : 0 ≤ T := by positivity
  have hsm : Tendsto (fun n : ℕ => P.u * T / n) atTop (𝓝 0) := tendsto_const_div_atTop_nhds_zero_nat _
  filter_upwards [hen, hav.eventually_le_const (lt_add_one m), hsm.eventually_le_const heps, eventually_ge_atTop 2] with n h1 h2 h3 hn
  have hnR : (0 : ℝ) < n := by exact_mod_cast (by omega : 0 < n)
  have hrow : ∀ i : Fin n, avg (fun _ : Fin 1 => Z i ω) = Z i ω := fun i => by simp [avg]
  -- the two largest demands
  obtain ⟨b, -, hb⟩ := Finset.exists_max_image (Finset.univ : Finset (Fin n)) (fun i => Z i ω) ⟨⟨0, by omega⟩, Finset.mem_univ _⟩
  have hex : ((Finset.univ : Finset (Fin n)).erase b).Nonempty := by
    rw [← Finset.card_pos, Finset.card_erase_of_mem (Finset.mem_univ b), Finset.card_univ, Fintype.card_fin]
    omega
  obtain ⟨a, ha, hamax⟩ := Finset.exists_max_image _ (fun i : Fin n => Z i ω) hex
  obtain ⟨f, cT, theta, hf, hfc, hsc, hth, hreg⟩ := C137_regret (ext := ext) (g := g) (grads := grads) (train := train) (theta0 := theta0) hs hP hc hR hr
    hk.le hu one_pos (fun (i : Fin n) (_ : Fin 1) => Z i ω) (fun i => by rw [hrow]; exact hp i) (a := a) (b := b) (Finset.ne_of_mem_erase ha)
    (by rw [hrow, hrow]; exact hb a (Finset.mem_univ a)) (fun i hib => by rw [hrow, hrow]; exact hamax i (Finset.mem_erase.2 ⟨hib, Finset.mem_univ i⟩))
    (by simp only [hrow]; exact h1 a)
  simp only [hrow] at hreg
  refine ⟨f, cT, theta, hf, hfc, hsc, hth, fun t M ht hM Q hQ => ?_⟩
  rcases le_total t T with htT | htT
  · have h4 := hreg t M ht hM Q hQ
    have h5 : P.u * t / n ≤ P.u * T / n := by gcongr
    linarith
  · -- beyond `T` no order beats ordering nothing
    have h4 := hreg 0 0 le_rfl (fun Q' hQ' => (newsvendor_zero_cost hQ').le) Q hQ
    simp only [mul_zero, zero_div, add_zero] at h4
    have h5 : 0 ≤ M := by
      have hne : (List.ofFn fun i : Fin n => Z i ω) ≠ [] := by
        intro h
        have := congrArg List.length h
        simp at this
        omega
      have hposl : ∀ x ∈ List.ofFn fun i : Fin n => Z i ω, 0 ≤ x := by
        intro x hx
        obtain ⟨i, rfl⟩ := List.mem_ofFn.1 hx
        exact hp i
      have havg : ∀ q, T ≤ q → 0 ≤ avgCost P.k P.u (List.ofFn fun i : Fin n => Z i ω) q + P.u * rho := by
        intro q hq
        have e : avgCost P.k P.u (List.ofFn fun i : Fin n => Z i ω) q = P.k * q - P.u * ((∑ i : Fin n, min q (Z i ω)) / n) := by
          unfold avgCost newsvendor
          rw [List.map_ofFn, List.sum_ofFn, List.length_ofFn]
          simp only [Function.comp, Finset.sum_sub_distrib, ← Finset.mul_sum, Finset.sum_const, Finset.card_univ, Fintype.card_fin, nsmul_eq_mul]
          field_simp
        have e2 : (∑ i : Fin n, min q (Z i ω)) / n ≤ m + 1 := by
          refine le_trans ?_ h2
          unfold avg
          gcongr
          exact min_le_right _ _
        have e3 : P.u * (m + 1) ≤ P.k * q := by
          rw [hT, div_le_iff₀ hk] at hq
          linarith
        have e4 := mul_le_mul_of_nonneg_left e2 hu
        have e5 := mul_nonneg hu hr
        rw [e]
        linarith
      obtain ⟨Q', hQ', hcase⟩ := nv_adversary (k := P.k) (u := P.u) hr hne hposl
      rw [demandBall_list] at hQ'
      refine le_trans ?_ (hM Q' hQ')
      rcases hcase with g1 | ⟨s, c, hs0, g1, g2⟩
      · rw [g1 t ht]
        positivity
      · rcases le_total s t with hst | hst
        · rw [g1 t hst]
          exact havg t htT
        · have g3 := g1 s le_rfl
          rw [g2 s hs0 le_rfl] at g3
          have g4 := havg s (htT.trans hst)
          rw [g2 t ht hst]
          rcases hs0.eq_or_lt with g5 | g5
          · have : t = 0 := le_antisymm (g5 ▸ hst) ht
            rw [this]; simp
          · have : 0 ≤ c := by
              by_contra hc0
              nlinarith [not_le.1 hc0]
            positivity
    linarith

end

end Skwdro
