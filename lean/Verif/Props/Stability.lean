import Verif.Props.StrongDuality
import Verif.Model.WrapProblem
import Mathlib.Probability.Moments.SubGaussian
import Mathlib.Probability.Distributions.Uniform
import Mathlib.Probability.ProbabilityMassFunction.Integrals

/-!
# Stability of the robust loss (C111), units (C112), and the limits of weak and strong regularisation (C35)
-/

namespace Skwdro
open Spec Tensor

variable {G : Type} (ext : TorchExt G)

section
variable {n m : ℕ} {D : DualLoss} {xi zeta : Tensor ℝ} {xl zl : Option (Tensor ℝ)} {rho : ℝ} {L C : Fin n → Fin m → ℝ}

/-! ## C111 -/

/-- **C111** Two losses that differ by at most `δ` on the samples have robust losses that differ by at most `δ`, whatever the radius,
multiplier and regularisation. -/
theorem C111_loss {D' : DualLoss} {L' : Fin n → Fin m → ℝ} {δ : ℝ} (h : Plain D xi xl zeta zl rho L C)
    (h' : Plain D' xi xl zeta zl rho L' C) (hr : D.reduction = .mean) (hr' : D'.reduction = .mean)
    (hlam : D'.lam = D.lam) (heps : D'.epsilon = D.epsilon) (hc : D'.cost = D.cost) (hd : ∀ j i, |L' j i - L j i| ≤ δ) :
    |num (computeDual ext D' xi xl zeta zl) - num (computeDual ext D xi xl zeta zl)| ≤ δ := by
  rw [num_plain ext h hr, num_plain ext h' hr', robust, robust, hlam, heps, hc]
  have key : ∀ L L' : Fin n → Fin m → ℝ, (∀ j i, |L' j i - L j i| ≤ δ) →
      avg (fun i => softmax D.epsilon fun j => L' j i - D.lam * C j i) ≤
        avg (fun i => softmax D.epsilon fun j => L j i - D.lam * C j i) + δ := by
    intro L L' hd
    rw [← avg_add_const h.m_pos]
    refine avg_mono fun i => ?_
    rw [← softmax_add_const h.n_pos h.eps_pos]
    exact softmax_mono h.n_pos h.eps_pos fun j => by have := abs_le.1 (hd j i); linarith
  have h1 := key L L' hd
  have h2 := key L' L fun j i => by rw [abs_sub_comm]; exact hd j i
  rw [abs_le]
  constructor <;> linarith

/-- **C111** Changing the multiplier: if all the samples have a cost between `a` and `b`, increasing the multiplier by `δ` changes the robust
loss by between `δ * (rho^p - b)` and `δ * (rho^p - a)`. -/
theorem C111_multiplier {a b lam : ℝ} (h : Plain D xi xl zeta zl rho L C) (hr : D.reduction = .mean) (hl : D.lam ≤ lam)
    (hC : ∀ j i, a ≤ C j i ∧ C j i ≤ b) :
    (lam - D.lam) * (rho ^ D.cost.power - b) ≤
      num (computeDual ext { D with lam := lam } xi xl zeta zl) - num (computeDual ext D xi xl zeta zl) ∧
    num (computeDual ext { D with lam := lam } xi xl zeta zl) - num (computeDual ext D xi xl zeta zl) ≤
      (lam - D.lam) * (rho ^ D.cost.power - a) := by
  rw [num_plain ext h hr, num_plain ext (h.withLam lam) hr, robust, robust]
  simp only
  have h1 : avg (fun i => softmax D.epsilon fun j => L j i - D.lam * C j i) + -((lam - D.lam) * b) ≤
      avg (fun i => softmax D.epsilon fun j => L j i - lam * C j i) := by
    rw [← avg_add_const h.m_pos]
    refine avg_mono fun i => ?_
    rw [← softmax_add_const h.n_pos h.eps_pos]
    exact softmax_mono h.n_pos h.eps_pos fun j => by nlinarith [(hC j i).2]
  have h2 : avg (fun i => softmax D.epsilon fun j => L j i - lam * C j i) ≤
      avg (fun i => softmax D.epsilon fun j => L j i - D.lam * C j i) + -((lam - D.lam) * a) := by
    rw [← avg_add_const h.m_pos]
    refine avg_mono fun i => ?_
    rw [← softmax_add_const h.n_pos h.eps_pos]
    exact softmax_mono h.n_pos h.eps_pos fun j => by nlinarith [(hC j i).1]
  constructor <;> nlinarith

/-- **C111** Changing the radius: the robust loss moves by exactly the multiplier times the change of `rho^p`. -/
theorem C111_radius {r : ℝ} (h : Plain D xi xl zeta zl rho L C) (hr : D.reduction = .mean) (h0 : 0 < r) :
    num (computeDual ext { D with rho := .num r } xi xl zeta zl) - num (computeDual ext D xi xl zeta zl) =
      D.lam * (r ^ D.cost.power - rho ^ D.cost.power) := by
  have h' : Plain { D with rho := .num r } xi xl zeta zl r L C :=
    ⟨rfl, h0, h.eps_pos, h.erm, h.imp, h.n_pos, h.m_pos, h.samples, h.loss, h.cost⟩
  rw [num_plain ext h hr, num_plain ext h' hr, robust, robust]
  ring

end

/-- **C111** One data point more or less: replacing the data point `i₀` (its point, label and samples), where the penalised losses
`loss - lam*cost` of the old and new samples lie within an interval of length `w`, moves the robust loss by at most `w / m`. -/
theorem C111_one_point {n m d k s : ℕ} {w : WLoss} {D : DualLoss} {ell : (Fin d → ℝ) → (Fin k → ℝ) → Fin s → ℝ} {rho : ℝ}
    (h : Labelled w D ell rho) (hr : D.reduction = .mean) (hn : 0 < n) (hm : 0 < m) {x x' z z' y y' v v' : Tensor ℝ}
    {X X' : Fin m → Fin d → ℝ} {Z Z' : Fin n → Fin m → Fin d → ℝ} {Y Y' : Fin m → Fin k → ℝ} {V V' : Fin n → Fin m → Fin k → ℝ}
    (hx : IsMat x X) (hx' : IsMat x' X') (hz : IsTen z Z) (hz' : IsTen z' Z') (hy : IsMat y Y) (hy' : IsMat y' Y')
    (hv : IsTen v V) (hv' : IsTen v' V') (i₀ : Fin m)
    (hsame : ∀ i, i ≠ i₀ → X' i = X i ∧ Y' i = Y i ∧ ∀ j, Z' j i = Z j i ∧ V' j i = V j i) {a b : ℝ}
    (hold : ∀ j, lossAt w ell (Z j i₀) (V j i₀) - D.lam * costAt D.cost (X i₀) (Z j i₀) (Y i₀) (V j i₀) ∈ Set.Icc a b)
    (hnew : ∀ j, lossAt w ell (Z' j i₀) (V' j i₀) - D.lam * costAt D.cost (X' i₀) (Z' j i₀) (Y' i₀) (V' j i₀) ∈ Set.Icc a b) :
    |num (computeDual ext D x' (some y') z' (some v')) - num (computeDual ext D x (some y) z (some v))| ≤ (b - a) / m := by
  rw [num_plain ext (plain_of_labelled h hn hm hx hz hy hv) hr, num_plain ext (plain_of_labelled h hn hm hx' hz' hy' hv') hr]
  simp only [robust, add_sub_add_left_eq_sub, avg, ← sub_div, ← Finset.sum_sub_distrib]
  have hm' : (0 : ℝ) < m := by exact_mod_cast hm
  rw [Finset.sum_eq_single i₀ (fun i _ hi => by
    obtain ⟨e1, e2, e3⟩ := hsame i hi
    simp only [e1, e2, (e3 _).1, (e3 _).2, sub_self]) (fun h => absurd (Finset.mem_univ _) h), abs_div, abs_of_pos hm']
  refine div_le_div_of_nonneg_right ?_ hm'.le
  have lo : ∀ u : Fin n → ℝ, (∀ j, u j ∈ Set.Icc a b) → softmax D.epsilon u ∈ Set.Icc a b := by
    intro u hu
    refine ⟨?_, softmax_le_max hn h.eps_pos u fun j => (hu j).2⟩
    refine le_trans ?_ (avg_le_softmax hn h.eps_pos u)
    have hn' : (n : ℝ) ≠ 0 := by positivity
    have := avg_mono (f := fun _ : Fin n => a) fun j => (hu j).1
    simpa [avg, hn'] using this
  have h1 := lo _ hold
  have h2 := lo _ hnew
  rw [abs_le]
  constructor <;> linarith [h1.1, h1.2, h2.1, h2.2]

/-! ## C35: limits of the regularisation -/

open MeasureTheory ProbabilityTheory in
/-- Hoeffding's lemma for the uniform weights -/
theorem softmax_le_avg {n : ℕ} (hn : 0 < n) {eps a b : ℝ} (he : 0 < eps) (u : Fin n → ℝ) (hu : ∀ j, u j ∈ Set.Icc a b) :
    softmax eps u ≤ avg u + (b - a) ^ 2 / (8 * eps) := by
  have hne : Nonempty (Fin n) := ⟨⟨0, hn⟩⟩
  have hn' : (n : ℝ) ≠ 0 := by positivity
  let μ := (PMF.uniformOfFintype (Fin n)).toMeasure
  have hint : ∀ f : Fin n → ℝ, ∫ j, f j ∂μ = avg f := by
    intro f
    rw [PMF.integral_eq_sum]
    simp [avg, PMF.uniformOfFintype_apply, Finset.mul_sum, ENNReal.toReal_inv, div_eq_inv_mul]
  have hs := hasSubgaussianMGF_of_mem_Icc (μ := μ) (X := u) (a := a) (b := b) (measurable_of_countable u).aemeasurable
    (Filter.Eventually.of_forall hu)
  have h1 := hs.mgf_le (1 / eps)
  simp only [mgf, hint] at h1
  have hab : ((‖b - a‖₊ / 2 : NNReal) ^ 2 : NNReal) = (((b - a) / 2) ^ 2 : ℝ) := by
    push_cast; rw [Real.norm_eq_abs, div_pow, sq_abs, div_pow]
  rw [hab] at h1
  have h2 : softmax eps (fun j => u j + -avg u) ≤ (b - a) ^ 2 / (8 * eps) := by
    have hpos : 0 < avg (fun j => Real.exp ((u j + -avg u) / eps)) :=
      div_pos (Finset.sum_pos (fun _ _ => Real.exp_pos _) ⟨⟨0, hn⟩, Finset.mem_univ _⟩) (by positivity)
    have h3 : Real.log (avg (fun j => Real.exp ((u j + -avg u) / eps))) ≤ ((b - a) / 2) ^ 2 * (1 / eps) ^ 2 / 2 := by
      rw [Real.log_le_iff_le_exp hpos]
      refine le_trans (le_of_eq ?_) h1
      congr 1; funext j; congr 1; ring
    calc softmax eps _ ≤ eps * (((b - a) / 2) ^ 2 * (1 / eps) ^ 2 / 2) := mul_le_mul_of_nonneg_left h3 he.le
      _ = _ := by field_simp; ring
  rw [softmax_add_const hn he] at h2
  linarith

section
variable {n m : ℕ} {D : DualLoss} {xi zeta : Tensor ℝ} {xl zl : Option (Tensor ℝ)} {rho : ℝ} {L C : Fin n → Fin m → ℝ}

theorem Spec.Plain.withEps (h : Plain D xi xl zeta zl rho L C) {eps : ℝ} (he : 0 < eps) :
    Plain { D with epsilon := eps } xi xl zeta zl rho L C :=
  ⟨h.rho_eq, h.rho_pos, he, h.erm, h.imp, h.n_pos, h.m_pos, h.samples, h.loss, h.cost⟩

/-- **C35** If the penalised losses `L - lam*C` of the samples lie in an interval of length `b - a`, the robust loss exceeds
`lam * rho^p` plus their average by at most `(b - a)^2 / (8 eps)`. -/
theorem C35_near_average (h : Plain D xi xl zeta zl rho L C) (hr : D.reduction = .mean) {a b : ℝ}
    (hu : ∀ j i, L j i - D.lam * C j i ∈ Set.Icc a b) :
    num (computeDual ext D xi xl zeta zl) ≤ D.lam * rho ^ D.cost.power + avg (fun i => avg (fun j => L j i - D.lam * C j i)) +
      (b - a) ^ 2 / (8 * D.epsilon) := by
  rw [num_plain ext h hr, robust, add_assoc, ← avg_add_const h.m_pos]
  have := avg_mono fun i => softmax_le_avg h.n_pos h.eps_pos (fun j => L j i - D.lam * C j i) fun j => hu j i
  linarith

/-- **C35** Without a bound in sight: when the regularisation grows the robust loss tends to `lam * rho^p` plus the average over the samples,
when it vanishes to `lam * rho^p` plus the worst case over the samples of each data point. -/
theorem C35_limits (h : Plain D xi xl zeta zl rho L C) (hr : D.reduction = .mean) {M : Fin m → ℝ}
    (hM : ∀ i, IsGreatest (Set.range fun j => L j i - D.lam * C j i) (M i)) :
    Filter.Tendsto (fun eps => num (computeDual ext { D with epsilon := eps } xi xl zeta zl)) Filter.atTop
      (nhds (D.lam * rho ^ D.cost.power + avg (fun i => avg (fun j => L j i - D.lam * C j i)))) ∧
    Filter.Tendsto (fun eps => num (computeDual ext { D with epsilon := eps } xi xl zeta zl)) (nhdsWithin 0 (Set.Ioi 0))
      (nhds (D.lam * rho ^ D.cost.power + avg M)) := by
  have hne : Nonempty (Fin n × Fin m) := ⟨⟨⟨0, h.n_pos⟩, ⟨0, h.m_pos⟩⟩⟩
  obtain ⟨p, hp⟩ := Finite.exists_max fun p : Fin n × Fin m => L p.1 p.2 - D.lam * C p.1 p.2
  obtain ⟨q, hq⟩ := Finite.exists_min fun p : Fin n × Fin m => L p.1 p.2 - D.lam * C p.1 p.2
  set b := L p.1 p.2 - D.lam * C p.1 p.2
  set a := L q.1 q.2 - D.lam * C q.1 q.2
  constructor
  · set A := D.lam * rho ^ D.cost.power + avg (fun i => avg (fun j => L j i - D.lam * C j i)) with hA
    have hlim : Filter.Tendsto (fun eps : ℝ => A + (b - a) ^ 2 / (8 * eps)) Filter.atTop (nhds A) := by
      have h8 : Filter.Tendsto (fun eps : ℝ => 8 * eps) Filter.atTop Filter.atTop :=
        Filter.tendsto_id.const_mul_atTop (by norm_num)
      have := (h8.const_div_atTop ((b - a) ^ 2)).const_add A
      simpa using this
    refine tendsto_of_tendsto_of_tendsto_of_le_of_le' tendsto_const_nhds hlim ?_ ?_
    · filter_upwards [Filter.eventually_gt_atTop (0 : ℝ)] with eps he
      exact (C35_between ext (h.withEps he) hr hM).1
    · filter_upwards [Filter.eventually_gt_atTop (0 : ℝ)] with eps he
      exact C35_near_average ext (h.withEps he) hr fun j i => ⟨hq (j, i), hp (j, i)⟩
  · set A := D.lam * rho ^ D.cost.power + avg M with hA
    have hlim : Filter.Tendsto (fun eps : ℝ => A - eps * Real.log n) (nhdsWithin 0 (Set.Ioi 0)) (nhds A) := by
      have : Filter.Tendsto (fun eps : ℝ => A - eps * Real.log n) (nhds 0) (nhds (A - 0 * Real.log n)) :=
        ((continuous_const.sub (continuous_id.mul continuous_const)).tendsto _)
      rw [zero_mul, sub_zero] at this
      exact this.mono_left nhdsWithin_le_nhds
    refine tendsto_of_tendsto_of_tendsto_of_le_of_le' hlim tendsto_const_nhds ?_ ?_
    · filter_upwards [self_mem_nhdsWithin] with eps he
      exact (C35_between ext (h.withEps he) hr hM).2.2
    · filter_upwards [self_mem_nhdsWithin] with eps he
      exact (C35_between ext (h.withEps he) hr hM).2.1

end

/-! ## C112 -/

section
variable {n m : ℕ} {D D' : DualLoss} {xi zeta : Tensor ℝ} {xl zl : Option (Tensor ℝ)} {rho : ℝ} {L C : Fin n → Fin m → ℝ}

theorem softmax_smul {eps c : ℝ} (hc : c ≠ 0) (u : Fin n → ℝ) : softmax (c * eps) (fun j => c * u j) = c * softmax eps u := by
  simp only [softmax, mul_div_mul_left _ _ hc, mul_assoc]

/-- **C112** Units of the loss: measuring the loss in another unit (`c` times the loss), with the multiplier and the regularisation expressed
in that unit, gives the robust loss in that unit. -/
theorem C112_loss_units {c : ℝ} (hc : 0 < c) (h : Plain D xi xl zeta zl rho L C)
    (h' : Plain D' xi xl zeta zl rho (fun j i => c * L j i) C) (hr : D.reduction = .mean) (hr' : D'.reduction = .mean)
    (hlam : D'.lam = c * D.lam) (heps : D'.epsilon = c * D.epsilon) (hcost : D'.cost = D.cost) :
    num (computeDual ext D' xi xl zeta zl) = c * num (computeDual ext D xi xl zeta zl) := by
  rw [num_plain ext h hr, num_plain ext h' hr', robust, robust, hlam, heps, hcost]
  have : ∀ i, softmax (c * D.epsilon) (fun j => c * L j i - c * D.lam * C j i) =
      c * softmax D.epsilon (fun j => L j i - D.lam * C j i) := fun i => by
    rw [← softmax_smul hc.ne']; congr 1; funext j; ring
  simp only [this, avg, ← Finset.mul_sum]
  ring

end

theorem pnorm_units {d : ℕ} {p : XNum ℝ} (hp : NormOrder p) {t : ℝ} (ht : 0 < t) (v : Fin d → ℝ) :
    pnorm p (fun i => t * v i) = t * pnorm p v := by
  rcases hp with ⟨q, hq, rfl⟩ | rfl
  · have hq0 : q ≠ 0 := by linarith
    simp only [pnorm, abs_mul, abs_of_pos ht]
    have : ∀ i, (t * |v i|) ^ q = t ^ q * |v i| ^ q := fun i => Real.mul_rpow ht.le (abs_nonneg _)
    simp only [this, ← Finset.mul_sum]
    rw [Real.mul_rpow (by positivity) (Finset.sum_nonneg fun i _ => by positivity), ← Real.rpow_mul ht.le, mul_one_div_cancel hq0,
      Real.rpow_one]
  · simp only [pnorm, abs_mul, abs_of_pos ht]
    exact (Real.mul_iSup_of_nonneg ht.le _).symm

/-- **C112** The ground costs are homogeneous: multiplying inputs and labels by `t > 0` multiplies the cost by `t^power`. -/
theorem C112_cost_units {c : CostR} (hc : GoodCost c) {d k : ℕ} {t : ℝ} (ht : 0 < t) (x z : Fin d → ℝ) (y y' : Fin k → ℝ) :
    costAt c (fun i => t * x i) (fun i => t * z i) (fun i => t * y i) (fun i => t * y' i) = t ^ c.power * costAt c x z y y' := by
  have hn : ∀ {e : ℕ} (a b : Fin e → ℝ), pnorm c.p (fun i => t * a i - t * b i) = t * pnorm c.p (fun i => a i - b i) := by
    intro e a b
    rw [← pnorm_units hc.order ht]; simp only [mul_sub]
  cases hk : c.kind with
  | normCost =>
    rw [C04_point_formula c hk hc.order, C04_point_formula c hk hc.order, hn, Real.mul_rpow ht.le (pnorm_nonneg _ _)]
  | normLabelCost =>
    rcases hc.weight hk with ⟨κ, h0, hκ⟩ | hκ
    · rw [(C05_point_formula c hk hc.order _ _ _ _).1 κ h0 hκ, (C05_point_formula c hk hc.order _ _ _ _).1 κ h0 hκ, hn, hn,
        ← Real.mul_rpow ht.le (div_nonneg (add_nonneg (pnorm_nonneg _ _) (mul_nonneg h0 (pnorm_nonneg _ _))) (by linarith))]
      congr 1
      ring
    · rw [(C05_point_formula c hk hc.order _ _ _ _).2 hκ, (C05_point_formula c hk hc.order _ _ _ _).2 hκ, hn,
        Real.mul_rpow ht.le (pnorm_nonneg _ _)]

/-- **C112** Units of the data: measuring inputs, labels and the radius in another unit (multiplying them, and the samples, by `t > 0`), with a
model that gives the same losses in the new unit and the multiplier divided by `t^power`, leaves the robust loss unchanged. -/
theorem C112_data_units {n m d k s : ℕ} {w w' : WLoss} {D D' : DualLoss} {ell ell' : (Fin d → ℝ) → (Fin k → ℝ) → Fin s → ℝ} {rho t : ℝ}
    (ht : 0 < t) (h : Labelled w D ell rho) (h' : Labelled w' D' ell' (t * rho)) (hr : D.reduction = .mean) (hr' : D'.reduction = .mean)
    (hcost : D'.cost = D.cost) (heps : D'.epsilon = D.epsilon) (hlam : D'.lam = D.lam / t ^ D.cost.power)
    (hloss : ∀ x y, lossAt w' ell' (fun i => t * x i) (fun i => t * y i) = lossAt w ell x y) (hn : 0 < n) (hm : 0 < m)
    (X : Fin m → Fin d → ℝ) (Z : Fin n → Fin m → Fin d → ℝ) (Y : Fin m → Fin k → ℝ) (V : Fin n → Fin m → Fin k → ℝ) :
    num (computeDual ext D' (mat fun i l => t * X i l) (some (mat fun i l => t * Y i l)) (ten fun j i l => t * Z j i l)
      (some (ten fun j i l => t * V j i l))) =
    num (computeDual ext D (mat X) (some (mat Y)) (ten Z) (some (ten V))) := by
  rw [num_plain ext (plain_of_labelled h hn hm (isMat_mat X) (isTen_ten Z) (isMat_mat Y) (isTen_ten V)) hr,
    num_plain ext (plain_of_labelled h' hn hm (isMat_mat fun i l => t * X i l) (isTen_ten fun j i l => t * Z j i l)
      (isMat_mat fun i l => t * Y i l) (isTen_ten fun j i l => t * V j i l)) hr', robust, robust, hcost, heps, hlam]
  have htp : t ^ D.cost.power ≠ 0 := (Real.rpow_pos_of_pos ht _).ne'
  simp only [C112_cost_units h.cost ht, hloss]
  have e1 : D.lam / t ^ D.cost.power * (t * rho) ^ D.cost.power = D.lam * rho ^ D.cost.power := by
    rw [Real.mul_rpow ht.le h.rho_pos.le]; field_simp
  have e2 : ∀ c, D.lam / t ^ D.cost.power * (t ^ D.cost.power * c) = D.lam * c := fun c => by field_simp
  simp only [e1, e2]

/-! The default noise scale and regularisation in other units -/

/-- **C112** (partial: see `C112_default_false`) The default noise scale is in the unit of the data.  The default regularisation is that of a loss
independent of the unit of the data for costs of power 1 only: in general it is multiplied by `t^(p-1)`, up to its floor of `1e-7`. -/
theorem C112_defaults_partial {rho t : ℝ} (ht : 0 < t) (hrho : 0 < rho) (p sf ef : ℝ) :
    expertSigma (.num (t * rho)) none sf = t * expertSigma (.num rho) none sf ∧
    expertEpsilon (.num (t * rho)) 1 none ef sf = expertEpsilon (.num rho) 1 none ef sf ∧
    expertEpsilon (.num (t * rho)) p none ef sf =
      some (max (t ^ (p - 1) * (ef * sf ^ p * rho ^ (p - 1))) (1 / 10 ^ 7)) := by
  refine ⟨?_, ?_, ?_⟩
  · simp [expertSigma, hrho, mul_pos ht hrho, mul_assoc]
  · simp [expertEpsilon]
  · simp only [expertEpsilon]
    rw [Real.mul_rpow ht.le hrho.le]
    congr 2; ring

/-- the default regularisation for radius `rho` and cost power 2 -/
noncomputable def exDefEps (rho : ℝ) : ℝ := (expertEpsilon (.num rho) 2 none EPSILON_SIGMA_FACTOR SIGMA_FACTOR).getD 0

theorem exDefEps_one : exDefEps 1 = 1 / 400 := by
  norm_num [exDefEps, expertEpsilon, EPSILON_SIGMA_FACTOR, SIGMA_FACTOR]
theorem exDefEps_two : exDefEps 2 = 1 / 200 := by
  norm_num [exDefEps, expertEpsilon, EPSILON_SIGMA_FACTOR, SIGMA_FACTOR]

/-- a model whose predictions are already in the unit of the labels, divided out: its loss does not depend on the unit -/
noncomputable def exUnitW (t : ℝ) : WLoss := ⟨true, true, fun x y => (sqErr x y).map (Tensor.map (· / t ^ 2)), none, []⟩

noncomputable def exUnitD (t rho lam eps : ℝ) : DualLoss :=
  { exD with primal := (exUnitW t).value, rho := .num rho, lam := lam, epsilon := eps }

theorem exUnit_labelled {t rho lam eps : ℝ} (hr : 0 < rho) (he : 0 < eps) :
    Labelled (d := 1) (k := 1) (s := 1) (exUnitW t) (exUnitD t rho lam eps) (fun x y c => (x c - y c) ^ 2 / t ^ 2) rho where
  primal := rfl
  hasLabels := rfl
  reduceSpatial := rfl
  s_pos := by norm_num
  rows := by
    intro N x y X Y hx hy
    obtain ⟨v, hv, hV⟩ := sqErr_rowWise N x y X Y hx hy
    exact ⟨v.map (· / t ^ 2), by simp [exUnitW, hv, Except.map], hV.1, fun i k => by simp only [Tensor.map, hV.2]⟩
  cost := exD_labelled.cost
  rho_eq := rfl
  rho_pos := hr
  eps_pos := he
  erm := rfl
  imp := rfl

theorem exUnit_loss {t : ℝ} (ht : 0 < t) (x y : Fin 1 → ℝ) :
    lossAt (exUnitW t) (fun (x y : Fin 1 → ℝ) (c : Fin 1) => (x c - y c) ^ 2 / t ^ 2) (fun i => t * x i) (fun i => t * y i) =
      lossAt (exUnitW 1) (fun (x y : Fin 1 → ℝ) (c : Fin 1) => (x c - y c) ^ 2 / 1 ^ 2) x y := by
  simp only [lossAt, exUnitW, ridge, avg, Finset.univ_unique, Finset.sum_singleton]
  have : (t * x default - t * y default) ^ 2 / t ^ 2 = (x default - y default) ^ 2 := by
    rw [← mul_sub, mul_pow]; field_simp
  rw [this]; norm_num

/-- centimetres instead of half-centimetres -/
example (X Y : Fin 2 → Fin 1 → ℝ) (Z V : Fin 3 → Fin 2 → Fin 1 → ℝ) :=
  C112_data_units ext (t := 2) two_pos (exUnit_labelled (t := 1) (rho := 1) (lam := 3) (eps := 1) one_pos one_pos)
    (exUnit_labelled (t := 2) (rho := 2 * 1) (lam := 3 / 2 ^ exD.cost.power) (eps := 1) (by norm_num) one_pos) rfl rfl rfl rfl rfl
    (exUnit_loss two_pos) (n := 3) (m := 2) (by norm_num) (by norm_num) X Z Y V

/-- one data point at the origin and its label, with a sample there and one at distance one -/
noncomputable def exUnitX : Fin 1 → Fin 1 → ℝ := fun _ _ => 0
noncomputable def exUnitZ : Fin 2 → Fin 1 → Fin 1 → ℝ := fun j _ _ => j

/-- **C112** (violated by the default regularisation) Same data, radius and model in a unit half as large, same loss, everything else left to
its default: the robust loss is another function of the multiplier (here it is smaller, for every positive multiplier). -/
theorem C112_default_false {lam : ℝ} (hl : 0 < lam) :
    num (computeDual ext (exUnitD 2 (2 * 1) (lam / 2 ^ exD.cost.power) (exDefEps (2 * 1))) (mat fun i l => 2 * exUnitX i l)
      (some (mat fun i l => 2 * exUnitX i l)) (ten fun j i l => 2 * exUnitZ j i l) (some (ten fun j i l => 2 * exUnitZ j i l))) <
    num (computeDual ext (exUnitD 1 1 lam (exDefEps 1)) (mat exUnitX) (some (mat exUnitX)) (ten exUnitZ) (some (ten exUnitZ))) := by
  have e2 : exDefEps (2 * 1) = 1 / 200 := by rw [mul_one]; exact exDefEps_two
  rw [e2, exDefEps_one, C112_data_units ext (t := 2) two_pos (exUnit_labelled (t := 1) (rho := 1) (lam := lam) (eps := 1 / 200) one_pos
    (by norm_num)) (exUnit_labelled (t := 2) (rho := 2 * 1) (lam := lam / 2 ^ exD.cost.power) (eps := 1 / 200) (by norm_num) (by norm_num))
    rfl rfl rfl rfl rfl (exUnit_loss two_pos) (by norm_num) (by norm_num)]
  have hp : ∀ eps : ℝ, 0 < eps → num (computeDual ext (exUnitD 1 1 lam eps) (mat exUnitX) (some (mat exUnitX)) (ten exUnitZ)
      (some (ten exUnitZ))) = lam + eps * Real.log ((1 + Real.exp (-lam / eps)) / 2) := by
    intro eps he
    rw [num_plain ext (plain_of_labelled (exUnit_labelled (t := 1) one_pos he) (by norm_num) (by norm_num) (isMat_mat exUnitX)
      (isTen_ten exUnitZ) (isMat_mat exUnitX) (isTen_ten exUnitZ)) rfl]
    have hc : (exUnitD 1 1 lam eps).cost = exD.cost := rfl
    have hcost : ∀ j i, costAt (exUnitD 1 1 lam eps).cost (exUnitX i) (exUnitZ j i) (exUnitX i) (exUnitZ j i) = (j : ℝ) ^ 2 := by
      intro j i
      rw [hc, exCost_eq]
      simp [exUnitX, exUnitZ]
    have hloss : ∀ j i, lossAt (exUnitW 1) (fun (x y : Fin 1 → ℝ) (c : Fin 1) => (x c - y c) ^ 2 / 1 ^ 2) (exUnitZ j i) (exUnitZ j i) = 0 := by
      intro j i
      simp [lossAt, exUnitW, ridge, avg]
    simp only [robust, softmax, hcost, hloss, avg, Fin.sum_univ_two, Finset.univ_unique, Finset.sum_singleton]
    simp [exUnitD, neg_div]
  rw [hp _ (by norm_num), hp _ (by norm_num)]
  set a := Real.exp (-lam / (1 / 200)) with ha
  have ha1 : a < 1 := by rw [ha, Real.exp_lt_one_iff]; norm_num; linarith
  have ha0 : 0 < a := Real.exp_pos _
  have hb : Real.exp (-lam / (1 / 400)) = a ^ 2 := by rw [ha, ← Real.exp_nat_mul]; congr 1; push_cast; ring
  rw [hb]
  have h1 : Real.log (((1 + a) / 2) ^ 2) < Real.log ((1 + a ^ 2) / 2) := by
    apply Real.log_lt_log (by positivity)
    nlinarith [sq_pos_of_pos (sub_pos.2 ha1)]
  rw [Real.log_pow] at h1
  push_cast at h1
  linarith

/-! The hypotheses of C111, C35 and of the unit of the loss are met by two data points with three samples each. -/

theorem exUnit_plain {t rho lam eps : ℝ} (hr : 0 < rho) (he : 0 < eps) :
    Plain (exUnitD t rho lam eps) (mat exX) (some (mat exX)) (ten exZ) (some (ten fun j i l => exZ j i l + 1)) rho
      (fun _ _ => 1 / t ^ 2) (fun j i => costAt exD.cost (exX i) (exZ j i) (exX i) (fun l => exZ j i l + 1)) := by
  have := plain_of_labelled (exUnit_labelled (t := t) (lam := lam) hr he) (n := 3) (m := 2) (by norm_num) (by norm_num) (isMat_mat exX)
    (isTen_ten exZ) (isMat_mat exX) (isTen_ten fun j i l => exZ j i l + 1)
  have e : ∀ j i, lossAt (exUnitW t) (fun (x y : Fin 1 → ℝ) (c : Fin 1) => (x c - y c) ^ 2 / t ^ 2) (exZ j i) (fun l => exZ j i l + 1) =
      1 / t ^ 2 := by
    intro j i
    simp [lossAt, exUnitW, ridge, avg]
  simp only [e] at this
  exact this

example := C111_loss ext (δ := 1) (exUnit_plain (t := 1) (rho := 1) (lam := 3) (eps := 2) one_pos two_pos)
  (exUnit_plain (t := 2) (rho := 1) (lam := 3) (eps := 2) one_pos two_pos) rfl rfl rfl rfl rfl (fun _ _ => by norm_num [abs_le])
example := C112_loss_units ext (c := 1 / 4) (by norm_num) (exUnit_plain (t := 1) (rho := 1) (lam := 4) (eps := 8) one_pos (by norm_num))
  (D' := exUnitD 2 1 1 2) (by have := exUnit_plain (t := 2) (rho := 1) (lam := 1) (eps := 2) one_pos two_pos; norm_num at this ⊢; exact this)
  rfl rfl (by norm_num [exUnitD]) (by norm_num [exUnitD]) rfl
example : ∃ a b, ∀ (j : Fin 3) (i : Fin 2), a ≤ costAt exD.cost (exX i) (exZ j i) (exX i) (exZ j i) ∧
    costAt exD.cost (exX i) (exZ j i) (exX i) (exZ j i) ≤ b := by
  refine ⟨0, 4, fun j i => ?_⟩
  rw [exCost_eq]
  have : ((j : ℕ) : ℝ) ≤ 2 := by exact_mod_cast Nat.lt_succ_iff.1 j.2
  have h0 : (0 : ℝ) ≤ (j : ℕ) := Nat.cast_nonneg _
  simp only [exX, exZ]
  constructor <;> nlinarith
example := C111_radius ext (r := 2) exD_plain rfl two_pos
example : ∃ M : Fin 2 → ℝ, ∀ i, IsGreatest (Set.range fun j => lossAt exW (fun (x y : Fin 1 → ℝ) (c : Fin 1) => (x c - y c) ^ 2) (exZ j i) (exZ j i)
    - exD.lam * costAt exD.cost (exX i) (exZ j i) (exX i) (exZ j i)) (M i) :=
  ⟨_, fun i => (plain_max exD_plain i).choose_spec⟩
example := C35_limits ext exD_plain rfl (M := _) fun i => (plain_max exD_plain i).choose_spec

/-- moving the second data point and its samples by 7: the penalised losses stay within -100 and 100 -/
example : |num (computeDual ext exD (mat fun i l => if i = 1 then exX i l + 7 else exX i l) (some (mat exX))
      (ten fun j i l => if i = 1 then exX i l else exZ j i l) (some (ten exZ))) -
    num (computeDual ext exD (mat exX) (some (mat exX)) (ten exZ) (some (ten exZ)))| ≤ (100 - (-100)) / (2 : ℕ) := by
  refine C111_one_point ext exD_labelled rfl (n := 3) (m := 2) (by norm_num) (by norm_num) (isMat_mat exX)
    (isMat_mat fun i l => if i = 1 then exX i l + 7 else exX i l) (isTen_ten exZ) (isTen_ten fun j i l => if i = 1 then exX i l else exZ j i l)
    (isMat_mat exX) (isMat_mat exX) (isTen_ten exZ) (isTen_ten exZ) 1 (fun i hi => by simp [hi]) (fun j => ?_) (fun j => ?_)
  all_goals
    have h2 : ((j : ℕ) : ℝ) ≤ 2 := by exact_mod_cast Nat.lt_succ_iff.1 j.2
    have h0 : (0 : ℝ) ≤ (j : ℕ) := Nat.cast_nonneg _
    simp only [lossAt, exW, ridge, avg]
    rw [(C05_point_formula exD.cost rfl (Or.inl ⟨2, by norm_num, rfl⟩) _ _ _ _).1 1 (by norm_num) rfl]
    simp only [exD, pnorm, Fin.sum_univ_one, Fin.isValue, exX, exZ, if_true, ← Real.sqrt_eq_rpow, Real.rpow_two, Real.sqrt_sq_eq_abs, abs_abs]
    norm_num [abs_of_nonneg h0]
    constructor <;> nlinarith

end Skwdro
