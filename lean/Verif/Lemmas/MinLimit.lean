import Mathlib.Topology.MetricSpace.ProperSpace
import Mathlib.Topology.Algebra.Order.LiminfLimsup
import Mathlib.Topology.Order.OrderClosed
import Mathlib.Data.Real.Archimedean
import Mathlib.Topology.Instances.Real.Lemmas
import Mathlib.Tactic.Linarith
import Mathlib.Tactic.Positivity
import Mathlib.Tactic.FieldSimp
import Mathlib.Tactic.Ring

/-! Minimisers of functions that converge: equi-Lipschitz functions converging on a dense set converge uniformly on bounded sets, and the
values of their bounded minimisers converge to the infimum of the limit. -/

namespace Skwdro
open Filter Topology Metric

variable {E : Type} [PseudoMetricSpace E] [ProperSpace E] {F : ℕ → E → ℝ} {f : E → ℝ} {K : ℝ} {D : Set E}

/-- convergence on a dense set is uniform on balls, for functions with the same Lipschitz constant -/
theorem uniform_of_dense (hK : 0 ≤ K) (hF : ∀ᶠ n in atTop, ∀ x y, |F n x - F n y| ≤ K * dist x y) (hf : ∀ x y, |f x - f y| ≤ K * dist x y)
    (hD : Dense D) (hp : ∀ q ∈ D, Tendsto (fun n => F n q) atTop (𝓝 (f q))) (x0 : E) (R : ℝ) {δ : ℝ} (hδ : 0 < δ) :
    ∀ᶠ n in atTop, ∀ x ∈ closedBall x0 R, |F n x - f x| ≤ δ := by
  set r : ℝ := δ / (4 * (K + 1)) with hr
  have hr0 : 0 < r := by positivity
  have hcov : closedBall x0 R ⊆ ⋃ q ∈ D, ball q r := by
    intro x _
    obtain ⟨q, hq, hxq⟩ := hD.exists_dist_lt x hr0
    exact Set.mem_biUnion hq (by rwa [mem_ball])
  obtain ⟨T, hTD, hTf, hT⟩ := (isCompact_closedBall x0 R).elim_finite_subcover_image (fun q _ => isOpen_ball) hcov
  have hall : ∀ᶠ n in atTop, ∀ q ∈ T, |F n q - f q| ≤ δ / 4 := by
    rw [eventually_all_finite hTf]
    intro q hq
    have := (Metric.tendsto_atTop.1 (hp q (hTD hq))) (δ / 4) (by positivity)
    obtain ⟨N, hN⟩ := this
    filter_upwards [eventually_ge_atTop N] with n hn
    exact (hN n hn).le
  filter_upwards [hall, hF] with n h1 h2 x hx
  obtain ⟨q, hq, hxq⟩ := Set.mem_iUnion₂.1 (hT hx)
  have hxq : dist x q ≤ r := (mem_ball.1 hxq).le
  have hKr : K * dist x q ≤ δ / 4 := by
    calc K * dist x q ≤ (K + 1) * r := mul_le_mul (by linarith) hxq dist_nonneg (by linarith)
      _ = δ / 4 := by rw [hr]; field_simp
  have a1 := abs_le.1 (h2 x q)
  have a2 := abs_le.1 (hf x q)
  have a3 := abs_le.1 (h1 q hq)
  exact abs_le.2 ⟨by linarith [a1.1, a2.2, a3.1], by linarith [a1.2, a2.1, a3.2]⟩

/-- minimisers over `S` that stay bounded: the limit function at them, and the values they reach, converge to the infimum over `S` -/
theorem minimisers_converge (hK : 0 ≤ K) (hF : ∀ᶠ n in atTop, ∀ x y, |F n x - F n y| ≤ K * dist x y)
    (hf : ∀ x y, |f x - f y| ≤ K * dist x y) (hD : Dense D) (hp : ∀ q ∈ D, Tendsto (fun n => F n q) atTop (𝓝 (f q)))
    {S : Set E} (hS : S.Nonempty) (hb : BddBelow (f '' S)) {x : ℕ → E} (hx : ∀ᶠ n in atTop, x n ∈ S ∧ ∀ y ∈ S, F n (x n) ≤ F n y)
    {x0 : E} {R : ℝ} (hR : ∀ᶠ n in atTop, dist (x n) x0 ≤ R) :
    Tendsto (fun n => f (x n)) atTop (𝓝 (sInf (f '' S))) ∧ Tendsto (fun n => F n (x n)) atTop (𝓝 (sInf (f '' S))) := by
  have key : ∀ δ : ℝ, 0 < δ → ∀ᶠ n in atTop, |f (x n) - sInf (f '' S)| ≤ 3 * δ ∧ |F n (x n) - sInf (f '' S)| ≤ 3 * δ := by
    intro δ hδ
    obtain ⟨_, ⟨y, hy, rfl⟩, hyV⟩ := exists_lt_of_csInf_lt (hS.image f) (lt_add_of_pos_right (sInf (f '' S)) hδ)
    filter_upwards [uniform_of_dense hK hF hf hD hp x0 R hδ, uniform_of_dense hK hF hf hD hp y 0 hδ, hx, hR] with n h1 h2 h3 h4
    have a1 := abs_le.1 (h1 (x n) (mem_closedBall.2 h4))
    have a2 := abs_le.1 (h2 y (by simp))
    have a3 := h3.2 y hy
    have a4 : sInf (f '' S) ≤ f (x n) := csInf_le hb ⟨_, h3.1, rfl⟩
    refine ⟨abs_le.2 ⟨by linarith, by linarith [a1.1, a2.2]⟩, abs_le.2 ⟨by linarith [a1.1], by linarith [a2.2]⟩⟩
  constructor <;>
  · rw [Metric.tendsto_atTop]
    intro ε hε
    obtain ⟨N, hN⟩ := eventually_atTop.1 (key (ε / 4) (by positivity))
    refine ⟨N, fun n hn => ?_⟩
    rw [Real.dist_eq]
    first
      | exact lt_of_le_of_lt (hN n hn).1 (by linarith)
      | exact lt_of_le_of_lt (hN n hn).2 (by linarith)

end Skwdro
