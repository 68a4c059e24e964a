import Verif.Lemmas.Wasserstein
import Verif.Spec.Distance
import Mathlib.Analysis.Convex.Slope

/-!
# Strong duality of transport
-/

namespace Skwdro
open Spec MeasureTheory

variable {E : Type} [MeasurableSpace E] {n : ℕ} {c l : Fin n → E → ℝ}

theorem planLosses_mono {r r' : ℝ} (h : r ≤ r') : PlanLosses c l r ⊆ PlanLosses c l r' := by
  rintro v ⟨π, h1, h2, h3, h4, h5, rfl⟩
  exact ⟨π, h1, h2, h3, h4, h5.trans h, rfl⟩

theorem planLosses_point [MeasurableSingletonClass E] (hn : 0 < n) (z : Fin n → E) {r : ℝ} (hr : avg (fun i => c i (z i)) ≤ r) :
    avg (fun i => l i (z i)) ∈ PlanLosses c l r := by
  have hw : ∀ (i : Fin n) (j : Fin 1), (0 : ℝ) ≤ (fun _ _ => 1 / (n : ℝ) : Fin n → Fin 1 → ℝ) i j := fun i j => by positivity
  obtain ⟨h1, h2⟩ := finPlan_marginal (w := fun _ (_ : Fin 1) => 1 / (n : ℝ)) hn hw (fun i => by simp) (fun i _ => z i)
  have h3 := finPlan_integral hw (fun i _ => z i) (fun p => c p.1 p.2)
  have h4 := finPlan_integral hw (fun i _ => z i) (fun p => l p.1 p.2)
  have e : ∀ f : Fin n → ℝ, ∑ i, ∑ _j : Fin 1, 1 / (n : ℝ) * f i = avg f := by
    intro f
    simp only [Finset.univ_unique, Finset.sum_const, Finset.card_singleton, one_smul, avg, ← Finset.mul_sum]
    ring
  refine ⟨_, h1, h2, h3.1, h4.1, ?_, ?_⟩
  · rw [h3.2, e fun i => c i (z i)]
    exact hr
  · rw [h4.2, e fun i => l i (z i)]

/-- mixtures of plans -/
theorem planLosses_mix {r r' a b t : ℝ} (ht : 0 ≤ t) (ht' : t ≤ 1) (ha : a ∈ PlanLosses c l r) (hb : b ∈ PlanLosses c l r') :
    t * a + (1 - t) * b ∈ PlanLosses c l (t * r + (1 - t) * r') := by
  obtain ⟨π, h1, h2, h3, h4, h5, rfl⟩ := ha
  obtain ⟨π', h1', h2', h3', h4', h5', rfl⟩ := hb
  have hs : 0 ≤ 1 - t := by linarith
  have hint : ∀ f : Fin n × E → ℝ, Integrable f π → Integrable f π' →
      Integrable f (ENNReal.ofReal t • π + ENNReal.ofReal (1 - t) • π') ∧
      ∫ p, f p ∂(ENNReal.ofReal t • π + ENNReal.ofReal (1 - t) • π') = t * ∫ p, f p ∂π + (1 - t) * ∫ p, f p ∂π' := by
    intro f hf hf'
    have g := hf.smul_measure (c := ENNReal.ofReal t) ENNReal.ofReal_ne_top
    have g' := hf'.smul_measure (c := ENNReal.ofReal (1 - t)) ENNReal.ofReal_ne_top
    refine ⟨g.add_measure g', ?_⟩
    rw [integral_add_measure g g', integral_smul_measure, integral_smul_measure, ENNReal.toReal_ofReal ht, ENNReal.toReal_ofReal hs]
    rfl
  have hreal : ∀ A : Set (Fin n × E), (ENNReal.ofReal t • π + ENNReal.ofReal (1 - t) • π').real A = t * π.real A + (1 - t) * π'.real A := by
    intro A
    simp only [measureReal_def, Measure.add_apply, Measure.smul_apply, smul_eq_mul]
    rw [ENNReal.toReal_add (ENNReal.mul_ne_top ENNReal.ofReal_ne_top (measure_ne_top _ _)) (ENNReal.mul_ne_top ENNReal.ofReal_ne_top (measure_ne_top _ _)),
      ENNReal.toReal_mul, ENNReal.toReal_mul, ENNReal.toReal_ofReal ht, ENNReal.toReal_ofReal hs]
  refine ⟨ENNReal.ofReal t • π + ENNReal.ofReal (1 - t) • π', ⟨?_⟩, fun i => ?_, (hint _ h3 h3').1, (hint _ h4 h4').1, ?_, ?_⟩
  · simp only [Measure.add_apply, Measure.smul_apply, smul_eq_mul, measure_univ, mul_one]
    rw [← ENNReal.ofReal_add ht hs]
    simp
  · rw [hreal, h2, h2']
    ring
  · rw [(hint _ h3 h3').2]
    exact add_le_add (mul_le_mul_of_nonneg_left h5 ht) (mul_le_mul_of_nonneg_left h5' hs)
  · rw [(hint _ h4 h4').2]

theorem planLosses_le {lam r : ℝ} (hlam : 0 ≤ lam) {S : Fin n → ℝ} (hS : ∀ i x, l i x - lam * c i x ≤ S i) {v : ℝ} (hv : v ∈ PlanLosses c l r) :
    v ≤ lam * r + avg S := by
  obtain ⟨π, h1, h2, h3, h4, h5, rfl⟩ := hv
  obtain ⟨hsi, hsv⟩ := integral_fst h2 S
  have hle : ∫ p, l p.1 p.2 ∂π ≤ ∫ p, (lam * c p.1 p.2 + S p.1) ∂π := by
    refine integral_mono h4 ((h3.const_mul _).add hsi) fun p => ?_
    have := hS p.1 p.2
    dsimp only
    linarith
  rw [integral_add (h3.const_mul _) hsi, integral_const_mul, hsv] at hle
  have := mul_le_mul_of_nonneg_left h5 hlam
  linarith

/-- a concave increasing function has a non-negative slope at every interior point -/
theorem slope_exists {v : ℝ → ℝ} (hv : ConcaveOn ℝ (Set.Ici 0) v) (hmono : MonotoneOn v (Set.Ici 0)) {r0 : ℝ} (h0 : 0 < r0) :
    ∃ lam, 0 ≤ lam ∧ ∀ r, 0 ≤ r → v r ≤ v r0 + lam * (r - r0) := by
  have hslope : ∀ a b, 0 ≤ a → a < r0 → r0 < b → (v b - v r0) / (b - r0) ≤ (v r0 - v a) / (r0 - a) := fun a b ha h1 h2 =>
    hv.slope_anti_adjacent (Set.mem_Ici.2 ha) (Set.mem_Ici.2 (by linarith)) h1 h2
  set A : Set ℝ := {q | ∃ b, r0 < b ∧ q = (v b - v r0) / (b - r0)} with hA
  have hne : A.Nonempty := ⟨_, r0 + 1, by linarith, rfl⟩
  have hbd : BddAbove A := ⟨(v r0 - v 0) / (r0 - 0), by rintro _ ⟨b, hb, rfl⟩; exact hslope 0 b le_rfl h0 hb⟩
  refine ⟨sSup A, ?_, fun r hr => ?_⟩
  · refine le_trans ?_ (le_csSup hbd ⟨r0 + 1, by linarith, rfl⟩)
    exact div_nonneg (sub_nonneg.2 (hmono (Set.mem_Ici.2 h0.le) (Set.mem_Ici.2 (by linarith)) (by linarith))) (by linarith)
  · rcases lt_trichotomy r r0 with h | h | h
    · have h1 : sSup A ≤ (v r0 - v r) / (r0 - r) := csSup_le hne (by rintro _ ⟨b, hb, rfl⟩; exact hslope r b hr h hb)
      rw [le_div_iff₀ (by linarith)] at h1
      linarith
    · subst h
      simp
    · have h1 := le_csSup hbd ⟨r, h, rfl⟩
      rw [div_le_iff₀ (by linarith)] at h1
      linarith

/-- **Strong duality**: there is a multiplier at which the bound of `planLosses_le` is the least upper bound -/
theorem transport_duality [MeasurableSingletonClass E] (hn : 0 < n) {r : ℝ} (hr : 0 < r) (x : Fin n → E) (hx : ∀ i, c i (x i) = 0) (hc : ∀ i e, 0 ≤ c i e)
    (hb : ∃ lam0, 0 ≤ lam0 ∧ ∀ i, BddAbove (Set.range fun e => l i e - lam0 * c i e)) :
    ∃ lam, 0 ≤ lam ∧ (∀ i, BddAbove (Set.range fun e => l i e - lam * c i e)) ∧
      IsLUB (PlanLosses c l r) (lam * r + avg fun i => sSup (Set.range fun e => l i e - lam * c i e)) := by
  obtain ⟨lam0, hl0, hb0⟩ := hb
  have hS0 : ∀ i e, l i e - lam0 * c i e ≤ sSup (Set.range fun e => l i e - lam0 * c i e) := fun i e => le_csSup (hb0 i) ⟨e, rfl⟩
  have hbdd : ∀ q, BddAbove (PlanLosses c l q) := fun q => ⟨_, fun v hv => planLosses_le hl0 hS0 hv⟩
  have hne : ∀ q, 0 ≤ q → (PlanLosses c l q).Nonempty := fun q hq => ⟨_, planLosses_point hn x (by simpa [hx, avg] using hq)⟩
  set V : ℝ → ℝ := fun q => sSup (PlanLosses c l q) with hV
  have hmono : MonotoneOn V (Set.Ici 0) := fun a ha b _ hab => csSup_le_csSup (hbdd b) (hne a ha) (planLosses_mono hab)
  have hconc : ConcaveOn ℝ (Set.Ici 0) V := by
    refine ⟨convex_Ici 0, fun a ha b hb t s ht hs hts => ?_⟩
    have hs' : s = 1 - t := by linarith
    subst hs'
    simp only [smul_eq_mul]
    refine le_of_forall_pos_le_add fun δ hδ => ?_
    obtain ⟨u, hu, hu'⟩ := exists_lt_of_lt_csSup (hne a ha) (show V a - δ < V a by linarith)
    obtain ⟨w, hw, hw'⟩ := exists_lt_of_lt_csSup (hne b hb) (show V b - δ < V b by linarith)
    have h1 := le_csSup (hbdd _) (planLosses_mix ht (by linarith) hu hw)
    have h2 := mul_le_mul_of_nonneg_left hu'.le ht
    have h3 := mul_le_mul_of_nonneg_left hw'.le hs
    have h4 : t * (V a - δ) + (1 - t) * (V b - δ) = t * V a + (1 - t) * V b - δ := by ring
    linarith
  obtain ⟨lam, hlam, hslope⟩ := slope_exists hconc hmono hr
  have hnR : (0 : ℝ) < n := by exact_mod_cast hn
  -- every choice of destinations
  have hpt : ∀ z : Fin n → E, avg (fun i => l i (z i) - lam * c i (z i)) ≤ V r - lam * r := by
    intro z
    have hq : 0 ≤ avg fun i => c i (z i) := div_nonneg (Finset.sum_nonneg fun i _ => hc i _) hnR.le
    have h1 : avg (fun i => l i (z i)) ≤ V (avg fun i => c i (z i)) := le_csSup (hbdd _) (planLosses_point hn z le_rfl)
    have h2 := hslope _ hq
    have h3 : avg (fun i => l i (z i) - lam * c i (z i)) = avg (fun i => l i (z i)) - lam * avg fun i => c i (z i) := by
      simp only [avg, Finset.sum_sub_distrib, ← Finset.mul_sum]
      ring
    rw [h3]
    linarith
  have hbd : ∀ i, BddAbove (Set.range fun e => l i e - lam * c i e) := by
    intro i
    refine ⟨n * (V r - lam * r) - ∑ j ∈ Finset.univ.erase i, l j (x j), ?_⟩
    rintro _ ⟨e, rfl⟩
    have h1 := hpt (Function.update x i e)
    unfold avg at h1
    rw [div_le_iff₀ hnR, ← Finset.add_sum_erase _ _ (Finset.mem_univ i)] at h1
    have h2 : ∑ j ∈ Finset.univ.erase i, (l j (Function.update x i e j) - lam * c j (Function.update x i e j)) = ∑ j ∈ Finset.univ.erase i, l j (x j) := by
      refine Finset.sum_congr rfl fun j hj => ?_
      rw [Function.update_of_ne (Finset.ne_of_mem_erase hj), hx]
      ring
    rw [h2, Function.update_self] at h1
    dsimp only
    linarith
  refine ⟨lam, hlam, hbd, fun v hv => planLosses_le hlam (fun i e => le_csSup (hbd i) ⟨e, rfl⟩) hv, fun B hB => ?_⟩
  have hVB : V r ≤ B := csSup_le (hne r hr.le) hB
  refine le_trans ?_ hVB
  have : avg (fun i => sSup (Set.range fun e => l i e - lam * c i e)) ≤ V r - lam * r := by
    refine le_of_forall_pos_le_add fun δ hδ => ?_
    have hz : ∀ i, ∃ e, sSup (Set.range fun e => l i e - lam * c i e) - δ < l i e - lam * c i e := by
      intro i
      obtain ⟨_, ⟨e, rfl⟩, he⟩ := exists_lt_of_lt_csSup (s := Set.range fun e => l i e - lam * c i e) ⟨_, ⟨x i, rfl⟩⟩
        (show sSup (Set.range fun e => l i e - lam * c i e) - δ < _ by linarith)
      exact ⟨e, he⟩
    choose z hz using hz
    have h1 := hpt z
    unfold avg at h1 ⊢
    rw [div_le_iff₀ hnR] at h1 ⊢
    have h2 : ∑ i, (sSup (Set.range fun e => l i e - lam * c i e) - δ) ≤ ∑ i, (l i (z i) - lam * c i (z i)) :=
      Finset.sum_le_sum fun i _ => (hz i).le
    rw [Finset.sum_sub_distrib] at h2
    simp only [Finset.sum_const, Finset.card_univ, Fintype.card_fin, nsmul_eq_mul] at h2
    nlinarith
  linarith

end Skwdro
