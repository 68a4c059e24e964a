import Verif.Props.Dedicated
import Verif.Spec.Presentation

/-! # C129: fits with the dedicated solvers do not depend on how the data is presented -/

namespace Skwdro
open Spec MeasureTheory Tensor

/-! ### Plans and repeated samples -/

section
variable {E E' : Type} [MeasurableSpace E] [MeasurableSpace E'] {n n' : ℕ}

theorem lists_pos {σ : Fin n' → Fin n} (h : ListsEqually σ) (hn' : 0 < n') : 0 < n := (σ ⟨0, hn'⟩).pos

theorem lists_card {σ : Fin n' → Fin n} (h : ListsEqually σ) (hn' : 0 < n') (i : Fin n) :
    ((Finset.univ.filter fun j => σ j = i).card : ℝ) / n' = 1 / n := by
  have hn := lists_pos h hn'
  have := h i
  have e : ((Finset.univ.filter fun j => σ j = i).card : ℝ) * n = n' := by exact_mod_cast this
  have hn0 : (n : ℝ) ≠ 0 := by positivity
  have hn1 : (n' : ℝ) ≠ 0 := by positivity
  field_simp
  exact e

theorem lists_perm (e : Equiv.Perm (Fin n)) : ListsEqually e := by
  intro i
  have : (Finset.univ.filter fun j => e j = i) = {e.symm i} := by
    ext j
    simp [Equiv.eq_symm_apply]
  rw [this]; simp

/-- the law of the samples drawn by a plan on the repeated data -/
theorem plan_down {σ : Fin n' → Fin n} (hσ : ListsEqually σ) (hn' : 0 < n') {π : Measure (Fin n' × E)} [IsProbabilityMeasure π]
    (hm : ∀ j, π.real {p | p.1 = j} = 1 / n') (i : Fin n) : (π.map (Prod.map σ id)).real {p | p.1 = i} = 1 / n := by
  have hmeas : Measurable (Prod.map σ (id : E → E)) := (measurable_of_finite σ).prodMap measurable_id
  have hset : ∀ (k : ℕ) (j : Fin k), MeasurableSet {p : Fin k × E | p.1 = j} := fun k j => measurable_fst (MeasurableSet.singleton j)
  rw [Measure.real, Measure.map_apply hmeas (hset n i)]
  have e : Prod.map σ id ⁻¹' {p : Fin n × E | p.1 = i} = ⋃ j ∈ Finset.univ.filter (fun j => σ j = i), {p : Fin n' × E | p.1 = j} := by
    ext p
    simp
  rw [e, ← Measure.real, measureReal_biUnion_finset]
  · simp only [hm, Finset.sum_const, nsmul_eq_mul]
    rw [← lists_card hσ hn' i]
    ring
  · intro j _ k _ hjk
    rw [Function.onFun, Set.disjoint_left]
    intro p h1 h2
    exact hjk (h1.symm.trans h2)
  · exact fun j _ => hset n' j

/-- a plan on the data comes from one on the repeated data -/
theorem plan_up {σ : Fin n' → Fin n} (hσ : ListsEqually σ) (hn' : 0 < n') {π : Measure (Fin n × E)} [IsProbabilityMeasure π]
    (hm : ∀ i, π.real {p | p.1 = i} = 1 / n) :
    ∃ π' : Measure (Fin n' × E), IsProbabilityMeasure π' ∧ (∀ j, π'.real {p | p.1 = j} = 1 / n') ∧ π'.map (Prod.map σ id) = π := by
  have hn := lists_pos hσ hn'
  set c : ENNReal := (n : ENNReal) / n' with hc
  have hset : ∀ (k : ℕ) (j : Fin k), MeasurableSet {p : Fin k × E | p.1 = j} := fun k j => measurable_fst (MeasurableSet.singleton j)
  have hat : ∀ j : Fin n', Measurable fun p : Fin n × E => (j, p.2) := fun j => measurable_const.prodMk measurable_snd
  set π' : Measure (Fin n' × E) := ∑ j, c • (π.restrict {p | p.1 = σ j}).map (fun p => (j, p.2)) with hπ'
  have happ : ∀ s, MeasurableSet s → π' s = ∑ j, c * π ((fun p => (j, p.2)) ⁻¹' s ∩ {p | p.1 = σ j}) := by
    intro s hs
    rw [hπ', Measure.coe_finset_sum, Finset.sum_apply]
    refine Finset.sum_congr rfl fun j _ => ?_
    rw [Measure.smul_apply, Measure.map_apply (hat j) hs, Measure.restrict_apply (hat j hs), smul_eq_mul]
  have hmeas : Measurable (Prod.map σ (id : E → E)) := (measurable_of_finite σ).prodMap measurable_id
  have hcc : ∀ i, ((Finset.univ.filter fun j => σ j = i).card : ENNReal) * c = 1 := by
    intro i
    have h1 : ((Finset.univ.filter fun j => σ j = i).card : ENNReal) * n = n' := by exact_mod_cast hσ i
    rw [hc, ← mul_div_assoc, h1]
    exact ENNReal.div_self (by simpa using hn'.ne') (by simp)
  have hmap : π'.map (Prod.map σ id) = π := by
    ext s hs
    rw [Measure.map_apply hmeas hs, happ _ (hmeas hs)]
    have e1 : ∀ j, c * π ((fun p => (j, p.2)) ⁻¹' (Prod.map σ id ⁻¹' s) ∩ {p | p.1 = σ j}) = c * π (s ∩ {p | p.1 = σ j}) := by
      intro j
      congr 2
      ext ⟨a, b⟩
      simp only [Set.mem_inter_iff, Set.mem_preimage, Prod.map_apply, id_eq, Set.mem_setOf_eq]
      constructor
      · rintro ⟨h1, rfl⟩; exact ⟨h1, rfl⟩
      · rintro ⟨h1, rfl⟩; exact ⟨h1, rfl⟩
    simp only [e1]
    rw [← Finset.sum_fiberwise (s := Finset.univ) (g := σ)]
    have e2 : ∀ i, ∑ j ∈ Finset.univ.filter (fun j => σ j = i), c * π (s ∩ {p | p.1 = σ j}) = π (s ∩ {p | p.1 = i}) := by
      intro i
      rw [Finset.sum_congr rfl (g := fun _ => c * π (s ∩ {p | p.1 = i})) (fun j hj => by rw [(Finset.mem_filter.1 hj).2]), Finset.sum_const, nsmul_eq_mul,
        ← mul_assoc, hcc, one_mul]
    simp only [e2]
    rw [← measure_biUnion_finset]
    · congr 1
      ext p
      simp
    · intro i _ k _ hik
      rw [Function.onFun, Set.disjoint_left]
      intro p h1 h2
      exact hik (h1.2.symm.trans h2.2)
    · exact fun i _ => hs.inter (hset n i)
  have hprob : IsProbabilityMeasure π' := by
    constructor
    have : π'.map (Prod.map σ id) Set.univ = 1 := by rw [hmap]; exact measure_univ
    rwa [Measure.map_apply hmeas MeasurableSet.univ, Set.preimage_univ] at this
  refine ⟨π', hprob, fun j => ?_, hmap⟩
  rw [Measure.real, happ _ (hset n' j), Finset.sum_eq_single j]
  · have e : (fun p : Fin n × E => (j, p.2)) ⁻¹' {p | p.1 = j} ∩ {p | p.1 = σ j} = {p | p.1 = σ j} := by ext p; simp
    rw [e, ENNReal.toReal_mul, ← Measure.real, hm, hc, ENNReal.toReal_div]
    simp only [ENNReal.toReal_natCast]
    have hn0 : (n : ℝ) ≠ 0 := by positivity
    field_simp
  · intro k _ hk
    have e : (fun p : Fin n × E => (k, p.2)) ⁻¹' {p | p.1 = j} = ∅ := by ext p; simp [hk]
    rw [e]; simp
  · intro h; exact absurd (Finset.mem_univ j) h

/-- **C129** (shuffled or repeated samples) The laws within a given transport distance of the data are the same. -/
theorem C129_same_ball {σ : Fin n' → Fin n} (hσ : ListsEqually σ) (hn' : 0 < n') (z : Fin n → E) {cost : E → E → ℝ} (hc : ∀ i, Measurable (cost (z i))) (rho : ℝ)
    (Q : Measure E) : InBall (fun j => z (σ j)) cost rho Q ↔ InBall z cost rho Q := by
  have hmeas : Measurable (Prod.map σ (id : E → E)) := (measurable_of_finite σ).prodMap measurable_id
  have hf : Measurable fun p : Fin n × E => cost (z p.1) p.2 := measurable_from_prod_countable_right hc
  constructor
  · rintro ⟨π, hp, hm, hQ, hi, hr⟩
    have hs : (π.map (Prod.map σ id)).map Prod.snd = Q := by rw [Measure.map_map measurable_snd hmeas, ← hQ]; rfl
    refine ⟨π.map (Prod.map σ id), Measure.isProbabilityMeasure_map hmeas.aemeasurable, plan_down hσ hn' hm, hs, ?_, ?_⟩
    · rw [integrable_map_measure hf.aestronglyMeasurable hmeas.aemeasurable]
      exact hi
    · rw [integral_map hmeas.aemeasurable hf.aestronglyMeasurable]
      exact hr
  · rintro ⟨π, hp, hm, hQ, hi, hr⟩
    obtain ⟨π', hp', hm', rfl⟩ := plan_up hσ hn' hm
    refine ⟨π', hp', hm', ?_, ?_, ?_⟩
    · rw [Measure.map_map measurable_snd hmeas] at hQ
      exact hQ
    · rw [integrable_map_measure hf.aestronglyMeasurable hmeas.aemeasurable] at hi
      exact hi
    · rw [integral_map hmeas.aemeasurable hf.aestronglyMeasurable] at hr
      exact hr

/-- the plans that move inputs only -/
theorem inputBall_lists {d : ℕ} {σ : Fin n' → Fin n} (hσ : ListsEqually σ) (hn' : 0 < n') (X : Fin n → Fin d → ℝ) (y : Fin n → ℝ) (rho : ℝ) :
    InputBall (fun j => X (σ j)) (fun j => y (σ j)) rho = InputBall X y rho := by
  have hmeas : Measurable (Prod.map σ (id : (Fin d → ℝ) × ℝ → (Fin d → ℝ) × ℝ)) := (measurable_of_finite σ).prodMap measurable_id
  have hf : Measurable fun p : Fin n × ((Fin d → ℝ) × ℝ) => dist2 (X p.1) p.2.1 ^ 2 :=
    measurable_from_prod_countable_right fun i => by unfold dist2; fun_prop
  have hset : MeasurableSet {p : Fin n × ((Fin d → ℝ) × ℝ) | p.2.2 = y p.1} :=
    measurableSet_eq_fun (measurable_snd.comp measurable_snd) ((measurable_of_finite y).comp measurable_fst)
  ext Q
  constructor
  · rintro ⟨π, hp, hm, hQ, hy, hi, hr⟩
    have hs : (π.map (Prod.map σ id)).map Prod.snd = Q := by rw [Measure.map_map measurable_snd hmeas, ← hQ]; rfl
    refine ⟨π.map (Prod.map σ id), Measure.isProbabilityMeasure_map hmeas.aemeasurable, plan_down hσ hn' hm, hs, ?_, ?_, ?_⟩
    · exact (ae_map_iff hmeas.aemeasurable hset).2 hy
    · rw [integrable_map_measure hf.aestronglyMeasurable hmeas.aemeasurable]
      exact hi
    · rw [integral_map hmeas.aemeasurable hf.aestronglyMeasurable]
      exact hr
  · rintro ⟨π, hp, hm, hQ, hy, hi, hr⟩
    obtain ⟨π', hp', hm', rfl⟩ := plan_up hσ hn' hm
    refine ⟨π', hp', hm', ?_, (ae_map_iff hmeas.aemeasurable hset).1 hy, ?_, ?_⟩
    · rw [Measure.map_map measurable_snd hmeas] at hQ
      exact hQ
    · rw [integrable_map_measure hf.aestronglyMeasurable hmeas.aemeasurable] at hi
      exact hi
    · rw [integral_map hmeas.aemeasurable hf.aestronglyMeasurable] at hr
      exact hr

/-! ### Other coordinates -/

/-- moving the data and the laws by a map that keeps the cost -/
theorem inBall_map {z : Fin n → E} {cost : E → E → ℝ} {cost' : E' → E' → ℝ} {T : E → E'} (hT : Measurable T) (hk : ∀ a b, cost' (T a) (T b) = cost a b)
    (hc : ∀ i, Measurable (cost' (T (z i)))) {rho : ℝ} {Q : Measure E} (h : InBall z cost rho Q) : InBall (fun i => T (z i)) cost' rho (Q.map T) := by
  obtain ⟨π, hp, hm, rfl, hi, hr⟩ := h
  have hmeas : Measurable (Prod.map (id : Fin n → Fin n) T) := measurable_id.prodMap hT
  have hf : Measurable fun p : Fin n × E' => cost' (T (z p.1)) p.2 := measurable_from_prod_countable_right hc
  refine ⟨π.map (Prod.map id T), Measure.isProbabilityMeasure_map hmeas.aemeasurable, fun i => ?_, ?_, ?_, ?_⟩
  · have hs : MeasurableSet {p : Fin n × E' | p.1 = i} := measurable_fst (MeasurableSet.singleton i)
    rw [Measure.real, Measure.map_apply hmeas hs]
    exact hm i
  · rw [Measure.map_map measurable_snd hmeas, Measure.map_map hT measurable_snd]
    rfl
  · rw [integrable_map_measure hf.aestronglyMeasurable hmeas.aemeasurable]
    simpa only [Function.comp_def, Prod.map_fst, Prod.map_snd, id_eq, hk] using hi
  · rw [integral_map hmeas.aemeasurable hf.aestronglyMeasurable]
    simpa only [Prod.map_fst, Prod.map_snd, id_eq, hk] using hr

theorem inputBall_map {d : ℕ} {X : Fin n → Fin d → ℝ} {y : Fin n → ℝ} {T : (Fin d → ℝ) → Fin d → ℝ} (hT : Measurable T) (hk : ∀ a b, dist2 (T a) (T b) = dist2 a b)
    {rho : ℝ} {Q : Measure ((Fin d → ℝ) × ℝ)} (h : Q ∈ InputBall X y rho) : Q.map (Prod.map T id) ∈ InputBall (fun i => T (X i)) y rho := by
  obtain ⟨π, hp, hm, rfl, hy, hi, hr⟩ := h
  have hTp : Measurable (Prod.map T (id : ℝ → ℝ)) := hT.prodMap measurable_id
  have hmeas : Measurable (Prod.map (id : Fin n → Fin n) (Prod.map T (id : ℝ → ℝ))) := measurable_id.prodMap hTp
  have hf : Measurable fun p : Fin n × ((Fin d → ℝ) × ℝ) => dist2 (T (X p.1)) p.2.1 ^ 2 :=
    measurable_from_prod_countable_right fun i => by unfold dist2; fun_prop
  have hset : MeasurableSet {p : Fin n × ((Fin d → ℝ) × ℝ) | p.2.2 = y p.1} :=
    measurableSet_eq_fun (measurable_snd.comp measurable_snd) ((measurable_of_finite y).comp measurable_fst)
  refine ⟨π.map (Prod.map id (Prod.map T id)), Measure.isProbabilityMeasure_map hmeas.aemeasurable, fun i => ?_, ?_, ?_, ?_, ?_⟩
  · have hs : MeasurableSet {p : Fin n × ((Fin d → ℝ) × ℝ) | p.1 = i} := measurable_fst (MeasurableSet.singleton i)
    rw [Measure.real, Measure.map_apply hmeas hs]
    exact hm i
  · rw [Measure.map_map measurable_snd hmeas, Measure.map_map hTp measurable_snd]
    rfl
  · exact (ae_map_iff hmeas.aemeasurable hset).2 hy
  · rw [integrable_map_measure hf.aestronglyMeasurable hmeas.aemeasurable]
    simpa only [Function.comp_def, Prod.map_fst, Prod.map_snd, id_eq, hk] using hi
  · rw [integral_map hmeas.aemeasurable hf.aestronglyMeasurable]
    simpa only [Prod.map_fst, Prod.map_snd, id_eq, hk] using hr

end

end Skwdro
