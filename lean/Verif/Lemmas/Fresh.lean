import Verif.Spec.Fresh
import Verif.Props.OnlineRegret
import Mathlib.MeasureTheory.Integral.Prod
import Mathlib.MeasureTheory.Function.StronglyMeasurable.Basic
import Mathlib.NumberTheory.Harmonic.Bounds

/-! Subgradient descent on fresh draws. -/

namespace Skwdro
open Spec MeasureTheory

section
variable {G A X : Type} [MeasurableSpace G] [MeasurableSpace A] [MeasurableSpace X] {mu : Measure G} [IsProbabilityMeasure mu] {next : G → G} {obs : G → A}

/-- a process moved by what is drawn -/
def proc (obs : G → A) (next : G → G) (T : ℕ → A → X → X) (x0 : X) : ℕ → G → X
  | 0, _ => x0
  | k + 1, g => T k (obs (next^[k] g)) (proc obs next T x0 k g)

theorem Spec.FreshDraws.next_preserving (h : FreshDraws mu next obs) : mu.map next = mu := by
  have h1 := congrArg (fun m => m.map Prod.snd) h.independent
  beta_reduce at h1
  rw [Measure.map_map measurable_snd (h.obs_measurable.prodMk h.next_measurable)] at h1
  have : IsProbabilityMeasure (mu.map obs) := Measure.isProbabilityMeasure_map h.obs_measurable.aemeasurable
  rw [Measure.map_snd_prod] at h1
  simpa [Function.comp_def] using h1

theorem Spec.FreshDraws.iterate_measurable (h : FreshDraws mu next obs) (k : ℕ) : Measurable next^[k] := h.next_measurable.iterate k

theorem Spec.FreshDraws.iterate_preserving (h : FreshDraws mu next obs) (k : ℕ) : mu.map next^[k] = mu :=
  (MeasurePreserving.iterate ⟨h.next_measurable, h.next_preserving⟩ k).map_eq

theorem Spec.FreshDraws.obs_iterate (h : FreshDraws mu next obs) (k : ℕ) : mu.map (fun g => obs (next^[k] g)) = mu.map obs := by
  rw [show (fun g => obs (next^[k] g)) = obs ∘ next^[k] from rfl, ← Measure.map_map h.obs_measurable (h.iterate_measurable k), h.iterate_preserving]

theorem proc_measurable (h : FreshDraws mu next obs) {T : ℕ → A → X → X} (hT : ∀ k, Measurable fun q : A × X => T k q.1 q.2) (x0 : X) (k : ℕ) :
    Measurable (proc obs next T x0 k) := by
  induction k with
  | zero => exact measurable_const
  | succ k ih => exact (hT k).comp ((h.obs_measurable.comp (h.iterate_measurable k)).prodMk ih)

theorem proc_law (h : FreshDraws mu next obs) {T : ℕ → A → X → X} (hT : ∀ k, Measurable fun q : A × X => T k q.1 q.2) (x0 : X) (k : ℕ) :
    mu.map (fun g => (proc obs next T x0 k g, next^[k] g)) = (mu.map (proc obs next T x0 k)).prod mu := by
  have hob : IsProbabilityMeasure (mu.map obs) := Measure.isProbabilityMeasure_map h.obs_measurable.aemeasurable
  induction k with
  | zero =>
    have h1 : mu.map (proc obs next T x0 0) = Measure.dirac x0 := by
      show mu.map (fun _ => x0) = _
      rw [Measure.map_const, measure_univ, one_smul]
    rw [h1, Measure.dirac_prod]
    rfl
  | succ k ih =>
    have hp := proc_measurable h hT x0 k
    have hp' : IsProbabilityMeasure (mu.map (proc obs next T x0 k)) := Measure.isProbabilityMeasure_map hp.aemeasurable
    have hps := proc_measurable h hT x0 (k + 1)
    -- the law is a product
    have key : mu.map (fun g => (proc obs next T x0 (k + 1) g, next^[k + 1] g)) =
        (((mu.map (proc obs next T x0 k)).prod (mu.map obs)).map (fun q => T k q.2 q.1)).prod mu := by
      have e1 : (fun g => (proc obs next T x0 (k + 1) g, next^[k + 1] g)) =
          (fun q : X × (A × G) => (T k q.2.1 q.1, q.2.2)) ∘ (Prod.map id fun g => (obs g, next g)) ∘ fun g => (proc obs next T x0 k g, next^[k] g) := by
        funext g
        simp [proc, Function.iterate_succ_apply']
      have m1 : Measurable (fun q : X × (A × G) => (T k q.2.1 q.1, q.2.2)) :=
        ((hT k).comp ((measurable_fst.comp measurable_snd).prodMk measurable_fst)).prodMk (measurable_snd.comp measurable_snd)
      have m2 : Measurable (Prod.map id (fun g => (obs g, next g)) : X × G → X × (A × G)) := measurable_id.prodMap (h.obs_measurable.prodMk h.next_measurable)
      have m3 : Measurable fun g => (proc obs next T x0 k g, next^[k] g) := hp.prodMk (h.iterate_measurable k)
      rw [e1, ← Measure.map_map m1 (m2.comp m3), ← Measure.map_map m2 m3, ih, ← Measure.map_prod_map _ _ measurable_id (h.obs_measurable.prodMk h.next_measurable),
        Measure.map_id, h.independent]
      have m4 : Measurable (fun q : X × A => T k q.2 q.1) := (hT k).comp (measurable_snd.prodMk measurable_fst)
      have e2 : (fun q : X × (A × G) => (T k q.2.1 q.1, q.2.2)) = (Prod.map (fun q : X × A => T k q.2 q.1) id) ∘ (MeasurableEquiv.prodAssoc (α := X) (β := A) (γ := G)).symm := rfl
      rw [e2, ← Measure.map_map (m4.prodMap measurable_id) (MeasurableEquiv.measurable _)]
      have e3 : Measure.map (MeasurableEquiv.prodAssoc (α := X) (β := A) (γ := G)).symm ((mu.map (proc obs next T x0 k)).prod ((mu.map obs).prod mu)) =
          ((mu.map (proc obs next T x0 k)).prod (mu.map obs)).prod mu := by
        rw [← Measure.prodAssoc_prod, MeasurableEquiv.map_symm_map]
      rw [e3, ← Measure.map_prod_map _ _ m4 measurable_id, Measure.map_id]
    have h2 := congrArg (fun m => m.map Prod.fst) key
    beta_reduce at h2
    rw [Measure.map_map measurable_fst (hps.prodMk (h.iterate_measurable (k + 1))), Measure.map_fst_prod, measure_univ, one_smul] at h2
    rw [key, ← h2]
    rfl

/-- what the process has reached is independent of the later draws -/
theorem proc_indep (h : FreshDraws mu next obs) {T : ℕ → A → X → X} (hT : ∀ k, Measurable fun q : A × X => T k q.1 q.2) (x0 : X) {k t : ℕ} (hk : k ≤ t) :
    mu.map (fun g => (proc obs next T x0 k g, obs (next^[t] g))) = (mu.map (proc obs next T x0 k)).prod (mu.map obs) := by
  have hp := proc_measurable h hT x0 k
  have m := h.obs_measurable.comp (h.iterate_measurable (t - k))
  have e : (fun g => (proc obs next T x0 k g, obs (next^[t] g))) = (Prod.map id (obs ∘ next^[t - k])) ∘ fun g => (proc obs next T x0 k g, next^[k] g) := by
    funext g
    simp only [Function.comp_apply, Prod.map_apply, id_eq, Prod.mk.injEq, true_and]
    rw [← Function.iterate_add_apply, Nat.sub_add_cancel hk]
  have hp' : IsProbabilityMeasure (mu.map (proc obs next T x0 k)) := Measure.isProbabilityMeasure_map hp.aemeasurable
  rw [e, ← Measure.map_map (measurable_id.prodMap m) (hp.prodMk (h.iterate_measurable k)), proc_law h hT, ← Measure.map_prod_map _ _ measurable_id m,
    Measure.map_id, show mu.map (obs ∘ next^[t - k]) = _ from h.obs_iterate _]

/-- the expectation of a loss met on a later draw is the expectation of the expected loss -/
theorem proc_expect (h : FreshDraws mu next obs) {T : ℕ → A → X → X} (hT : ∀ k, Measurable fun q : A × X => T k q.1 q.2) (x0 : X) {k t : ℕ} (hk : k ≤ t)
    {H : X → A → ℝ} (hH : Measurable fun q : X × A => H q.1 q.2) (hi : Integrable (fun g => H (proc obs next T x0 k g) (obs (next^[t] g))) mu) :
    Integrable (fun g => ∫ g', H (proc obs next T x0 k g) (obs g') ∂mu) mu ∧
      ∫ g, H (proc obs next T x0 k g) (obs (next^[t] g)) ∂mu = ∫ g, (∫ g', H (proc obs next T x0 k g) (obs g') ∂mu) ∂mu := by
  have hp := proc_measurable h hT x0 k
  have hob : IsProbabilityMeasure (mu.map obs) := Measure.isProbabilityMeasure_map h.obs_measurable.aemeasurable
  have hp' : IsProbabilityMeasure (mu.map (proc obs next T x0 k)) := Measure.isProbabilityMeasure_map hp.aemeasurable
  have mq : Measurable fun g => (proc obs next T x0 k g, obs (next^[t] g)) := hp.prodMk (h.obs_measurable.comp (h.iterate_measurable t))
  have h1 : Integrable (fun q : X × A => H q.1 q.2) ((mu.map (proc obs next T x0 k)).prod (mu.map obs)) := by
    rw [← proc_indep h hT x0 hk, integrable_map_measure hH.aestronglyMeasurable mq.aemeasurable]
    exact hi
  have e0 : ∀ x, ∫ g', H x (obs g') ∂mu = ∫ a, H x a ∂(mu.map obs) := fun x =>
    (integral_map h.obs_measurable.aemeasurable (hH.comp (measurable_const.prodMk measurable_id)).aestronglyMeasurable).symm
  have h2 := h1.integral_prod_left
  have h3 := integral_prod _ h1
  simp only [e0]
  constructor
  · exact (integrable_map_measure h2.aestronglyMeasurable hp.aemeasurable).1 h2
  · rw [← integral_map (f := fun x => ∫ a, H x a ∂(mu.map obs)) hp.aemeasurable h2.aestronglyMeasurable, ← h3, ← proc_indep h hT x0 hk,
      integral_map mq.aemeasurable hH.aestronglyMeasurable]

end

/-- from regrets against earlier points to a bound on the last point -/
theorem last_iterate {e : ℕ → ℝ} {K : ℕ} {F B c : ℝ} (h : ∀ k, k ≤ K → ∑ t ∈ Finset.range (k + 1), (e (K - k + t) - e (K - k)) ≤ c * (k + 1))
    (h0 : ∑ t ∈ Finset.range (K + 1), (e t - F) ≤ B + c * (K + 1)) : e K ≤ F + B / (K + 1) + c * (1 + (harmonic K : ℝ)) := by
  have key : ∀ k, k ≤ K → e K ≤ (∑ t ∈ Finset.range (k + 1), e (K - k + t)) / (k + 1) + c * (harmonic k : ℝ) := by
    intro k
    induction k with
    | zero => intro _; simp
    | succ k ih =>
      intro hk
      have h1 := ih (by omega)
      have h2 := h (k + 1) hk
      rw [Finset.sum_sub_distrib, Finset.sum_const, Finset.card_range, nsmul_eq_mul] at h2
      rw [Finset.sum_range_succ' (fun t => e (K - (k + 1) + t))] at h2 ⊢
      have e1 : ∀ t, K - (k + 1) + (t + 1) = K - k + t := fun t => by omega
      simp only [e1, add_zero] at h2 ⊢
      set S := ∑ t ∈ Finset.range (k + 1), e (K - k + t)
      set x := e (K - (k + 1))
      rw [harmonic_succ]
      push_cast at h2 ⊢
      have hk0 : (0 : ℝ) < (k : ℝ) + 1 := by positivity
      have hk1 : (0 : ℝ) < (k : ℝ) + 1 + 1 := by positivity
      have h3 : S / (k + 1) ≤ (S + x) / (k + 1 + 1) + c * ((k : ℝ) + 1)⁻¹ := by
        have e2 : (S + x) / (k + 1 + 1) + c * ((k : ℝ) + 1)⁻¹ - S / (k + 1) = (c * (k + 1 + 1) - (S + x - (k + 1 + 1) * x)) / ((k + 1) * (k + 1 + 1)) := by
          field_simp; ring
        rw [← sub_nonneg, e2]
        exact div_nonneg (by linarith) (by positivity)
      linarith
  have h1 := key K le_rfl
  simp only [Nat.sub_self, zero_add] at h1
  rw [Finset.sum_sub_distrib, Finset.sum_const, Finset.card_range, nsmul_eq_mul] at h0
  push_cast at h0
  have hk0 : (0 : ℝ) < (K : ℝ) + 1 := by positivity
  have h2 : (∑ t ∈ Finset.range (K + 1), e t) / (K + 1) ≤ F + B / (K + 1) + c := by
    rw [div_le_iff₀ hk0]
    have : (F + B / (K + 1) + c) * ((K : ℝ) + 1) = (K + 1) * F + B + c * (K + 1) := by field_simp
    rw [this]; linarith
  linarith

section
variable {N : ℕ}

/-- a step of subgradient descent -/
noncomputable def freshStep {A : Type} (clip : Bool) (lr : ℝ) (Gam : A → (Fin N → ℝ) → ℝ → Fin N → ℝ) (gam : A → (Fin N → ℝ) → ℝ → ℝ) (a : A) (x : (Fin N → ℝ) × ℝ) :
    (Fin N → ℝ) × ℝ := (fun k => x.1 k - lr * Gam a x.1 x.2 k, clipped clip (x.2 - lr * gam a x.1 x.2))

theorem gap2_nonneg (v : Fin N → ℝ) (l : ℝ) (v' : Fin N → ℝ) (l' : ℝ) : 0 ≤ gap2 v l v' l' := add_nonneg (Finset.sum_nonneg fun _ _ => sq_nonneg _) (sq_nonneg _)

theorem gap2_self (v : Fin N → ℝ) (l : ℝ) : gap2 v l v l = 0 := by simp [gap2]

theorem gap2_triangle (v : Fin N → ℝ) (l : ℝ) (v' : Fin N → ℝ) (l' : ℝ) (w : Fin N → ℝ) (m : ℝ) : gap2 v l v' l' ≤ 2 * gap2 v l w m + 2 * gap2 v' l' w m := by
  have h : ∀ a b c : ℝ, (a - b) ^ 2 ≤ 2 * (a - c) ^ 2 + 2 * (b - c) ^ 2 := fun a b c => by nlinarith [sq_nonneg (a - c + (b - c))]
  simp only [gap2, mul_add, Finset.mul_sum]
  have h1 := Finset.sum_le_sum fun k (_ : k ∈ Finset.univ) => h (v k) (v' k) (w k)
  rw [Finset.sum_add_distrib] at h1
  linarith [h l l' m]

theorem gap2_measurable : Measurable fun q : ((Fin N → ℝ) × ℝ) × ((Fin N → ℝ) × ℝ) => gap2 q.1.1 q.1.2 q.2.1 q.2.2 := by
  unfold gap2
  fun_prop

theorem gap2_measurable_left {G : Type} [MeasurableSpace G] {x : G → (Fin N → ℝ) × ℝ} (hx : Measurable x) (q : Fin N → ℝ) (lq : ℝ) :
    Measurable fun g => gap2 (x g).1 (x g).2 q lq := by
  unfold gap2
  fun_prop

theorem inner_bound (g : Fin N → ℝ) (gl : ℝ) (v : Fin N → ℝ) (l : ℝ) (v' : Fin N → ℝ) (l' : ℝ) :
    |∑ k, g k * (v' k - v k) + gl * (l' - l)| ≤ (∑ k, g k ^ 2 + gl ^ 2 + gap2 v l v' l') / 2 := by
  have h : ∀ a b c : ℝ, |a * (b - c)| ≤ (a ^ 2 + (c - b) ^ 2) / 2 := fun a b c => by
    rw [abs_le]; constructor <;> nlinarith [sq_nonneg (a - (b - c)), sq_nonneg (a + (b - c))]
  have h1 := Finset.sum_le_sum fun k (_ : k ∈ Finset.univ) => h (g k) (v' k) (v k)
  rw [← Finset.sum_div, Finset.sum_add_distrib] at h1
  have h2 := (abs_add_le (∑ k, g k * (v' k - v k)) (gl * (l' - l))).trans (add_le_add ((Finset.abs_sum_le_sum_abs _ _).trans h1) (h gl l' l))
  simp only [gap2]
  linarith

variable {G A : Type} [MeasurableSpace G] [MeasurableSpace A] {mu : Measure G} [IsProbabilityMeasure mu] {next : G → G} {obs : G → A}
  {Phi : A → (Fin N → ℝ) → ℝ → ℝ} {Gam : A → (Fin N → ℝ) → ℝ → Fin N → ℝ} {gam : A → (Fin N → ℝ) → ℝ → ℝ} {L : A → ℝ} {clip : Bool} {lr : ℝ}

theorem loss_change (hsub : ∀ a v l, IsSubgradAt (Phi a) v l (Gam a v l) (gam a v l)) (hL : ∀ a v l, ∑ k, Gam a v l k ^ 2 + gam a v l ^ 2 ≤ L a ^ 2) (a : A)
    (v : Fin N → ℝ) (l : ℝ) (v' : Fin N → ℝ) (l' : ℝ) : |Phi a v l - Phi a v' l'| ≤ (L a ^ 2 + gap2 v l v' l') / 2 := by
  have h1 := hsub a v l v' l'
  have h2 := hsub a v' l' v l
  have h3 := abs_le.1 (inner_bound (Gam a v l) (gam a v l) v l v' l')
  have h4 := abs_le.1 (inner_bound (Gam a v' l') (gam a v' l') v' l' v l)
  have h5 := hL a v l
  have h6 := hL a v' l'
  have h7 : gap2 v' l' v l = gap2 v l v' l' := by
    simp only [gap2]
    congr 1
    · exact Finset.sum_congr rfl fun k _ => by ring
    · ring
  rw [h7] at h4
  rw [abs_le]
  constructor <;> linarith

/-- what is needed of a process that becomes, from its `p`-th step on, a subgradient descent on fresh draws -/
structure DescendsFrom (mu : Measure G) (next : G → G) (obs : G → A) (Phi : A → (Fin N → ℝ) → ℝ → ℝ) (Gam : A → (Fin N → ℝ) → ℝ → Fin N → ℝ)
    (gam : A → (Fin N → ℝ) → ℝ → ℝ) (L : A → ℝ) (clip : Bool) (lr : ℝ) (T : ℕ → A → (Fin N → ℝ) × ℝ → (Fin N → ℝ) × ℝ) (x0 : (Fin N → ℝ) × ℝ) (p : ℕ) : Prop where
  fresh : FreshDraws mu next obs
  hT : ∀ k, Measurable fun q : A × ((Fin N → ℝ) × ℝ) => T k q.1 q.2
  hs : ∀ k, p ≤ k → T k = freshStep clip lr Gam gam
  hsub : ∀ a v l, IsSubgradAt (Phi a) v l (Gam a v l) (gam a v l)
  hL : ∀ a v l, ∑ k, Gam a v l k ^ 2 + gam a v l ^ 2 ≤ L a ^ 2
  hLm : Measurable L
  hLi : Integrable (fun g => L (obs g) ^ 2) mu
  hPm : Measurable fun q : ((Fin N → ℝ) × ℝ) × A => Phi q.2 q.1.1 q.1.2
  hPi : Integrable (fun g => Phi (obs g) 0 0) mu
  hstart : Integrable (fun g => gap2 (proc obs next T x0 p g).1 (proc obs next T x0 p g).2 0 0) mu
  hpos : clip = true → ∀ g, 0 ≤ (proc obs next T x0 p g).2
  hlr : 0 < lr

namespace DescendsFrom
variable {T : ℕ → A → (Fin N → ℝ) × ℝ → (Fin N → ℝ) × ℝ} {x0 : (Fin N → ℝ) × ℝ} {p : ℕ} (H : DescendsFrom mu next obs Phi Gam gam L clip lr T x0 p)
include H

theorem meas (k : ℕ) : Measurable (proc obs next T x0 k) := proc_measurable H.fresh H.hT x0 k

theorem pos (hc : clip = true) {k : ℕ} (hk : p ≤ k) (g : G) : 0 ≤ (proc obs next T x0 k g).2 := by
  obtain ⟨j, rfl⟩ := Nat.exists_eq_add_of_le hk
  cases j with
  | zero => exact H.hpos hc g
  | succ j =>
    show 0 ≤ (T (p + j) _ _).2
    rw [H.hs _ (by omega)]
    exact clipped_nonneg hc _

/-- integrals of functions of what is drawn -/
theorem int_obs {f : A → ℝ} (hf : Measurable f) (hi : Integrable (fun g => f (obs g)) mu) (t : ℕ) :
    Integrable (fun g => f (obs (next^[t] g))) mu ∧ ∫ g, f (obs (next^[t] g)) ∂mu = ∫ g, f (obs g) ∂mu := by
  have m := H.fresh.obs_measurable.comp (H.fresh.iterate_measurable t)
  have e := H.fresh.obs_iterate t
  have h1 := (integrable_map_measure hf.aestronglyMeasurable H.fresh.obs_measurable.aemeasurable).2 hi
  constructor
  · rw [← e] at h1
    exact (integrable_map_measure hf.aestronglyMeasurable m.aemeasurable).1 h1
  · have h2 := integral_map (μ := mu) (f := f) m.aemeasurable hf.aestronglyMeasurable
    have h3 := integral_map (μ := mu) (f := f) H.fresh.obs_measurable.aemeasurable hf.aestronglyMeasurable
    rw [show mu.map (obs ∘ next^[t]) = mu.map obs from e, h3] at h2
    exact h2.symm

theorem meas_gap (k : ℕ) (q : Fin N → ℝ) (lq : ℝ) : Measurable fun g => gap2 (proc obs next T x0 k g).1 (proc obs next T x0 k g).2 q lq :=
  gap2_measurable_left (H.meas k) q lq

theorem int_gap {k : ℕ} (hk : p ≤ k) : Integrable (fun g => gap2 (proc obs next T x0 k g).1 (proc obs next T x0 k g).2 0 0) mu := by
  obtain ⟨j, rfl⟩ := Nat.exists_eq_add_of_le hk
  clear hk
  induction j with
  | zero => exact H.hstart
  | succ j ih =>
    have hL := (H.int_obs (H.hLm.pow_const 2) H.hLi (p + j)).1
    refine ((ih.const_mul 2).add (hL.const_mul (2 * lr ^ 2))).mono' (H.meas_gap (p + (j + 1)) 0 0).aestronglyMeasurable (Filter.Eventually.of_forall fun g => ?_)
    rw [Real.norm_eq_abs, abs_of_nonneg (gap2_nonneg _ _ _ _), show proc obs next T x0 (p + (j + 1)) g =
      T (p + j) (obs (next^[p + j] g)) (proc obs next T x0 (p + j) g) from rfl, H.hs _ (by omega)]
    set x := proc obs next T x0 (p + j) g
    set a := obs (next^[p + j] g)
    have h1 := H.hL a x.1 x.2
    have h2 : gap2 (fun k => x.1 k - lr * Gam a x.1 x.2 k) (clipped clip (x.2 - lr * gam a x.1 x.2)) 0 0 ≤
        gap2 (fun k => x.1 k - lr * Gam a x.1 x.2 k) (x.2 - lr * gam a x.1 x.2) 0 0 := by
      have h2 := clipped_project (clip := clip) (y := 0) (x.2 - lr * gam a x.1 x.2) (fun _ => le_rfl)
      simp only [gap2]
      nlinarith [sq_nonneg (x.2 - lr * gam a x.1 x.2 - clipped clip (x.2 - lr * gam a x.1 x.2))]
    have h3 : ∀ b c : ℝ, (b - lr * c - 0) ^ 2 ≤ 2 * (b - 0) ^ 2 + 2 * lr ^ 2 * c ^ 2 := fun b c => by nlinarith [sq_nonneg (b + lr * c)]
    have h4 := Finset.sum_le_sum fun k (_ : k ∈ Finset.univ) => h3 (x.1 k) (Gam a x.1 x.2 k)
    rw [Finset.sum_add_distrib, ← Finset.mul_sum, ← Finset.mul_sum] at h4
    have h5 := h3 x.2 (gam a x.1 x.2)
    have h6 : 2 * lr ^ 2 * (∑ k, Gam a x.1 x.2 k ^ 2 + gam a x.1 x.2 ^ 2) ≤ 2 * lr ^ 2 * L a ^ 2 := mul_le_mul_of_nonneg_left h1 (by positivity)
    simp only [freshStep, Pi.add_apply]
    refine h2.trans ?_
    simp only [gap2, Pi.zero_apply] at h4 ⊢
    linarith

theorem int_gap2 {k j : ℕ} (hk : p ≤ k) (hj : p ≤ j) :
    Integrable (fun g => gap2 (proc obs next T x0 k g).1 (proc obs next T x0 k g).2 (proc obs next T x0 j g).1 (proc obs next T x0 j g).2) mu := by
  refine (((H.int_gap hk).const_mul 2).add ((H.int_gap hj).const_mul 2)).mono'
    (gap2_measurable.comp ((H.meas k).prodMk (H.meas j))).aestronglyMeasurable (Filter.Eventually.of_forall fun g => ?_)
  rw [Real.norm_eq_abs, abs_of_nonneg (gap2_nonneg _ _ _ _)]
  exact gap2_triangle _ _ _ _ _ _

theorem int_gap1 {k : ℕ} (hk : p ≤ k) (q : Fin N → ℝ) (lq : ℝ) : Integrable (fun g => gap2 (proc obs next T x0 k g).1 (proc obs next T x0 k g).2 q lq) mu := by
  refine (((H.int_gap hk).const_mul 2).add (integrable_const (2 * gap2 q lq 0 0))).mono'
    (H.meas_gap k q lq).aestronglyMeasurable (Filter.Eventually.of_forall fun g => ?_)
  rw [Real.norm_eq_abs, abs_of_nonneg (gap2_nonneg _ _ _ _)]
  exact gap2_triangle _ _ _ _ _ _

theorem int_loss {k : ℕ} (hk : p ≤ k) (t : ℕ) :
    Integrable (fun g => Phi (obs (next^[t] g)) (proc obs next T x0 k g).1 (proc obs next T x0 k g).2) mu := by
  have m0 : Measurable fun a => Phi a (0 : Fin N → ℝ) 0 := H.hPm.comp ((measurable_const (a := ((0 : Fin N → ℝ), (0 : ℝ)))).prodMk measurable_id)
  have h0 := (H.int_obs m0 H.hPi t).1
  have hL := (H.int_obs (H.hLm.pow_const 2) H.hLi t).1
  refine (h0.norm.add ((hL.add (H.int_gap hk)).div_const 2)).mono'
    (H.hPm.comp ((H.meas k).prodMk (H.fresh.obs_measurable.comp (H.fresh.iterate_measurable t)))).aestronglyMeasurable (Filter.Eventually.of_forall fun g => ?_)
  have h1 := loss_change H.hsub H.hL (obs (next^[t] g)) (proc obs next T x0 k g).1 (proc obs next T x0 k g).2 0 0
  have h2 := abs_sub_abs_le_abs_sub (Phi (obs (next^[t] g)) (proc obs next T x0 k g).1 (proc obs next T x0 k g).2) (Phi (obs (next^[t] g)) 0 0)
  simp only [Real.norm_eq_abs, Pi.add_apply]
  linarith

theorem int_point (q : Fin N → ℝ) (lq : ℝ) : Integrable (fun g => Phi (obs g) q lq) mu := by
  have m0 : Measurable fun a => Phi a q lq := H.hPm.comp ((measurable_const (a := (q, lq))).prodMk measurable_id)
  refine (H.hPi.norm.add ((H.hLi.add (integrable_const (gap2 q lq 0 0))).div_const 2)).mono'
    (m0.comp H.fresh.obs_measurable).aestronglyMeasurable (Filter.Eventually.of_forall fun g => ?_)
  have h1 := loss_change H.hsub H.hL (obs g) q lq 0 0
  have h2 := abs_sub_abs_le_abs_sub (Phi (obs g) q lq) (Phi (obs g) 0 0)
  simp only [Real.norm_eq_abs, Pi.add_apply]
  linarith

/-- the expected loss of what the process has reached -/
theorem expect {k t : ℕ} (hk : p ≤ k) (ht : k ≤ t) :
    Integrable (fun g => ∫ g', Phi (obs g') (proc obs next T x0 k g).1 (proc obs next T x0 k g).2 ∂mu) mu ∧
      ∫ g, Phi (obs (next^[t] g)) (proc obs next T x0 k g).1 (proc obs next T x0 k g).2 ∂mu =
        ∫ g, (∫ g', Phi (obs g') (proc obs next T x0 k g).1 (proc obs next T x0 k g).2 ∂mu) ∂mu :=
  proc_expect H.fresh H.hT x0 ht (H := fun x a => Phi a x.1 x.2) H.hPm (H.int_loss hk t)

omit H in
theorem integral_step {X Y D E Q : G → ℝ} {a b : ℝ} (hX : Integrable X mu) (hY : Integrable Y mu) (hD : Integrable D mu) (hE : Integrable E mu) (hQ : Integrable Q mu)
    (h : ∀ g, a * (X g - Y g) ≤ D g - E g + b * Q g) :
    a * (∫ g, X g ∂mu - ∫ g, Y g ∂mu) ≤ ∫ g, D g ∂mu - ∫ g, E g ∂mu + b * ∫ g, Q g ∂mu := by
  have h1 := integral_mono ((hX.sub hY).const_mul a) ((hD.sub hE).add (hQ.const_mul b)) h
  simp only [Pi.sub_apply, Pi.add_apply] at h1
  rwa [integral_const_mul, integral_sub hX hY, integral_add (f := fun g => D g - E g) (hD.sub hE) (hQ.const_mul b), integral_sub hD hE, integral_const_mul] at h1

/-- one step, in expectation, against a fixed point -/
theorem step_fixed {t : ℕ} (ht : p ≤ t) (q : Fin N → ℝ) {lq : ℝ} (hq : clip = true → 0 ≤ lq) :
    2 * lr * (∫ g, (∫ g', Phi (obs g') (proc obs next T x0 t g).1 (proc obs next T x0 t g).2 ∂mu) ∂mu - ∫ g, Phi (obs g) q lq ∂mu) ≤
      ∫ g, gap2 (proc obs next T x0 t g).1 (proc obs next T x0 t g).2 q lq ∂mu -
        ∫ g, gap2 (proc obs next T x0 (t + 1) g).1 (proc obs next T x0 (t + 1) g).2 q lq ∂mu + lr ^ 2 * ∫ g, L (obs g) ^ 2 ∂mu := by
  have m0 : Measurable fun a => Phi a q lq := H.hPm.comp ((measurable_const (a := (q, lq))).prodMk measurable_id)
  obtain ⟨i1, e1⟩ := H.int_obs m0 (H.int_point q lq) t
  obtain ⟨i2, e2⟩ := H.int_obs (H.hLm.pow_const 2) H.hLi t
  rw [← e1, ← e2, ← (H.expect ht le_rfl).2]
  refine integral_step (H.int_loss ht t) i1 (H.int_gap1 ht q lq) (H.int_gap1 (by omega : p ≤ t + 1) q lq) i2 fun g => ?_
  have h1 := online_step (clip := clip) H.hlr (H.hsub (obs (next^[t] g)) (proc obs next T x0 t g).1 (proc obs next T x0 t g).2) q hq
  have h2 := mul_le_mul_of_nonneg_left (H.hL (obs (next^[t] g)) (proc obs next T x0 t g).1 (proc obs next T x0 t g).2) (sq_nonneg lr)
  have h3 : proc obs next T x0 (t + 1) g = freshStep clip lr Gam gam (obs (next^[t] g)) (proc obs next T x0 t g) := by
    show T t _ _ = _
    rw [H.hs t ht]
  simp only [h3, freshStep]
  linarith

/-- one step, in expectation, against an earlier point of the process -/
theorem step_moving {t j : ℕ} (hj : p ≤ j) (ht : j ≤ t) :
    2 * lr * (∫ g, (∫ g', Phi (obs g') (proc obs next T x0 t g).1 (proc obs next T x0 t g).2 ∂mu) ∂mu -
        ∫ g, (∫ g', Phi (obs g') (proc obs next T x0 j g).1 (proc obs next T x0 j g).2 ∂mu) ∂mu) ≤
      ∫ g, gap2 (proc obs next T x0 t g).1 (proc obs next T x0 t g).2 (proc obs next T x0 j g).1 (proc obs next T x0 j g).2 ∂mu -
        ∫ g, gap2 (proc obs next T x0 (t + 1) g).1 (proc obs next T x0 (t + 1) g).2 (proc obs next T x0 j g).1 (proc obs next T x0 j g).2 ∂mu +
        lr ^ 2 * ∫ g, L (obs g) ^ 2 ∂mu := by
  obtain ⟨i2, e2⟩ := H.int_obs (H.hLm.pow_const 2) H.hLi t
  have hpt : p ≤ t := hj.trans ht
  rw [← e2, ← (H.expect hpt le_rfl).2, ← (H.expect hj ht).2]
  refine integral_step (H.int_loss hpt t) (H.int_loss hj t) (H.int_gap2 hpt hj) (H.int_gap2 (by omega : p ≤ t + 1) hj) i2 fun g => ?_
  have h1 := online_step (clip := clip) H.hlr (H.hsub (obs (next^[t] g)) (proc obs next T x0 t g).1 (proc obs next T x0 t g).2) (proc obs next T x0 j g).1
    (lq := (proc obs next T x0 j g).2) (fun hc => H.pos hc hj g)
  have h2 := mul_le_mul_of_nonneg_left (H.hL (obs (next^[t] g)) (proc obs next T x0 t g).1 (proc obs next T x0 t g).2) (sq_nonneg lr)
  have h3 : proc obs next T x0 (t + 1) g = freshStep clip lr Gam gam (obs (next^[t] g)) (proc obs next T x0 t g) := by
    show T t _ _ = _
    rw [H.hs t hpt]
  simp only [h3, freshStep]
  linarith

/-- the expected loss after `K` steps -/
theorem last_point (K : ℕ) (q : Fin N → ℝ) {lq : ℝ} (hq : clip = true → 0 ≤ lq) :
    ∫ g, (∫ g', Phi (obs g') (proc obs next T x0 (p + K) g).1 (proc obs next T x0 (p + K) g).2 ∂mu) ∂mu ≤
      ∫ g, Phi (obs g) q lq ∂mu + (∫ g, gap2 (proc obs next T x0 p g).1 (proc obs next T x0 p g).2 q lq ∂mu) / (2 * lr * (K + 1)) +
        lr / 2 * (∫ g, L (obs g) ^ 2 ∂mu) * (1 + (harmonic K : ℝ)) := by
  have hlr := H.hlr
  set L2 := ∫ g, L (obs g) ^ 2 ∂mu
  set e : ℕ → ℝ := fun t => ∫ g, (∫ g', Phi (obs g') (proc obs next T x0 (p + t) g).1 (proc obs next T x0 (p + t) g).2 ∂mu) ∂mu with he
  have tele : ∀ (d : ℕ → ℝ) (n : ℕ) (x : ℕ → ℝ), (∀ t, 0 ≤ d t) → (∀ t < n, 2 * lr * x t ≤ d t - d (t + 1) + lr ^ 2 * L2) →
      ∑ t ∈ Finset.range n, x t ≤ d 0 / (2 * lr) + lr / 2 * L2 * n := by
    intro d n x hd hx
    have h1 : ∀ m ≤ n, 2 * lr * ∑ t ∈ Finset.range m, x t ≤ d 0 - d m + lr ^ 2 * L2 * m := by
      intro m
      induction m with
      | zero => intro _; simp
      | succ m ih =>
        intro hm
        have h2 := ih (by omega)
        have h3 := hx m (by omega)
        rw [Finset.sum_range_succ]
        push_cast
        linarith
    have h2 := h1 n le_rfl
    have h3 := hd n
    have e1 : d 0 / (2 * lr) + lr / 2 * L2 * n - ∑ t ∈ Finset.range n, x t = (d 0 + lr ^ 2 * L2 * n - 2 * lr * ∑ t ∈ Finset.range n, x t) / (2 * lr) := by
      field_simp
    rw [← sub_nonneg, e1]
    exact div_nonneg (by linarith) (by positivity)
  have h1 : ∀ k, k ≤ K → ∑ t ∈ Finset.range (k + 1), (e (K - k + t) - e (K - k)) ≤ lr / 2 * L2 * (k + 1) := by
    intro k hk
    have h2 := tele (fun t => ∫ g, gap2 (proc obs next T x0 (p + (K - k + t)) g).1 (proc obs next T x0 (p + (K - k + t)) g).2
      (proc obs next T x0 (p + (K - k)) g).1 (proc obs next T x0 (p + (K - k)) g).2 ∂mu) (k + 1) (fun t => e (K - k + t) - e (K - k))
      (fun t => integral_nonneg fun g => gap2_nonneg _ _ _ _) (fun t _ => H.step_moving (t := p + (K - k + t)) (j := p + (K - k)) (by omega) (by omega))
    simp only [add_zero, gap2_self, integral_zero, zero_div, zero_add] at h2
    push_cast at h2
    exact h2
  have h2 := tele (fun t => ∫ g, gap2 (proc obs next T x0 (p + t) g).1 (proc obs next T x0 (p + t) g).2 q lq ∂mu) (K + 1) (fun t => e t - ∫ g, Phi (obs g) q lq ∂mu)
    (fun t => integral_nonneg fun g => gap2_nonneg _ _ _ _) (fun t _ => H.step_fixed (t := p + t) (by omega) q hq)
  push_cast at h2
  have h3 := last_iterate h1 h2
  simp only [add_zero] at h3
  rw [div_div] at h3
  exact h3

end DescendsFrom

end

end Skwdro
