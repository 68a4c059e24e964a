import Verif.Props.FreshLogistic
import Verif.Lemmas.Objective

/-! # The hypotheses of C128 can be met: training on normal samples -/

namespace Skwdro
open Spec MeasureTheory Tensor ProbabilityTheory

/-- the first term of a sequence put before the others -/
def consSeq {B : Type} (p : B × (ℕ → B)) : ℕ → B
  | 0 => p.1
  | k + 1 => p.2 k

theorem consSeq_measurable {B : Type} [MeasurableSpace B] : Measurable (consSeq (B := B)) := by
  refine measurable_pi_lambda _ fun k => ?_
  cases k with
  | zero => exact measurable_fst
  | succ k => exact (measurable_pi_apply k).comp measurable_snd

theorem consSeq_law {B : Type} [MeasurableSpace B] (beta : Measure B) [IsProbabilityMeasure beta] :
    (beta.prod (Measure.infinitePi fun _ : ℕ => beta)).map consSeq = Measure.infinitePi fun _ : ℕ => beta := by
  classical
  refine Measure.eq_infinitePi (fun _ : ℕ => beta) fun s t ht => ?_
  obtain ⟨N, hN⟩ : ∃ N, s ⊆ Finset.range (N + 1) := by
    obtain ⟨N, hN⟩ := s.exists_nat_subset_range
    exact ⟨N, hN.trans (Finset.range_subset_range.2 (Nat.le_succ N))⟩
  set t' : ℕ → Set B := fun i => if i ∈ s then t i else Set.univ with ht'
  have hm : ∀ i, MeasurableSet (t' i) := fun i => by
    simp only [ht']; split
    · exact ht i
    · exact MeasurableSet.univ
  have hp : ∏ i ∈ s, beta (t i) = ∏ i ∈ Finset.range (N + 1), beta (t' i) := by
    rw [← Finset.prod_subset hN (f := fun i => beta (t' i)) (fun i _ hi => by simp [ht', hi])]
    exact Finset.prod_congr rfl fun i hi => by simp [ht', hi]
  have hpre : consSeq ⁻¹' (Set.pi (s : Set ℕ) t) = t' 0 ×ˢ Set.pi (Finset.range N : Set ℕ) (fun k => t' (k + 1)) := by
    ext ⟨a, q⟩
    simp only [Set.mem_preimage, Set.mem_pi, Finset.mem_coe, Set.mem_prod, Finset.mem_range]
    constructor
    · intro h
      refine ⟨?_, fun k _ => ?_⟩
      · simp only [ht']; split
        · exact h 0 ‹_›
        · trivial
      · simp only [ht']; split
        · exact h (k + 1) ‹_›
        · trivial
    · rintro ⟨h0, hk⟩ i hi
      cases i with
      | zero =>
        have : a ∈ t 0 := by simpa [ht', hi] using h0
        exact this
      | succ k =>
        have := hk k (by have := Finset.mem_range.1 (hN hi); omega)
        have : q k ∈ t (k + 1) := by simpa [ht', hi] using this
        exact this
  rw [Measure.map_apply consSeq_measurable (MeasurableSet.pi s.countable_toSet fun i _ => ht i), hpre, Measure.prod_prod, hp, Finset.prod_range_succ', mul_comm,
    Measure.infinitePi_pi _ (fun k _ => hm (k + 1))]

/-- an infinite list of independent terms, of which each evaluation uses up one, gives fresh draws -/
theorem fresh_sequences {A B : Type} [MeasurableSpace A] [MeasurableSpace B] (beta : Measure B) [IsProbabilityMeasure beta] {f : B → A} (hf : Measurable f) :
    FreshDraws (Measure.infinitePi fun _ : ℕ => beta) (fun g k => g (k + 1)) (fun g => f (g 0)) := by
  set mu := Measure.infinitePi fun _ : ℕ => beta with hmu
  have hn : Measurable fun (g : ℕ → B) (k : ℕ) => g (k + 1) := measurable_pi_lambda _ fun k => measurable_pi_apply _
  have ho : Measurable fun g : ℕ → B => f (g 0) := hf.comp (measurable_pi_apply 0)
  refine ⟨hn, ho, ?_⟩
  have h1 : mu.map (fun g => f (g 0)) = beta.map f := by
    rw [show (fun g : ℕ → B => f (g 0)) = f ∘ fun g => g 0 from rfl, ← Measure.map_map hf (measurable_pi_apply 0), hmu, Measure.infinitePi_map_eval _ 0]
  rw [h1]
  conv_lhs => rw [hmu, ← consSeq_law beta]
  rw [Measure.map_map (ho.prodMk hn) consSeq_measurable]
  have e : (fun g : ℕ → B => (f (g 0), fun k => g (k + 1))) ∘ consSeq = Prod.map f id := rfl
  rw [e, ← Measure.map_prod_map _ _ hf measurable_id, Measure.map_id]

/-- a generator that goes through a list of banks of standard normals -/
noncomputable def seqExt : TorchExt (ℕ → NormalBank) where
  seed := fun _ _ _ _ _ _ => 0
  stdNormal := fun g sh => (ten (g 0 (sh.headD 0, sh.tail.headD 0, sh.tail.tail.headD 0)), fun k => g (k + 1))
  stdLaplace := fun g sh => (⟨sh, fun _ => 0⟩, g)
  bernoulli := fun g _ sh => (⟨sh, fun _ => true⟩, g)
  cholesky := id
  precisionToTril := id
  mvnLogDensity := fun _ _ => 0

/-- independent banks -/
noncomputable def seqLaw : Measure (ℕ → NormalBank) := Measure.infinitePi fun _ => bankLaw

instance : IsProbabilityMeasure seqLaw := by unfold seqLaw; infer_instance

/-- the numbers drawn are standard normals -/
theorem seq_normal {n m d : ℕ} (j : Fin n) (i : Fin m) (k : Fin d) : MeasurePreserving (fun g : ℕ → NormalBank => g 0 (n, m, d) j i k) seqLaw (gaussianReal 0 1) := by
  have h1 : MeasurePreserving (fun g : ℕ → NormalBank => g 0) seqLaw bankLaw := measurePreserving_eval_infinitePi (fun _ : ℕ => bankLaw) 0
  have h2 : MeasurePreserving (fun b : NormalBank => b (n, m, d)) bankLaw (Measure.pi fun _ : Fin n => Measure.pi fun _ : Fin m => Measure.pi fun _ : Fin d => gaussianReal 0 1) :=
    measurePreserving_eval_infinitePi (fun q : ℕ × ℕ × ℕ => Measure.pi fun _ : Fin q.1 => Measure.pi fun _ : Fin q.2.1 => Measure.pi fun _ : Fin q.2.2 => gaussianReal 0 1) (n, m, d)
  have h3 := measurePreserving_eval (fun _ : Fin n => Measure.pi fun _ : Fin m => Measure.pi fun _ : Fin d => gaussianReal 0 1) j
  have h4 := measurePreserving_eval (fun _ : Fin m => Measure.pi fun _ : Fin d => gaussianReal 0 1) i
  have h5 := measurePreserving_eval (fun _ : Fin d => gaussianReal 0 1) k
  exact h5.comp (h4.comp (h3.comp (h2.comp h1)))

theorem seq_memLp {n m d : ℕ} (x sigma : ℝ) (j : Fin n) (i : Fin m) (k : Fin d) : MemLp (fun g : ℕ → NormalBank => x + sigma * g 0 (n, m, d) j i k) 2 seqLaw := by
  have h : MemLp (fun g : ℕ → NormalBank => g 0 (n, m, d) j i k) 2 seqLaw := (memLp_id_gaussianReal' (μ := 0) (v := 1) 2 (by simp)).comp_measurePreserving (seq_normal j i k)
  exact (memLp_const x).add (h.const_mul sigma)

/-- the Euclidean norm as a cost: its square -/
theorem norm_cost_sq {d k : ℕ} {c : CostR} (hk : c.kind = .normCost) (hp : c.p = .fin 2) (hw : c.power = 1) (x z : Fin d → ℝ) (y y' : Fin k → ℝ) :
    costAt c x z y y' ^ 2 = ∑ i, (x i - z i) ^ 2 := by
  rw [C04_point_formula c hk (Or.inl ⟨2, by norm_num, hp⟩), hp, hw]
  have h0 : 0 ≤ ∑ i, |x i - z i| ^ (2 : ℝ) := Finset.sum_nonneg fun i _ => Real.rpow_nonneg (abs_nonneg _) _
  simp only [pnorm, Real.rpow_one]
  rw [← Real.rpow_natCast, ← Real.rpow_mul h0]
  norm_num

section
variable {n m d : ℕ} (X : Fin m → Fin d → ℝ) (y : Fin m → ℝ) (sigma : ℝ)

/-- samples around the data with the next bank as noise, and the labels of the data -/
def noisy (g : ℕ → NormalBank) : Drawn n m d := (fun j i k => X i k + sigma * g 0 (n, m, d) j i k, fun _ i => y i)

theorem noise_fresh : FreshDraws seqLaw (fun g k => g (k + 1)) (noisy (n := n) X y sigma) := by
  have hobs : Measurable fun b : NormalBank => ((fun (j : Fin n) i k => X i k + sigma * b (n, m, d) j i k, fun _ i => y i) : Drawn n m d) := by
    refine Measurable.prodMk ?_ measurable_const
    refine measurable_pi_lambda _ fun j => measurable_pi_lambda _ fun i => measurable_pi_lambda _ fun k => Measurable.const_add (Measurable.const_mul ?_ _) _
    exact (measurable_pi_apply k).comp ((measurable_pi_apply i).comp ((measurable_pi_apply j).comp (measurable_pi_apply (n, m, d))))
  exact fresh_sequences bankLaw hobs

theorem noise_draws {s : Sampler} (h1 : s.data_s = .normal (matT X) (.fin sigma)) (h2 : s.labels_s = some (.dirac (matT fun i (_ : Fin 1) => y i) 1)) (h3 : s.seed = none) :
    DrawsAre seqExt s (fun g k => g (k + 1)) (fun g => (noisy (n := n) X y sigma g).1) (fun g => (noisy (n := n) X y sigma g).2) := by
  intro g
  refine ⟨((Dist.normal (matT X) (.fin sigma)).rsample seqExt g n).1, ((Dist.dirac (matT fun i (_ : Fin 1) => y i) 1).rsample seqExt (fun k => g (k + 1)) n).1, ?_, ?_, ?_⟩
  · simp only [h3, seedGlobal, Sampler.sample, h1, h2]
    rfl
  · refine ⟨rfl, fun j i r => ?_⟩
    show (matT X).get [(i : ℕ), (r : ℕ)] + scaleVal (.fin sigma) * (ten (g 0 (n, m, d))).get [(j : ℕ), (i : ℕ), (r : ℕ)] = _
    rw [(isTen_ten (g 0 (n, m, d))).2 j i r]
    exact congrArg (· + _) ((isMat_mat X).2 i r)
  · refine ⟨rfl, fun j i r => ?_⟩
    show (matT fun i (_ : Fin 1) => y i).get [(i : ℕ), (r : ℕ)] = _
    exact (isMat_mat fun i (_ : Fin 1) => y i).2 i r

theorem noise_inputs : Integrable (fun g => ∑ j, ∑ i, (noisy (n := n) X y sigma g).2 j i ^ 2 * (∑ k, (noisy (n := n) X y sigma g).1 j i k ^ 2 + 1)) seqLaw :=
  integrable_finsetSum _ fun j _ => integrable_finsetSum _ fun i _ => Integrable.const_mul (f := fun g => ∑ k, (noisy (n := n) X y sigma g).1 j i k ^ 2 + 1)
    ((integrable_finsetSum _ fun k _ => (seq_memLp (X i k) sigma j i k).integrable_sq).add (integrable_const 1)) (y i ^ 2)

theorem noise_costs {c : CostR} (hc : GoodCost c) (hk : c.kind = .normCost) (hp : c.p = .fin 2) (hw : c.power = 1) :
    Integrable (fun g => (∑ j, ∑ i, |costAt c (X i) ((noisy (n := n) X y sigma g).1 j i) (fun (_ : Fin 1) => y i) (fun _ => (noisy (n := n) X y sigma g).2 j i)|) ^ 2) seqLaw := by
  have h1 : ∀ j i, MemLp (fun g => costAt c (X i) ((noisy (n := n) X y sigma g).1 j i) (fun (_ : Fin 1) => y i) (fun _ => (noisy (n := n) X y sigma g).2 j i)) 2 seqLaw := by
    intro j i
    have hm1 : Measurable fun a : Drawn n m d => costAt c (X i) (a.1 j i) (fun (_ : Fin 1) => y i) (fun _ => a.2 j i) :=
      (costAt_measurable hc (X i) (fun (_ : Fin 1) => y i)).comp (f := fun a : Drawn n m d => (a.1 j i, fun (_ : Fin 1) => a.2 j i)) (by fun_prop)
    have hme := hm1.comp (noise_fresh (n := n) X y sigma).obs_measurable
    refine (memLp_two_iff_integrable_sq hme.aestronglyMeasurable).2 ?_
    have e : (fun g => ((fun a : Drawn n m d => costAt c (X i) (a.1 j i) (fun (_ : Fin 1) => y i) (fun _ => a.2 j i)) ∘ noisy (n := n) X y sigma) g ^ 2) =
        fun g => ∑ k, (0 + (-sigma) * g 0 (n, m, d) j i k) ^ 2 := by
      funext g
      simp only [Function.comp_apply, norm_cost_sq hk hp hw]
      refine Finset.sum_congr rfl fun k _ => ?_
      simp only [noisy]
      ring
    rw [e]
    exact integrable_finsetSum _ fun k _ => (seq_memLp 0 (-sigma) j i k).integrable_sq
  exact (memLp_finset_sum _ fun j _ => memLp_finset_sum _ fun i _ => (h1 j i).norm).integrable_sq

end

/-- logistic regression with default arguments but the cost, the Euclidean distance of the inputs -/
noncomputable def exNorm : EstParams := { EstKind.logistic.defaults with cost := "t-NC-1-2".toList }

theorem exNorm_ready : FitReady exNorm true := by
  refine ⟨⟨_, (C01_decimal_roundtrip 1 2 5).2.2⟩, ⟨_, _, code_parse "NC".toList 1 2 (by decide) true, rfl, Or.inl ⟨rfl, Or.inr (Or.inl rfl)⟩, by simp⟩, fun s hs => ?_,
    fun r hr => ?_, fun s hs => ?_⟩ <;> simp only [exNorm, EstKind.defaults, Radius.num.injEq] at * <;> first | (subst hr; norm_num) | cases hs

/-- a condition that never stops the training -/
def endlessCond : OCConfig := ⟨.fin 2, 0, 0, "theta".toList, "rel".toList, "grad".toList⟩

/-- Two-class logistic regression robustified without a seed, with the Euclidean distance as cost: there is a backward pass that gives exact gradients, and with normal
samples drawn at each evaluation the trainings return, and are nearly optimal on average for the expected robust loss. -/
theorem fresh_applies (clip : Bool) {m d : ℕ} (hm : 0 < m) (X : Fin m → Fin d → ℝ) (y : Fin m → ℝ) (oc : OCState) {lr : ℝ} (hlr : 0 < lr) :
    ∃ (back : Tape (ℕ → NormalBank) → List ℝ × ℝ) (M : (ℕ → NormalBank) → Module d) (r : (ℕ → NormalBank) → Solved (List ℝ)) (sigma : ℝ) (D : DualLoss)
      (start : (ℕ → NormalBank) → (Fin (d + 1) → ℝ) × ℝ) (L : (ℕ → NormalBank) → ℝ), 0 < sigma ∧
    (∀ g, solveTorch seqExt (descentTorch clip lr back) endlessCond (fun x => x) (unseededLogistic (thetaGrad d) exNorm (matT X)
      (some (matT fun i (_ : Fin 1) => y i))) (.softMargin ⟨fun _ _ => 3, some fun _ => 1⟩) (.inr (200, 2800)) oc g = .ok (M g, r g)) ∧
    NearOptimalOnAverage seqLaw clip lr (fun g => logisticObjective (N := d + 1) ⟨fun _ _ => 3, some fun _ => 1⟩ D.cost (1 / 100) D.epsilon 0 X y
        (fun (j : Fin 10) i k => X i k + sigma * g 0 (10, m, d) j i k) (fun _ i => y i)) L 2800 start
      (.softMargin ⟨fun _ _ => 3, some fun _ => 1⟩) M r := by
  have h' := exNorm_ready
  set l0 : LinMap d 1 := ⟨fun _ _ => 3, some fun _ => 1⟩ with hl0
  have hlen : l0.params.length = d + 1 := by simp [LinMap.params, hl0]
  have ha : ArgsFit (unseededLogistic (thetaGrad d) exNorm (matT X) (some (matT fun i (_ : Fin 1) => y i))) (.softMargin l0) m 1 false :=
    ⟨rfl, by intro t ht; cases ht; rfl, ⟨rfl, rfl, rfl⟩, fun _ => ⟨rfl, rfl, rfl⟩, thetaGrad_shapes d, Or.inl rfl⟩
  have hr0 := torch_costReady (grads := thetaGrad d) (e := .logistic) (post := true) (mc := false) (X := matT X)
    (y := some (matT fun i (_ : Fin 1) => y i)) (M0 := .softMargin l0) h'
  have hr : CostReady (unseededLogistic (thetaGrad d) exNorm (matT X) (some (matT fun i (_ : Fin 1) => y i)) (.softMargin l0)) := ⟨hr0.code, hr0.sigma⟩
  obtain ⟨D, g', s, hD, hs, -⟩ := costReady_dualize (ext := seqExt) hr (fun _ _ => 0)
  have hsig : ∀ s, exNorm.sampler_reg = some s → 0 < s := h'.sigma
  have hrho : exNorm.rho = .num (1 / 100) := rfl
  have hpos : (0 : ℝ) < 1 / 100 := by norm_num
  have heps : ∀ e, exNorm.solver_reg = some e → 0 < e := fun e he => by cases he
  have hz : exNorm.n_zeta_samples = (10 : ℕ) := rfl
  have hn : 0 < 10 := by norm_num
  obtain ⟨hk, hp, hw, himp⟩ : D.cost.kind = .normCost ∧ D.cost.p = .fin 2 ∧ D.cost.power = 1 ∧ D.impSamp = false := by
    obtain ⟨parsed, obj, c, s', hp, hob, hc, hsm, rfl⟩ := dualize_ok hD
    have e : parse_code_torch (some exNorm.cost) true = .ok parsed := hp
    rw [show exNorm.cost = "t-NC-1-2".toList from rfl, show parse_code_torch (some "t-NC-1-2".toList) true = _ from code_parse "NC".toList 1 2 (by decide) true] at e
    simp only [Except.ok.injEq] at e
    subst e
    simp only [cost_from_parse_torch, if_true, Except.ok.injEq] at hob
    subst hob
    simp only [CostObj.toReal, mkNormCost, Nat.cast_one, Nat.cast_ofNat, Option.some.injEq] at hc
    subst hc
    refine ⟨rfl, ?_, ?_, ?_⟩ <;> simp [dualOf, decideOnImpsamp, ParsedCost.can_imp_samp, XNum.eqLit, XNum.map]
  set sigma : ℝ := expertSigma exNorm.rho exNorm.sampler_reg SIGMA_FACTOR with hsigma
  have hsg : 0 < sigma := expertSigma_pos hsig
  set Z : (ℕ → NormalBank) → Fin 10 → Fin m → Fin d → ℝ := fun g j i k => X i k + sigma * g 0 (10, m, d) j i k with hZ0
  set W : (ℕ → NormalBank) → Fin 10 → Fin m → ℝ := fun _ _ i => y i with hW0
  have hdraw : DrawsAre seqExt s (fun g k => g (k + 1)) Z W := by
    obtain ⟨s', hs', h1, h2, -, -, h3⟩ := dualize_sampler hD
    have hss : s' = s := by rw [hs] at hs'; exact (Option.some.inj hs').symm
    subst hss
    have e1 : s'.data_s = .normal (matT X) (.fin sigma) := by
      have h1 : samplerData D.cost (matT X) (some sigma) = .ok s'.data_s := h1
      simp only [samplerData, hw, hp] at h1
      simp [defaultEps, mkNormal, validScale, hsg] at h1
      exact h1.symm
    have e2 : s'.labels_s = some (.dirac (matT fun i (_ : Fin 1) => y i) 1) := by
      have h2 : samplerLabels D.cost (some (matT fun i (_ : Fin 1) => y i)) (some sigma) = .ok s'.labels_s := h2 _ rfl
      simp [samplerLabels, hk, samplerLabelsNC] at h2
      exact h2.symm
    have h3 : s'.seed = none := h3
    exact noise_draws X y sigma e1 e2 h3
  have hfresh : FreshDraws seqLaw (fun g k => g (k + 1)) fun g => (Z g, W g) := noise_fresh X y sigma
  have hB : Integrable (fun g => ∑ j, ∑ i, W g j i ^ 2 * (∑ k, Z g j i k ^ 2 + 1)) seqLaw := noise_inputs X y sigma
  have hL := (dualize_labelled_off hD rfl rfl himp hsig hrho hpos heps rfl one_pos (softMargin_rows l0) 0).1
  have heps0 : 0 < D.epsilon := hL.eps_pos
  have hK : Integrable (fun g => (∑ j, ∑ i, |costAt D.cost (X i) (Z g j i) (fun (_ : Fin 1) => y i) (fun _ => W g j i)|) ^ 2) seqLaw := noise_costs X y sigma hL.cost hk hp hw
  have hb : ∀ gen, ∃ b, ∀ j i, W gen j i ^ 2 * (∑ k, Z gen j i k ^ 2 + 1) ≤ b := by
    intro gen
    obtain ⟨b, hb⟩ := (Set.finite_range fun q : Fin 10 × Fin m => W gen q.1 q.2 ^ 2 * (∑ k, Z gen q.1 q.2 k ^ 2 + 1)).bddAbove
    exact ⟨b, fun j i => hb ⟨(j, i), rfl⟩⟩
  have hkb : ∀ gen, ∃ K, ∀ j i, |costAt D.cost (X i) (Z gen j i) (fun (_ : Fin 1) => y i) (fun _ => W gen j i)| ≤ K := by
    intro gen
    obtain ⟨b, hb⟩ := (Set.finite_range fun q : Fin 10 × Fin m =>
      |costAt D.cost (X q.2) (Z gen q.1 q.2) (fun (_ : Fin 1) => y q.2) (fun _ => W gen q.1 q.2)|).bddAbove
    exact ⟨b, fun j i => hb ⟨(j, i), rfl⟩⟩
  choose b hb using hb
  choose K hKb using hkb
  have hBb : ∀ gen j i, W gen j i ^ 2 * (∑ k, Z gen j i k ^ 2 + 1) ≤ Real.sqrt (max (b gen) 0) ^ 2 := fun gen j i => by
    rw [Real.sq_sqrt (le_max_right _ _)]; exact le_max_of_le_left (hb gen j i)
  choose gr gl hgr using fun gen => smooth_exists_grad (C120_curvature (rho := 1 / 100) (r2 := exNorm.l2_reg) hn hm hlen D.cost heps0 (hBb gen) (hKb gen))
  set back : Tape (ℕ → NormalBank) → List ℝ × ℝ := fun t =>
    (List.ofFn (gr t.gen (fun k => (t.loss.grads (scalar 0) none).1.get [k.1]) t.loss.lam), gl t.gen (fun k => (t.loss.grads (scalar 0) none).1.get [k.1]) t.loss.lam) with hback
  have hbk : PostBackIs seqExt (unseededLogistic (thetaGrad d) exNorm (matT X) (some (matT fun i (_ : Fin 1) => y i))) D (.softMargin l0) back
      (fun gen => IsGradAt (logisticObjective (N := d + 1) l0 D.cost (1 / 100) D.epsilon exNorm.l2_reg X y (Z gen) (W gen))) := by
    intro gen v l
    have hseed : D.seeded seqExt gen = gen := by
      obtain ⟨s', hs', -, -, -, -, h3⟩ := dualize_sampler hD
      have h3 : s'.seed = none := h3
      simp only [DualLoss.seeded, hs', Option.bind_some, h3, seedGlobal]
    rw [hseed]
    refine ⟨gr gen v l, gl gen v l, ?_, hgr gen v l⟩
    have e : (fun k : Fin (d + 1) => ((lossFor (unseededLogistic (thetaGrad d) exNorm (matT X)
        (some (matT fun i (_ : Fin 1) => y i))) D (.softMargin l0) false (⟨List.ofFn v, l, none, none, ()⟩ : OptView Unit)).grads (scalar 0) none).1.get [k.1]) = v := by
      funext k
      have e1 : (l0.withParams (List.ofFn v)).params = List.ofFn v := linMap_params_withParams l0 (by simpa using hlen.symm)
      show (l0.withParams (List.ofFn v)).params.getD k.1 0 = v k
      rw [e1, getD_ofFn k.2]
    rw [hback]
    dsimp only
    rw [e]
    rfl
  choose M r h1 using fun g => C86_fits_return_partial (ext := seqExt) (fl := fun x => x) (steps := .inr (200, 2800)) (descent_good clip lr back)
    ha hr h'.rho (by decide) (gradCond_ready (cfg := endlessCond) ⟨rfl, rfl, Or.inl rfl⟩ oc _ _) g
  obtain ⟨start, -, h2⟩ := C128_logistic (mu := seqLaw) hsig heps hrho hpos hz hn hm le_rfl X y l0 hD himp hw hs hdraw hfresh hB hK hlr hlen hbk
    (steps := .inr (200, 2800)) rfl (T := 2800) rfl (by norm_num) oc (neverStops_of_tol le_rfl le_rfl _) (fun g => (h1 g).1)
  exact ⟨back, M, r, sigma, D, start, _, hsg, fun g => (h1 g).1, h2⟩

end Skwdro
