import Verif.Spec.Subgradient
import Verif.Props.OnlineRegret
import Verif.Props.DualUnlabelled
import Verif.Props.EstObjective

/-! # C125: post-sampled training on losses with kinks has a small regret -/

namespace Skwdro
open Spec Tensor

/-- **C125** (chain rule) If each per-sample loss has a plane of slope `a` below it, then their average with the softmax weights used by the backward pass is a
subgradient of the robust loss. -/
theorem C125_chain_rule {N n m : ℕ} (hn : 0 < n) (hm : 0 < m) {rho p eps : ℝ} (he : 0 < eps) {A : Fin n → Fin m → (Fin N → ℝ) → ℝ} {C : Fin n → Fin m → ℝ}
    {v : Fin N → ℝ} {a : Fin n → Fin m → Fin N → ℝ} (ha : ∀ j i v', A j i v + ∑ k, a j i k * (v' k - v k) ≤ A j i v') (l : ℝ) :
    IsSubgradAt (fun v l => robust l rho p eps (fun j i => A j i v) C) v l
      (fun k => avg fun i => ∑ j, tilt eps (fun j => A j i v - l * C j i) j * a j i k)
      (rho ^ p - avg fun i => ∑ j, tilt eps (fun j => A j i v - l * C j i) j * C j i) := by
  intro v' l'
  have hm' : (0 : ℝ) < m := by exact_mod_cast hm
  set T : Fin m → Fin n → ℝ := fun i => tilt eps (fun j => A j i v - l * C j i) with hT
  set w : Fin m → Fin n → ℝ := fun i j => ∑ k, a j i k * (v' k - v k) - (l' - l) * C j i with hw
  have hl : ∀ i, softmax eps (fun j => A j i v - l * C j i) + ∑ j, T i j * w i j ≤ softmax eps (fun j => A j i v' - l' * C j i) :=
    fun i => (softmax_tangent hn he _ (w i)).trans (softmax_mono hn he fun j => by
      have h1 := ha j i v'
      simp only [hw]
      linarith)
  have e0 : ∀ i, ∑ j, T i j * w i j = ∑ k, (∑ j, T i j * a j i k) * (v' k - v k) - (∑ j, T i j * C j i) * (l' - l) := by
    intro i
    have e3 : ∑ k, (∑ j, T i j * a j i k) * (v' k - v k) = ∑ j, T i j * ∑ k, a j i k * (v' k - v k) := by
      simp only [Finset.sum_mul, Finset.mul_sum]
      rw [Finset.sum_comm]
      exact Finset.sum_congr rfl fun j _ => Finset.sum_congr rfl fun k _ => by ring
    rw [e3, Finset.sum_mul, ← Finset.sum_sub_distrib]
    exact Finset.sum_congr rfl fun j _ => by rw [hw]; ring
  have hsl := Finset.sum_le_sum fun i (_ : i ∈ Finset.univ) => hl i
  simp only [Finset.sum_add_distrib] at hsl
  have hsl' := div_le_div_of_nonneg_right hsl hm'.le
  rw [add_div] at hsl'
  have e1 : (∑ i, ∑ j, T i j * w i j) / m = ∑ k, (∑ i, ∑ j, T i j * a j i k) / m * (v' k - v k) - (∑ i, ∑ j, T i j * C j i) / m * (l' - l) := by
    simp only [e0, Finset.sum_sub_distrib, ← Finset.sum_mul, sub_div]
    rw [Finset.sum_comm]
    simp only [← Finset.sum_mul, div_mul_eq_mul_div, ← Finset.sum_div]
  rw [e1] at hsl'
  simp only [robust, avg]
  linarith

/-- a softmax average of numbers in an interval is in this interval -/
theorem avg_tilt_mem {n m : ℕ} (hn : 0 < n) (hm : 0 < m) (eps : ℝ) (u : Fin m → Fin n → ℝ) {x : Fin n → Fin m → ℝ} {a b : ℝ} (h : ∀ j i, a ≤ x j i ∧ x j i ≤ b) :
    a ≤ avg (fun i => ∑ j, tilt eps (u i) j * x j i) ∧ avg (fun i => ∑ j, tilt eps (u i) j * x j i) ≤ b := by
  have hm' : (0 : ℝ) < m := by exact_mod_cast hm
  have key : ∀ i, a ≤ ∑ j, tilt eps (u i) j * x j i ∧ ∑ j, tilt eps (u i) j * x j i ≤ b := by
    intro i
    have hw := tilt_weights hn eps (u i)
    constructor
    · have := Finset.sum_le_sum fun j (_ : j ∈ Finset.univ) => mul_le_mul_of_nonneg_left (h j i).1 (hw.1 j)
      rwa [← Finset.sum_mul, hw.2, one_mul] at this
    · have := Finset.sum_le_sum fun j (_ : j ∈ Finset.univ) => mul_le_mul_of_nonneg_left (h j i).2 (hw.1 j)
      rwa [← Finset.sum_mul, hw.2, one_mul] at this
  have h1 := Finset.sum_le_sum fun i (_ : i ∈ Finset.univ) => (key i).1
  have h2 := Finset.sum_le_sum fun i (_ : i ∈ Finset.univ) => (key i).2
  simp only [Finset.sum_const, Finset.card_univ, Fintype.card_fin, nsmul_eq_mul] at h1 h2
  unfold avg
  exact ⟨by rw [le_div_iff₀ hm']; linarith, by rw [div_le_iff₀ hm']; linarith⟩

/-- a softmax average of vectors is no longer than these vectors -/
theorem avg_tilt_len {N n m : ℕ} (hn : 0 < n) (hm : 0 < m) (eps : ℝ) (u : Fin m → Fin n → ℝ) {a : Fin n → Fin m → Fin N → ℝ} {B : ℝ} (h0 : 0 ≤ B)
    (h : ∀ j i, ∑ k, a j i k ^ 2 ≤ B ^ 2) : ∑ k, (avg fun i => ∑ j, tilt eps (u i) j * a j i k) ^ 2 ≤ B ^ 2 := by
  set g : Fin N → ℝ := fun k => avg fun i => ∑ j, tilt eps (u i) j * a j i k with hg
  have e : ∑ k, g k ^ 2 = avg fun i => ∑ j, tilt eps (u i) j * ∑ k, a j i k * g k := by
    have : ∀ k, g k ^ 2 = (∑ i, ∑ j, tilt eps (u i) j * (a j i k * g k)) / m := by
      intro k
      rw [sq]
      conv_lhs => lhs; rw [hg]
      simp only [avg, div_mul_eq_mul_div, Finset.sum_mul, mul_assoc]
    simp only [this, avg, ← Finset.sum_div, Finset.mul_sum]
    congr 1
    rw [Finset.sum_comm]
    exact Finset.sum_congr rfl fun i _ => Finset.sum_comm
  have hb : ∀ j i, ∑ k, a j i k * g k ≤ B * Real.sqrt (∑ k, g k ^ 2) := by
    intro j i
    have h5 : (∑ k, a j i k * g k) ^ 2 ≤ (∑ k, a j i k ^ 2) * ∑ k, g k ^ 2 := Finset.sum_mul_sq_le_sq_mul_sq _ _ _
    have hs : 0 ≤ ∑ k, g k ^ 2 := Finset.sum_nonneg fun _ _ => sq_nonneg _
    have h6 := Real.abs_le_sqrt (h5.trans (mul_le_mul_of_nonneg_right (h j i) hs))
    rw [Real.sqrt_mul (sq_nonneg B), Real.sqrt_sq h0] at h6
    exact (le_abs_self _).trans h6
  have hlo : ∃ c, ∀ j i, c ≤ ∑ k, a j i k * g k := by
    obtain ⟨c, hc⟩ := (Set.finite_range fun q : Fin n × Fin m => ∑ k, a q.1 q.2 k * g k).bddBelow
    exact ⟨c, fun j i => hc ⟨(j, i), rfl⟩⟩
  obtain ⟨c, hc⟩ := hlo
  have h1 := (avg_tilt_mem hn hm eps u (fun j i => ⟨hc j i, hb j i⟩)).2
  rw [← e] at h1
  set s := Real.sqrt (∑ k, g k ^ 2) with hs
  have hs2 : s ^ 2 = ∑ k, g k ^ 2 := Real.sq_sqrt (Finset.sum_nonneg fun _ _ => sq_nonneg _)
  have hs0 : 0 ≤ s := Real.sqrt_nonneg _
  rw [← hs2] at h1 ⊢
  have : s ≤ B := by
    by_contra hc
    push Not at hc
    nlinarith
  exact pow_le_pow_left₀ hs0 this 2

/-- the slope in the multiplier -/
theorem lam_slope {n m : ℕ} (hn : 0 < n) (hm : 0 < m) (eps : ℝ) (u : Fin m → Fin n → ℝ) {C : Fin n → Fin m → ℝ} {R K : ℝ} (hR : 0 ≤ R) (h : ∀ j i, 0 ≤ C j i ∧ C j i ≤ K) :
    (R - avg fun i => ∑ j, tilt eps (u i) j * C j i) ^ 2 ≤ max R K ^ 2 := by
  obtain ⟨h1, h2⟩ := avg_tilt_mem hn hm eps u h
  refine sq_le_sq' ?_ ?_
  · have := le_max_right R K
    linarith
  · have := le_max_left R K
    linarith

/-! ## News vendor -/

theorem newsvendor_plane {k u : ℝ} (hu : 0 ≤ u) {theta x s : ℝ} (h : MinSlope theta x s) (theta' : ℝ) :
    newsvendor k u theta x + (k - u * s) * (theta' - theta) ≤ newsvendor k u theta' x := by
  obtain ⟨h0, h1, h2, h3⟩ := h
  have key : min theta' x ≤ min theta x + s * (theta' - theta) := by
    rcases lt_trichotomy theta x with hlt | rfl | hgt
    · rw [h2 hlt, min_eq_left hlt.le]
      have := min_le_left theta' x
      linarith
    · rw [min_self]
      rcases le_total theta' theta with hle | hle
      · rw [min_eq_left hle]; nlinarith
      · rw [min_eq_right hle]; nlinarith
    · rw [h3 hgt, min_eq_right hgt.le]
      have := min_le_right theta' x
      linarith
  unfold newsvendor
  nlinarith [mul_le_mul_of_nonneg_left key hu]

/-- **C125** (news vendor) The derivative by the chain rule is a subgradient of the robust loss of the order, whatever is taken at the kinks. -/
theorem C125_newsvendor_slope {m n : ℕ} (hn : 0 < n) (hm : 0 < m) {k u : ℝ} (hu : 0 ≤ u) (c : CostR) {rho eps : ℝ} (he : 0 < eps) {X : Fin m → ℝ}
    {Z : Fin n → Fin m → ℝ} {v : Fin 1 → ℝ} {lam : ℝ} {g : Fin 1 → ℝ} {gl : ℝ} (h : NewsvendorSlope k u c rho eps X Z v lam g gl) :
    IsSubgradAt (newsvendorObjective k u c rho eps X Z) v lam g gl := by
  obtain ⟨s, h1, h2, h3⟩ := h
  have h4 := C125_chain_rule hn hm (rho := rho) (p := c.power) he (A := fun j i v => newsvendor k u (v 0) (Z j i)) (C := fun j i => |X i - Z j i| ^ c.power)
    (v := v) (a := fun j i _ => k - u * s j i) (fun j i v' => by simpa using newsvendor_plane hu (h1 j i) (v' 0)) lam
  have e : g = fun _ => g 0 := funext fun q => by rw [Subsingleton.elim q 0]
  rw [e, h2, h3]
  exact h4

theorem newsvendor_slope_le {m n : ℕ} (hn : 0 < n) (hm : 0 < m) {k u : ℝ} (hu : 0 ≤ u) (c : CostR) {rho eps : ℝ} (hr : 0 < rho) {X : Fin m → ℝ}
    {Z : Fin n → Fin m → ℝ} {K : ℝ} (hK : ∀ j i, |X i - Z j i| ^ c.power ≤ K) :
    SlopeAtMost (NewsvendorSlope k u c rho eps X Z) (Real.sqrt (max |k| |u - k| ^ 2 + max (rho ^ c.power) K ^ 2)) := by
  rintro v lam g gl ⟨s, h1, h2, h3⟩
  rw [Real.sq_sqrt (by positivity), Fin.sum_univ_one, h2, h3]
  refine add_le_add ?_ (lam_slope hn hm eps _ (Real.rpow_nonneg hr.le _) fun j i => ⟨Real.rpow_nonneg (abs_nonneg _) _, hK j i⟩)
  have h4 := avg_tilt_mem hn hm eps (fun i j => newsvendor k u (v 0) (Z j i) - lam * |X i - Z j i| ^ c.power) (x := fun j i => k - u * s j i) (a := k - u) (b := k)
    (fun j i => ⟨by nlinarith [(h1 j i).2.1], by nlinarith [(h1 j i).1]⟩)
  refine sq_le_sq' ?_ ?_
  · have := (le_abs_self (u - k)).trans (le_max_right |k| |u - k|)
    linarith [h4.1]
  · have := (le_abs_self k).trans (le_max_left |k| |u - k|)
    linarith [h4.2]

theorem pnorm_single {p : XNum ℝ} (hp : NormOrder p) (f : Fin 1 → ℝ) : pnorm p f = |f 0| := by
  rcases hp with ⟨q, hq, rfl⟩ | rfl
  · simp only [pnorm, Fin.sum_univ_one]
    rw [← Real.rpow_mul (abs_nonneg _), mul_one_div_cancel (by linarith), Real.rpow_one]
  · simp only [pnorm, ciSup_unique]
    rfl

section
variable {G : Type} {ext : TorchExt G} {cfg : OCConfig} {fl : ℝ → ℝ} {clip : Bool}

/-- the robust loss built from an unlabelled, per-sample loss when importance sampling is off -/
theorem dualize_unlabelled_off {a : DualizeArgs} {g g' : G} {D : DualLoss} (h : dualize ext a g = .ok (D, g'))
    (hl : a.xi_labels = none) (hsp : a.loss_reduces_spatial_dims = false) (hi : D.impSamp = false) (hkind : D.cost.kind = .normCost)
    {rho : ℝ} (hr : a.rho = .num rho) (hpos : 0 < rho) (he : ∀ x, a.epsilon = some x → 0 < x)
    (hred : a.reduction = none) {d s : ℕ} (hs : 0 < s) {ell : (Fin d → ℝ) → Fin s → ℝ} (hrow : RowWise0 a.flat ell) (lam : ℝ) :
    NoLabels a.wloss { D with lam := lam } ell rho ∧ D.reduction = .mean := by
  have hord := (dualize_goodCost h).order
  obtain ⟨parsed, obj, c, smp, hp, ho, hc, -, rfl⟩ := dualize_ok h
  refine ⟨⟨rfl, by simp [DualizeArgs.wloss, hl], by simp [DualizeArgs.wloss, hsp], hs, hrow, hkind, hord, hr, hpos, ?_, rfl, hi⟩, ?_⟩
  · simp only [dualOf, hr]
    exact expertEpsilon_pos he
  · simp [dualOf, hred, reductionAttr]

theorem newsvendor_lossIs {m n : ℕ} {post : Bool} {grads : Autograd 1} {P : EstParams}
    (heps : ∀ e, P.solver_reg = some e → 0 < e) {rho : ℝ} (hrho : P.rho = .num rho) (hpos : 0 < rho) (hn : 0 < n) (hm : 0 < m)
    (X : Fin m → ℝ) (k u theta0 : ℝ) {g g' : G} {D : DualLoss}
    (hD : dualize ext (torchArgs grads .newsvendor P post false (matT fun i (_ : Fin 1) => X i) none (.newsvendor k u theta0)) g = .ok (D, g')) (himp : D.impSamp = false)
    (hkind : D.cost.kind = .normCost) {Z : Fin n → Fin m → ℝ} {Zt : Tensor ℝ} (hZt : IsTen Zt fun j i (_ : Fin 1) => Z j i) :
    LossIs ext (torchArgs grads .newsvendor P post false (matT fun i (_ : Fin 1) => X i) none) D (.newsvendor k u theta0) (Zt, none)
      (newsvendorObjective k u D.cost rho D.epsilon X Z) := by
  intro v lam
  have hD' := dualize_onlyModule (torchArgs_onlyModule grads .newsvendor P post false (matT fun i (_ : Fin 1) => X i) none (.newsvendor k u theta0)
    (.newsvendor k u (v 0))) hD
  obtain ⟨hL, hmean⟩ := dualize_unlabelled_off hD' rfl rfl himp hkind hrho hpos heps rfl one_pos (newsvendor_rows k u (v 0)) lam
  have := C29_formula_unlabelled ext hL hmean hn hm (isMat_mat fun i (_ : Fin 1) => X i) hZt
  have e1 : (torchArgs grads EstKind.newsvendor P post false (matT fun i (_ : Fin 1) => X i) none (.newsvendor k u (v 0))).wloss.l2reg = none := rfl
  have herm : D.ermMode = false := hL.erm
  have e3 : lossFor (torchArgs grads .newsvendor P post false (matT fun i (_ : Fin 1) => X i) none) D (.newsvendor k u theta0) false
      (⟨List.ofFn v, lam, none, none, ()⟩ : OptView Unit) = { D with
        primal := (torchArgs grads .newsvendor P post false (matT fun i (_ : Fin 1) => X i) none (.newsvendor k u (v 0))).wloss.value,
        grads := grads (.newsvendor k u (v 0)), lam := lam } := by
    simp only [lossFor, Module.withParams, herm]
    rfl
  rw [e3]
  have hord : NormOrder D.cost.p := hL.order
  have e4 : ∀ f : Fin 1 → ℝ, pnorm D.cost.p f = |f 0| := pnorm_single hord
  simp only [lossAt0, avg, e1, e4, ridge, Finset.univ_unique, Finset.sum_singleton, Nat.cast_one, div_one, add_zero] at this
  exact this

/-- **C125** (news vendor) Post-sampled training of an order by gradient descent with any learning rate, from any initial order, on any demands, with a price `u ≥ 0`
and a cost for which importance sampling is off (such as the default), when the backward pass applies the chain rule.  The losses met are on average hardly above those of
any fixed order and multiplier on the same draws, if the ground costs of the samples drawn in the state `gen` of the generator are at most `K gen`. -/
theorem C125_newsvendor {m n : ℕ} {grads : Autograd 1} {P : EstParams}
    (heps : ∀ e, P.solver_reg = some e → 0 < e) {rho : ℝ} (hrho : P.rho = .num rho) (hpos : 0 < rho) (hz : P.n_zeta_samples = n) (hn : 0 < n) (hm : 0 < m)
    (X : Fin m → ℝ) {k u : ℝ} (hu : 0 ≤ u) (theta0 : ℝ) {g g' : G} {D : DualLoss}
    (hD : dualize ext (torchArgs grads .newsvendor P true false (matT fun i (_ : Fin 1) => X i) none (.newsvendor k u theta0)) g = .ok (D, g'))
    (himp : D.impSamp = false) (hkind : D.cost.kind = .normCost) {s : Sampler} (hs : D.sampler = some s) {next : G → G} {Z : G → Fin n → Fin m → ℝ}
    (hZ : DrawsAre0 ext s next fun gen j i (_ : Fin 1) => Z gen j i) {K : G → ℝ} (hK : ∀ gen j i, |X i - Z gen j i| ^ D.cost.power ≤ K gen) {lr : ℝ} (hl : 0 < lr)
    {back : Tape G → List ℝ × ℝ}
    (hback : PostBackIs ext (torchArgs grads .newsvendor P true false (matT fun i (_ : Fin 1) => X i) none) D (.newsvendor k u theta0) back
      fun gen => NewsvendorSlope k u D.cost rho D.epsilon X (Z gen))
    {steps : ℤ ⊕ (ℤ × ℤ)} {p q0 : ℤ} (hst : interpretSteps fl split03 (toSteps steps) = .ok (p, q0))
    {T : ℕ} (hT : (toSteps steps).iterations = T) (hT0 : 0 < T) (oc : OCState) {M : Module 1} {r : Solved (List ℝ)}
    (h : solveTorch ext (descentTorch clip lr back) cfg fl (torchArgs grads .newsvendor P true false (matT fun i (_ : Fin 1) => X i) none)
      (.newsvendor k u theta0) steps oc g = .ok (M, r)) :
    ∃ v0 v1 g1 v2, Iterated (fun a b => ∃ x, PostUpdate ext (descentTorch clip lr back) (torchArgs grads .newsvendor P true false (matT fun i (_ : Fin 1) => X i) none)
        D (.newsvendor k u theta0) x a b) p.toNat (⟨[theta0], D.lam, none, none, ()⟩, g') (v1, g1) ∧
      DualGuessed (torchArgs grads .newsvendor P true false (matT fun i (_ : Fin 1) => X i) none) D (.newsvendor k u theta0) v1 v2 ∧
      v2.params = List.ofFn v0 ∧
      SmallRegret cfg clip lr (fun gen => NewsvendorSlope k u D.cost rho D.epsilon X (Z gen)) (fun gen => newsvendorObjective k u D.cost rho D.epsilon X (Z gen))
        (fun gen => Real.sqrt (max |k| |u - k| ^ 2 + max (rho ^ D.cost.power) (K gen) ^ 2)) next T v0 v2.lam g1 (.newsvendor k u theta0) M r := by
  have hL := (dualize_unlabelled_off hD rfl rfl himp hkind hrho hpos heps rfl one_pos (newsvendor_rows k u theta0) 0).1
  have heps0 : 0 < D.epsilon := hL.eps_pos
  have hDr : D.rho = .num rho := hL.rho_eq
  have hDn : D.nSamples = n := by
    obtain ⟨parsed, obj, c, s', -, -, -, -, rfl⟩ := dualize_ok hD
    show P.n_zeta_samples.toNat = n
    rw [hz]; simp
  refine C125_regret hD rfl (by show P.rho.isPos = true; rw [hrho]; simpa [Radius.isPos] using hpos) hst hT hT0 oc (N := 1) rfl ?_ hback
    (fun gen v l g gl hg => C125_newsvendor_slope hn hm hu D.cost heps0 hg)
    (fun gen => newsvendor_slope_le hn hm hu D.cost hpos (hK gen)) hl h
  intro gen v lam
  obtain ⟨Zt, h1, h2⟩ := hZ gen
  obtain ⟨t, h4, h5⟩ := newsvendor_lossIs heps hrho hpos hn hm X k u theta0 hD himp hkind h2 v lam
  have hst := dualize_steady hD
  exact ⟨t, _, postForward_draws hst hs hDr hpos hDn h1 h4, h5⟩

/-- an unlabelled sampler always draws such samples -/
theorem draws_exist0 (ext : TorchExt G) {s : Sampler} {m k : ℕ} (h : SamplerFits s m 1 k false) (n : ℕ) :
    ∃ (next : G → G) (Z : G → Fin n → Fin m → ℝ), (DrawsAre0 ext s next fun gen j i (_ : Fin 1) => Z gen j i) ∧ ∀ gen, Z (seedGlobal ext s.seed gen) = Z gen := by
  refine ⟨fun gen => (s.sample ext n (seedGlobal ext s.seed gen)).2.2, fun gen j i => (s.sample ext n (seedGlobal ext s.seed gen)).1.get [j.1, i.1, 0], fun gen => ?_, fun gen => by dsimp only; rw [seedGlobal_idem]⟩
  obtain ⟨z1, z2, -⟩ := sample_shapes ext h (seedGlobal ext s.seed gen) n
  refine ⟨(s.sample ext n (seedGlobal ext s.seed gen)).1, Prod.ext rfl (Prod.ext (by simpa using z2) rfl), z1, fun j i q => ?_⟩
  rw [Subsingleton.elim q 0]
  rfl

/-! ## Weber -/

theorem dist2_plane {d : ℕ} (z v v' : Fin d → ℝ) :
    dist2 z v + ∑ k, (if dist2 z v = 0 then 0 else (v k - z k) / dist2 z v) * (v' k - v k) ≤ dist2 z v' := by
  by_cases h : dist2 z v = 0
  · simp only [h, if_true, zero_mul, Finset.sum_const_zero, add_zero]
    exact Real.sqrt_nonneg _
  · have h0 : 0 < dist2 z v := lt_of_le_of_ne (Real.sqrt_nonneg _) (Ne.symm h)
    simp only [if_neg h]
    have h2 : dist2 z v ^ 2 = ∑ k, (v k - z k) ^ 2 := by
      rw [dist2, Real.sq_sqrt (Finset.sum_nonneg fun _ _ => sq_nonneg _)]
      exact Finset.sum_congr rfl fun k _ => by ring
    have h3 : (∑ k, (v k - z k) * (v' k - z k)) ≤ dist2 z v * dist2 z v' := by
      have h5 : (∑ k, (v k - z k) * (v' k - z k)) ^ 2 ≤ (∑ k, (v k - z k) ^ 2) * ∑ k, (v' k - z k) ^ 2 := Finset.sum_mul_sq_le_sq_mul_sq _ _ _
      have h6 := Real.abs_le_sqrt h5
      rw [← h2, Real.sqrt_mul (sq_nonneg _), Real.sqrt_sq h0.le] at h6
      have e : Real.sqrt (∑ k, (v' k - z k) ^ 2) = dist2 z v' := by
        rw [dist2]; congr 1; exact Finset.sum_congr rfl fun k _ => by ring
      rw [e] at h6
      exact (le_abs_self _).trans h6
    have e : dist2 z v + ∑ k, (v k - z k) / dist2 z v * (v' k - v k) = (∑ k, (v k - z k) * (v' k - z k)) / dist2 z v := by
      have e1 : ∑ k, (v k - z k) * (v' k - z k) = dist2 z v ^ 2 + ∑ k, (v k - z k) * (v' k - v k) := by
        rw [h2, ← Finset.sum_add_distrib]
        exact Finset.sum_congr rfl fun k _ => by ring
      rw [e1, add_div, sq, mul_div_cancel_right₀ _ h, Finset.sum_div]
      congr 1
      exact Finset.sum_congr rfl fun k _ => by ring
    rw [e, div_le_iff₀ h0]
    linarith

theorem dist2_slope_le {d : ℕ} (z v : Fin d → ℝ) : ∑ k, (if dist2 z v = 0 then 0 else (v k - z k) / dist2 z v) ^ 2 ≤ 1 := by
  by_cases h : dist2 z v = 0
  · simp [h]
  · simp only [if_neg h, div_pow, ← Finset.sum_div]
    have h2 : dist2 z v ^ 2 = ∑ k, (v k - z k) ^ 2 := by
      rw [dist2, Real.sq_sqrt (Finset.sum_nonneg fun _ _ => sq_nonneg _)]
      exact Finset.sum_congr rfl fun k _ => by ring
    rw [← h2, div_self (pow_ne_zero 2 h)]

/-- **C125** (Weber) With non-negative weights, the derivative by the chain rule is a subgradient of the robust loss of the facility. -/
theorem C125_weber_slope {m n d : ℕ} (hn : 0 < n) (hm : 0 < m) (c : CostR) {rho eps : ℝ} (he : 0 < eps) {X : Fin m → Fin d → ℝ} {y : Fin m → ℝ}
    {Z : Fin n → Fin m → Fin d → ℝ} {W : Fin n → Fin m → ℝ} (hW : ∀ j i, 0 ≤ W j i) {v : Fin d → ℝ} {lam : ℝ} {g : Fin d → ℝ} {gl : ℝ}
    (h : WeberSlope c rho eps X y Z W v lam g gl) : IsSubgradAt (weberObjective c rho eps X y Z W) v lam g gl := by
  obtain ⟨h1, h2⟩ := h
  have h3 := C125_chain_rule hn hm (rho := rho) (p := c.power) he (A := fun j i v => W j i * dist2 (Z j i) v)
    (C := fun j i => costAt c (X i) (Z j i) (fun (_ : Fin 1) => y i) (fun _ => W j i))
    (v := v) (a := fun j i k => W j i * (if dist2 (Z j i) v = 0 then 0 else (v k - Z j i k) / dist2 (Z j i) v)) (fun j i v' => by
      have := mul_le_mul_of_nonneg_left (dist2_plane (Z j i) v v') (hW j i)
      rw [mul_add, Finset.mul_sum] at this
      simpa only [mul_assoc] using this) lam
  rw [show g = _ from funext h1, h2]
  exact h3

theorem weber_slope_le {m n d : ℕ} (hn : 0 < n) (hm : 0 < m) (c : CostR) {rho eps : ℝ} (hr : 0 < rho) {X : Fin m → Fin d → ℝ} {y : Fin m → ℝ}
    {Z : Fin n → Fin m → Fin d → ℝ} {W : Fin n → Fin m → ℝ} {B K : ℝ} (hB0 : 0 ≤ B) (hB : ∀ j i, |W j i| ≤ B)
    (hK : ∀ j i, |costAt c (X i) (Z j i) (fun (_ : Fin 1) => y i) (fun _ => W j i)| ≤ K) :
    SlopeAtMost (WeberSlope c rho eps X y Z W) (Real.sqrt (B ^ 2 + (rho ^ c.power + K) ^ 2)) := by
  rintro v lam g gl ⟨h1, h2⟩
  have hp := Real.rpow_pos_of_pos hr c.power
  rw [Real.sq_sqrt (by positivity), h2]
  simp only [h1]
  refine add_le_add (avg_tilt_len hn hm eps _ (a := fun j i k => W j i * (if dist2 (Z j i) v = 0 then 0 else (v k - Z j i k) / dist2 (Z j i) v)) hB0 fun j i => ?_) ?_
  · simp only [mul_pow, ← Finset.mul_sum]
    have h3 := mul_le_mul_of_nonneg_left (dist2_slope_le (Z j i) v) (sq_nonneg (W j i))
    have h4 : W j i ^ 2 ≤ B ^ 2 := by rw [← sq_abs]; exact pow_le_pow_left₀ (abs_nonneg _) (hB j i) 2
    linarith
  · obtain ⟨h3, h4⟩ := avg_tilt_mem hn hm eps (fun i j => W j i * dist2 (Z j i) v - lam * costAt c (X i) (Z j i) (fun (_ : Fin 1) => y i) (fun _ => W j i))
      (fun j i => abs_le.1 (hK j i))
    exact sq_le_sq' (by linarith) (by linarith)

theorem weber_lossIs {m n d : ℕ} {post : Bool} {grads : Autograd d} {P : EstParams} (hsig : ∀ s, P.sampler_reg = some s → 0 < s)
    (heps : ∀ e, P.solver_reg = some e → 0 < e) {rho : ℝ} (hrho : P.rho = .num rho) (hpos : 0 < rho) (hn : 0 < n) (hm : 0 < m) (hl2 : P.l2_reg ≤ 0)
    (X : Fin m → Fin d → ℝ) (y : Fin m → ℝ) (pos0 : Fin d → ℝ) {g g' : G} {D : DualLoss}
    (hD : dualize ext (torchArgs grads .weber P post false (matT X) (some (matT fun i (_ : Fin 1) => y i)) (.weber pos0)) g = .ok (D, g')) (himp : D.impSamp = false)
    {Z : Fin n → Fin m → Fin d → ℝ} {W : Fin n → Fin m → ℝ} {Zt Wt : Tensor ℝ} (hZt : IsTen Zt Z) (hWt : IsTen Wt fun j i (_ : Fin 1) => W j i) :
    LossIs ext (torchArgs grads .weber P post false (matT X) (some (matT fun i (_ : Fin 1) => y i))) D (.weber pos0) (Zt, some Wt)
      (weberObjective D.cost rho D.epsilon X y Z W) := by
  intro v lam
  have hD' := dualize_onlyModule (torchArgs_onlyModule grads .weber P post false (matT X) (some (matT fun i (_ : Fin 1) => y i)) (.weber pos0) (.weber v)) hD
  obtain ⟨hL, hmean, -⟩ := dualize_labelled_off hD' rfl rfl himp hsig hrho hpos heps rfl one_pos (weber_rows v) lam
  have := C29_formula_labelled ext hL hmean hn hm (isMat_mat X) hZt (isMat_mat fun i (_ : Fin 1) => y i) hWt
  have e1 : ridge (torchArgs grads EstKind.weber P post false (matT X) (some (matT fun i (_ : Fin 1) => y i)) (.weber v)).wloss.l2reg
      (torchArgs grads EstKind.weber P post false (matT X) (some (matT fun i (_ : Fin 1) => y i)) (.weber v)).wloss.theta = 0 := by
    show ridge (some P.l2_reg) _ = 0
    simp [ridge, hl2]
  have herm : D.ermMode = false := hL.erm
  have ev : (fun k : Fin d => (List.ofFn v).getD k.1 0) = v := funext fun k => getD_ofFn k.2
  have e3 : lossFor (torchArgs grads .weber P post false (matT X) (some (matT fun i (_ : Fin 1) => y i))) D (.weber pos0) false
      (⟨List.ofFn v, lam, none, none, ()⟩ : OptView Unit) = { D with
        primal := (torchArgs grads .weber P post false (matT X) (some (matT fun i (_ : Fin 1) => y i)) (.weber v)).wloss.value,
        grads := grads (.weber v), lam := lam } := by
    simp only [lossFor, Module.withParams, herm, ev]
    rfl
  rw [e3]
  simp only [lossAt, avg, e1, Finset.univ_unique, Finset.sum_singleton, Nat.cast_one, div_one, add_zero] at this
  exact this

/-- **C125** (Weber) Post-sampled training of a facility by gradient descent with any learning rate, from any initial place, on any locations, without ridge penalty and
with a cost for which importance sampling is off, when the backward pass applies the chain rule.  The losses met are on average hardly above those of any fixed place and
multiplier on the same draws, if the samples drawn in the state `gen` of the generator have weights between zero and `B gen` and ground costs at most `K gen`. -/
theorem C125_weber {m n d : ℕ} {grads : Autograd d} {P : EstParams} (hsig : ∀ s, P.sampler_reg = some s → 0 < s)
    (heps : ∀ e, P.solver_reg = some e → 0 < e) {rho : ℝ} (hrho : P.rho = .num rho) (hpos : 0 < rho) (hz : P.n_zeta_samples = n) (hn : 0 < n) (hm : 0 < m)
    (hl2 : P.l2_reg ≤ 0) (X : Fin m → Fin d → ℝ) (y : Fin m → ℝ) (pos0 : Fin d → ℝ) {g g' : G} {D : DualLoss}
    (hD : dualize ext (torchArgs grads .weber P true false (matT X) (some (matT fun i (_ : Fin 1) => y i)) (.weber pos0)) g = .ok (D, g'))
    (himp : D.impSamp = false) {s : Sampler} (hs : D.sampler = some s) {next : G → G} {Z : G → Fin n → Fin m → Fin d → ℝ} {W : G → Fin n → Fin m → ℝ}
    (hZ : DrawsAre ext s next Z W) {B K : G → ℝ} (hB : ∀ gen j i, 0 ≤ W gen j i ∧ W gen j i ≤ B gen)
    (hK : ∀ gen j i, |costAt D.cost (X i) (Z gen j i) (fun (_ : Fin 1) => y i) (fun _ => W gen j i)| ≤ K gen) {lr : ℝ} (hl : 0 < lr)
    {back : Tape G → List ℝ × ℝ}
    (hback : PostBackIs ext (torchArgs grads .weber P true false (matT X) (some (matT fun i (_ : Fin 1) => y i))) D (.weber pos0) back
      fun gen => WeberSlope D.cost rho D.epsilon X y (Z gen) (W gen))
    {steps : ℤ ⊕ (ℤ × ℤ)} {p q0 : ℤ} (hst : interpretSteps fl split03 (toSteps steps) = .ok (p, q0))
    {T : ℕ} (hT : (toSteps steps).iterations = T) (hT0 : 0 < T) (oc : OCState) {M : Module d} {r : Solved (List ℝ)}
    (h : solveTorch ext (descentTorch clip lr back) cfg fl (torchArgs grads .weber P true false (matT X) (some (matT fun i (_ : Fin 1) => y i)))
      (.weber pos0) steps oc g = .ok (M, r)) :
    ∃ v0 v1 g1 v2, Iterated (fun a b => ∃ x, PostUpdate ext (descentTorch clip lr back) (torchArgs grads .weber P true false (matT X)
        (some (matT fun i (_ : Fin 1) => y i))) D (.weber pos0) x a b) p.toNat (⟨List.ofFn pos0, D.lam, none, none, ()⟩, g') (v1, g1) ∧
      DualGuessed (torchArgs grads .weber P true false (matT X) (some (matT fun i (_ : Fin 1) => y i))) D (.weber pos0) v1 v2 ∧
      v2.params = List.ofFn v0 ∧
      SmallRegret cfg clip lr (fun gen => WeberSlope D.cost rho D.epsilon X y (Z gen) (W gen)) (fun gen => weberObjective D.cost rho D.epsilon X y (Z gen) (W gen))
        (fun gen => Real.sqrt (B gen ^ 2 + (rho ^ D.cost.power + K gen) ^ 2)) next T v0 v2.lam g1 (.weber pos0) M r := by
  have hL := (dualize_labelled_off hD rfl rfl himp hsig hrho hpos heps rfl one_pos (weber_rows pos0) 0).1
  have heps0 : 0 < D.epsilon := hL.eps_pos
  have hDr : D.rho = .num rho := hL.rho_eq
  have hDn : D.nSamples = n := by
    obtain ⟨parsed, obj, c, s', -, -, -, -, rfl⟩ := dualize_ok hD
    show P.n_zeta_samples.toNat = n
    rw [hz]; simp
  refine C125_regret hD rfl (by show P.rho.isPos = true; rw [hrho]; simpa [Radius.isPos] using hpos) hst hT hT0 oc (N := d)
    (by show (List.ofFn pos0).length = d; simp) ?_ hback
    (fun gen v l g gl hg => C125_weber_slope hn hm D.cost heps0 (fun j i => (hB gen j i).1) hg)
    (fun gen => weber_slope_le hn hm D.cost hpos ((hB gen ⟨0, hn⟩ ⟨0, hm⟩).1.trans (hB gen _ _).2) (fun j i => abs_le.2 ⟨by linarith [(hB gen j i).1, (hB gen j i).2], (hB gen j i).2⟩) (hK gen)) hl h
  intro gen v lam
  obtain ⟨Zt, Wt, h1, h2, h3⟩ := hZ gen
  obtain ⟨t, h4, h5⟩ := weber_lossIs hsig heps hrho hpos hn hm hl2 X y pos0 hD himp h2 h3 v lam
  have hst := dualize_steady hD
  exact ⟨t, _, postForward_draws hst hs hDr hpos hDn h1 h4, h5⟩

/-- a cost on inputs only keeps the labels of the data -/
theorem draws_labels {a : DualizeArgs} {g g' : G} {D : DualLoss} (h : dualize ext a g = .ok (D, g')) (hkind : D.cost.kind = .normCost) {m n d : ℕ} {y : Fin m → ℝ}
    (hy : a.xi_labels = some (matT fun i (_ : Fin 1) => y i)) {s : Sampler} (hs : D.sampler = some s) {next : G → G} {Z : G → Fin n → Fin m → Fin d → ℝ}
    {W : G → Fin n → Fin m → ℝ} (hZ : DrawsAre ext s next Z W) (gen : G) (j : Fin n) (i : Fin m) : W gen j i = y i := by
  obtain ⟨s', hs', -, h2, -⟩ := dualize_sampler h
  have : s' = s := by rw [hs] at hs'; simpa using hs'.symm
  subst this
  have h3 := h2 _ hy
  simp only [samplerLabels, hkind, samplerLabelsNC, Option.map_some, Except.ok.injEq] at h3
  obtain ⟨Zt, Wt, h4, -, h5⟩ := hZ gen
  have h6 : (s'.sample ext n (seedGlobal ext s'.seed gen)).2.1 = some Wt := by rw [h4]
  simp only [Sampler.sample, ← h3, Dist.rsample, Option.some.injEq] at h6
  have h7 := h5.2 j i 0
  refine h7.symm.trans ?_
  rw [← h6]
  exact (matT_is fun i (_ : Fin 1) => y i).2 i 0

end

/-! ## Witnesses -/

/-- the news vendor with default arguments and the post-sampled solver -/
theorem default_newsvendor_ready : FitReady EstKind.newsvendor.defaults false := by
  refine ⟨⟨_, (C01_decimal_roundtrip 1 2 5).2.2⟩, ⟨_, _, code_parse "NC".toList 1 2 (by decide) false, rfl, Or.inl ⟨rfl, Or.inr (Or.inl rfl)⟩, fun _ => rfl⟩, fun s hs => ?_,
    fun r hr => ?_, fun s hs => ?_⟩
  · cases hs
  · simp only [EstKind.defaults, Radius.num.injEq] at hr
    subst hr; norm_num
  · cases hs

/-- The news vendor with default arguments and the post-sampled solver, on any demands and for any learning rate: the backward pass that takes zero as the derivative at the
kinks applies the chain rule, and then the training returns and has a small regret. -/
theorem newsvendor_regret_applies (clip : Bool) {m : ℕ} (hm : 0 < m) (X : Fin m → ℝ) (theta0 : ℝ) (oc : OCState) {lr : ℝ} (hlr : 0 < lr) : ∃ (back : Tape ℕ → List ℝ × ℝ)
    (M : Module 1) (r : Solved (List ℝ)) (D : DualLoss) (Z : ℕ → Fin 10 → Fin m → ℝ) (L : ℕ → ℝ) (next : ℕ → ℕ) (v0 : Fin 1 → ℝ) (lam0 : ℝ) (g0 : ℕ),
    solveTorch counterExt (descentTorch clip lr back) defaultCond (fun x => x) (torchArgs (thetaGrad 1) .newsvendor EstKind.newsvendor.defaults true false
      (matT fun i (_ : Fin 1) => X i) none) (.newsvendor 5 7 theta0) (.inr (200, 2800)) oc 7 = .ok (M, r) ∧
    SmallRegret defaultCond clip lr (fun gen => NewsvendorSlope 5 7 D.cost (1 / 100) D.epsilon X (Z gen))
      (fun gen => newsvendorObjective 5 7 D.cost (1 / 100) D.epsilon X (Z gen)) L next 2800 v0 lam0 g0 (.newsvendor 5 7 theta0) M r := by
  have h' := default_newsvendor_ready
  have ha := torch_argsFit (thetaGrad_shapes 1) .newsvendor EstKind.newsvendor.defaults true (mc := false) (X := matT fun i (_ : Fin 1) => X i)
    (y := none) (k := 1) (M0 := .newsvendor 5 7 theta0) rfl (by intro t ht; cases ht) ⟨rfl, rfl, rfl⟩
  have hr := torch_costReady (grads := thetaGrad 1) (e := .newsvendor) (post := true) (mc := false) (X := matT fun i (_ : Fin 1) => X i)
    (y := none) (M0 := .newsvendor 5 7 theta0) h'
  obtain ⟨D, g', s, hD, hs, hkind⟩ := costReady_dualize (ext := counterExt) hr 7
  have hkind : D.cost.kind = .normCost := hkind rfl
  have himp : D.impSamp = false := by
    obtain ⟨parsed, obj, c, s', hp, -, -, -, rfl⟩ := dualize_ok hD
    have e : parse_code_torch (some "t-NC-1-2".toList) false = .ok parsed := hp
    rw [show parse_code_torch (some "t-NC-1-2".toList) false = _ from code_parse "NC".toList 1 2 (by decide) false] at e
    simp only [Except.ok.injEq] at e
    subst e
    simp [dualOf, decideOnImpsamp, ParsedCost.can_imp_samp, XNum.eqLit]
  have hfits : SamplerFits s m 1 1 false := by
    obtain ⟨parsed, obj, c, s', -, -, -, hsm, rfl⟩ := dualize_ok hD
    have : s' = s := by simpa [dualOf] using hs
    subst this
    exact dualizeSampler_fits hsm rfl (by intro t ht; cases ht)
  obtain ⟨next, Z, hZ, hZs⟩ := draws_exist0 counterExt hfits 10
  have hk : ∀ gen, ∃ K, ∀ j i, |X i - Z gen j i| ^ D.cost.power ≤ K := by
    intro gen
    obtain ⟨b, hb⟩ := (Set.finite_range fun q : Fin 10 × Fin m => |X q.2 - Z gen q.1 q.2| ^ D.cost.power).bddAbove
    exact ⟨b, fun j i => hb ⟨(j, i), rfl⟩⟩
  choose K hK using hk
  have hg : ∀ gen (v : Fin 1 → ℝ) l, ∃ g gl, NewsvendorSlope 5 7 D.cost (1 / 100) D.epsilon X (Z gen) v l g gl := fun gen v l =>
    ⟨fun _ => _, _, fun j i => if v 0 < Z gen j i then 1 else 0, fun j i => by
      have h01 : (0 : ℝ) ≤ (if v 0 < Z gen j i then 1 else 0) ∧ (if v 0 < Z gen j i then (1 : ℝ) else 0) ≤ 1 := by split <;> norm_num
      exact ⟨h01.1, h01.2, fun h => if_pos h, fun h => if_neg (not_lt.2 h.le)⟩, rfl, rfl⟩
  choose gr gl hgr using hg
  set back : Tape ℕ → List ℝ × ℝ := fun t =>
    (List.ofFn (gr t.gen (fun k => (t.loss.grads (scalar 0) none).1.get [k.1]) t.loss.lam), gl t.gen (fun k => (t.loss.grads (scalar 0) none).1.get [k.1]) t.loss.lam) with hback
  have hbk : PostBackIs counterExt (torchArgs (thetaGrad 1) .newsvendor EstKind.newsvendor.defaults true false (matT fun i (_ : Fin 1) => X i) none) D (.newsvendor 5 7 theta0) back
      (fun gen => NewsvendorSlope 5 7 D.cost (1 / 100) D.epsilon X (Z gen)) := by
    intro gen v l
    refine ⟨gr (D.seeded counterExt gen) v l, gl (D.seeded counterExt gen) v l, ?_, ?_⟩
    swap
    · have := hgr (D.seeded counterExt gen) v l
      have e : D.seeded counterExt gen = seedGlobal counterExt s.seed gen := by simp only [DualLoss.seeded, hs, Option.bind_some]
      rwa [show Z (D.seeded counterExt gen) = Z gen by rw [e]; exact hZs gen] at this
    have e : (fun k : Fin 1 => ((lossFor (torchArgs (thetaGrad 1) .newsvendor EstKind.newsvendor.defaults true false (matT fun i (_ : Fin 1) => X i) none) D
        (.newsvendor 5 7 theta0) false (⟨List.ofFn v, l, none, none, ()⟩ : OptView Unit)).grads (scalar 0) none).1.get [k.1]) = v := by
      funext k
      rw [Subsingleton.elim k 0]
      rfl
    rw [hback]
    dsimp only
    rw [e]
    rfl
  obtain ⟨M, r, h1, -⟩ := C86_fits_return_partial (ext := counterExt) (fl := fun x => x) (steps := .inr (200, 2800)) (descent_good clip lr back)
    ha hr h'.rho (by decide) (defaultCond_ready oc _ _) 7
  obtain ⟨v0, v1, g1, v2, -, -, -, h2⟩ := C125_newsvendor (n := 10) (fun e he => by cases he; norm_num) rfl (by norm_num) rfl (by norm_num) hm X (by norm_num) theta0 hD himp hkind hs hZ hK
    hlr hbk (steps := .inr (200, 2800)) rfl rfl (T := 2800) (by norm_num) oc h1
  exact ⟨back, M, r, D, Z, _, next, v0, v2.lam, g1, h1, h2⟩

/-- Weber with default arguments but the cost, which keeps the weights and for which there is no importance sampling -/
noncomputable def exSite : EstParams := { EstKind.weber.defaults with cost := "t-NC-1-2".toList }

theorem exSite_ready : FitReady exSite true := by
  refine ⟨⟨_, (C01_decimal_roundtrip 1 2 5).2.2⟩, ⟨_, _, code_parse "NC".toList 1 2 (by decide) true, rfl, Or.inl ⟨rfl, Or.inr (Or.inl rfl)⟩, fun _ => rfl⟩, fun s hs => ?_,
    fun r hr => ?_, fun s hs => ?_⟩ <;> simp only [exSite, EstKind.defaults, Radius.num.injEq, Option.some.injEq] at * <;>
    first | (subst hs; norm_num) | (subst hr; norm_num) | cases hs

/-- The Weber problem with such arguments and the post-sampled solver, on any locations with non-negative weights and for any learning rate. -/
theorem weber_regret_applies (clip : Bool) {m d : ℕ} (hm : 0 < m) (X : Fin m → Fin d → ℝ) {y : Fin m → ℝ} (hy : ∀ i, 0 ≤ y i) (oc : OCState) {lr : ℝ} (hlr : 0 < lr) :
    ∃ (back : Tape ℕ → List ℝ × ℝ)
    (M : Module d) (r : Solved (List ℝ)) (D : DualLoss) (Z : ℕ → Fin 10 → Fin m → Fin d → ℝ) (L : ℕ → ℝ) (next : ℕ → ℕ) (v0 : Fin d → ℝ) (lam0 : ℝ) (g0 : ℕ),
    solveTorch counterExt (descentTorch clip lr back) defaultCond (fun x => x) (torchArgs (thetaGrad d) .weber exSite true false (matT X)
      (some (matT fun i (_ : Fin 1) => y i))) (.weber fun _ => 0) (.inr (200, 2800)) oc 7 = .ok (M, r) ∧
    SmallRegret defaultCond clip lr (fun gen => WeberSlope D.cost (1 / 10) D.epsilon X y (Z gen) fun _ => y)
      (fun gen => weberObjective D.cost (1 / 10) D.epsilon X y (Z gen) fun _ => y) L next 2800 v0 lam0 g0 (.weber fun _ => 0) M r := by
  have h' := exSite_ready
  have ha := torch_argsFit (thetaGrad_shapes d) .weber exSite true (mc := false) (X := matT X)
    (y := some (matT fun i (_ : Fin 1) => y i)) (k := 1) (M0 := .weber fun _ => 0) rfl (by intro t ht; cases ht; rfl) ⟨rfl, rfl, rfl⟩
  have hr := torch_costReady (grads := thetaGrad d) (e := .weber) (post := true) (mc := false) (X := matT X)
    (y := some (matT fun i (_ : Fin 1) => y i)) (M0 := .weber fun _ => 0) h'
  obtain ⟨D, g', s, hD, hs, -⟩ := costReady_dualize (ext := counterExt) hr 7
  have hsig : ∀ s, exSite.sampler_reg = some s → 0 < s := h'.sigma
  have heps : ∀ e, exSite.solver_reg = some e → 0 < e := fun e he => by
    simp only [exSite, EstKind.defaults, Option.some.injEq] at he
    subst he; norm_num
  have hpar : ∃ parsed, parse_code_torch (some "t-NC-1-2".toList) true = .ok parsed ∧ parsed = ⟨"t".toList, "NC".toList, .fin (1 : ℕ), .fin (2 : ℕ), .fin 100000000⟩ :=
    ⟨_, code_parse "NC".toList 1 2 (by decide) true, rfl⟩
  obtain ⟨pc, hpc, hpc'⟩ := hpar
  have himp : D.impSamp = false ∧ D.cost.kind = .normCost := by
    obtain ⟨parsed, obj, c, s', hp, ho, hc, -, rfl⟩ := dualize_ok hD
    have e : parse_code_torch (some "t-NC-1-2".toList) true = .ok parsed := hp
    rw [hpc, Except.ok.injEq, hpc'] at e
    subst e
    cases ho
    cases hc
    exact ⟨by simp [dualOf, decideOnImpsamp, ParsedCost.can_imp_samp, XNum.eqLit], rfl⟩
  have hfits : SamplerFits s m d 1 true := by
    obtain ⟨parsed, obj, c, s', -, -, -, hsm, rfl⟩ := dualize_ok hD
    have : s' = s := by simpa [dualOf] using hs
    subst this
    exact dualizeSampler_fits hsm rfl (by intro t ht; cases ht; rfl)
  obtain ⟨next, Z, W, hZ, hZs⟩ := draws_exist counterExt hfits 10
  have hW : W = fun _ _ => y := by
    funext gen j i
    exact draws_labels hD himp.2 rfl hs hZ gen j i
  subst hW
  have hk : ∀ gen, ∃ K, ∀ j i, |costAt D.cost (X i) (Z gen j i) (fun (_ : Fin 1) => y i) (fun _ => y i)| ≤ K := by
    intro gen
    obtain ⟨b, hb⟩ := (Set.finite_range fun q : Fin 10 × Fin m => |costAt D.cost (X q.2) (Z gen q.1 q.2) (fun (_ : Fin 1) => y q.2) (fun _ => y q.2)|).bddAbove
    exact ⟨b, fun j i => hb ⟨(j, i), rfl⟩⟩
  choose K hK using hk
  obtain ⟨B, hB⟩ := (Set.finite_range y).bddAbove
  have hg : ∀ gen (v : Fin d → ℝ) l, ∃ g gl, WeberSlope D.cost (1 / 10) D.epsilon X y (Z gen) (fun _ => y) v l g gl := fun gen v l =>
    ⟨fun _ => _, _, fun _ => rfl, rfl⟩
  choose gr gl hgr using hg
  set back : Tape ℕ → List ℝ × ℝ := fun t =>
    (List.ofFn (gr t.gen (fun k => (t.loss.grads (scalar 0) none).1.get [k.1]) t.loss.lam), gl t.gen (fun k => (t.loss.grads (scalar 0) none).1.get [k.1]) t.loss.lam) with hback
  have hbk : PostBackIs counterExt (torchArgs (thetaGrad d) .weber exSite true false (matT X) (some (matT fun i (_ : Fin 1) => y i))) D (.weber fun _ => 0) back
      (fun gen => WeberSlope D.cost (1 / 10) D.epsilon X y (Z gen) fun _ => y) := by
    intro gen v l
    refine ⟨gr (D.seeded counterExt gen) v l, gl (D.seeded counterExt gen) v l, ?_, ?_⟩
    swap
    · have := hgr (D.seeded counterExt gen) v l
      have e : D.seeded counterExt gen = seedGlobal counterExt s.seed gen := by simp only [DualLoss.seeded, hs, Option.bind_some]
      rwa [show Z (D.seeded counterExt gen) = Z gen by rw [e]; exact (hZs gen).1] at this
    have ev : (fun k : Fin d => (List.ofFn v).getD k.1 0) = v := funext fun k => getD_ofFn k.2
    have e : (fun k : Fin d => ((lossFor (torchArgs (thetaGrad d) .weber exSite true false (matT X) (some (matT fun i (_ : Fin 1) => y i))) D
        (.weber fun _ => 0) false (⟨List.ofFn v, l, none, none, ()⟩ : OptView Unit)).grads (scalar 0) none).1.get [k.1]) = v := by
      funext k
      show (List.ofFn fun k : Fin d => (List.ofFn v).getD k.1 0).getD k.1 0 = v k
      rw [ev, getD_ofFn k.2]
    rw [hback]
    dsimp only
    rw [e]
    rfl
  obtain ⟨M, r, h1, -⟩ := C86_fits_return_partial (ext := counterExt) (fl := fun x => x) (steps := .inr (200, 2800)) (descent_good clip lr back)
    ha hr h'.rho (by decide) (defaultCond_ready oc _ _) 7
  obtain ⟨v0, v1, g1, v2, -, -, -, h2⟩ := C125_weber (n := 10) (B := fun _ => B) hsig heps rfl (by norm_num) rfl (by norm_num) hm le_rfl X y (fun _ => 0) hD himp.1 hs hZ
    (fun gen j i => ⟨hy i, hB ⟨i, rfl⟩⟩) hK hlr hbk (steps := .inr (200, 2800)) rfl rfl (T := 2800) (by norm_num) oc h1
  exact ⟨back, M, r, D, Z, _, next, v0, v2.lam, g1, h1, h2⟩

end Skwdro
