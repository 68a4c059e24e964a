import Verif.Lemmas.Objective
import Verif.Lemmas.FitEnv
import Verif.Props.Losses

/-! # C80: the robust objective built by the estimators -/

namespace Skwdro
open Spec Tensor

variable {G : Type} {ext : TorchExt G}

theorem isTen_self {t : Tensor ℝ} {n m d : ℕ} (h : t.shape = [n, m, d]) :
    IsTen t (fun (j : Fin n) (i : Fin m) (k : Fin d) => t.get [j.1, i.1, k.1]) := ⟨h, fun _ _ _ => rfl⟩

/-- without a reset of the sampler, the self-sampling forward pass evaluates the loss on fresh samples -/
theorem postForward_val {D : DualLoss} {s : Sampler} (hs : D.sampler = some s) {rho : ℝ} (hr : D.rho = .num rho) (hpos : 0 < rho)
    {x : Tensor ℝ} {y : Option (Tensor ℝ)} {g : G} {v : DualVal}
    (h : computeDual ext D x y (s.sample ext D.nSamples g).1 (s.sample ext D.nSamples g).2.1 = .ok v) :
    postForward ext D x y false g = .ok (v, D, (s.sample ext D.nSamples g).2.2) := by
  obtain ⟨_, _, _, _, _, _, _, _, _, _, _, _⟩ := D
  simp only at hs hr h
  subst hs hr
  simp only [postForward, Bool.false_eq_true, if_false, ok_bind, not_lt.2 hpos.le, hpos.ne', h]

variable {n m d k : ℕ} {a : DualizeArgs} {g g' : G} {D : DualLoss} {rho : ℝ} {X : Fin m → Fin d → ℝ}

theorem dualize_fits (h : dualize ext a g = .ok (D, g')) {s : Sampler} (hs : D.sampler = some s) (hx : a.xi.shape = [m, d])
    (hy : OptShape a.xi_labels [m, k]) : SamplerFits s m d k a.xi_labels.isSome := by
  obtain ⟨parsed, obj, c, s', -, -, -, hsm, rfl⟩ := dualize_ok h
  have : s' = s := by simpa [dualOf] using hs
  subst this
  exact dualizeSampler_fits hsm hx hy

/-- labelled problems -/
theorem labelledObjective (h : dualize ext a g = .ok (D, g')) (hr : a.rho = .num rho) (hpos : 0 < rho)
    (he : ∀ x, a.epsilon = some x → 0 < x) (hred : a.reduction = none) {y : Tensor ℝ} {Y : Fin m → Fin k → ℝ}
    (hy : a.xi_labels = some y) (hx : IsMat a.xi X) (hY : IsMat y Y) (hn : 0 < a.n_samples) (hm : 0 < m) (hd : 0 < d) (hk : 0 < k)
    (hgs : GradShapes a.grads) {ell : (Fin d → ℝ) → (Fin k → ℝ) → ℝ} (hell : PointLoss a.wloss.value ell) (lam : ℝ) (g1 : G)
    (hkap : D.impSamp = true → labelWeight D.cost ≠ some 0) : LabelledObjective ext D lam rho a.xi y X Y g1 ell := by
  obtain ⟨hP, hG, hR, hE, hM, hEps, hN, -⟩ := dualize_fields h
  obtain ⟨s, hs, h1, h2, -⟩ := dualize_sampler h
  have hfit := dualize_fits h hs hx.1 (k := k) (by rw [hy]; intro t ht; cases ht; exact hY.1)
  obtain ⟨q1, q2, q3⟩ := sample_shapes ext hfit g1 D.nSamples
  have q2' : (s.sample ext D.nSamples g1).2.1.isSome = true := by rw [q2, hy]; rfl
  obtain ⟨w, hw⟩ := Option.isSome_iff_exists.1 q2'
  have q4 := q3 w hw
  obtain ⟨r1, r2, r3⟩ := hgs a.xi.unsqueeze0 (some y.unsqueeze0)
  obtain ⟨tgl, hgl⟩ := Option.isSome_iff_exists.1 (r2.trans rfl)
  have r4 := r3 _ _ rfl hgl
  have s1 : (a.grads a.xi.unsqueeze0 (some y.unsqueeze0)).1.shape = [1, m, d] := by rw [r1]; simp [Tensor.unsqueeze0, hx.1]
  have s2 : tgl.shape = [1, m, k] := by rw [r4]; simp [Tensor.unsqueeze0, hY.1]
  have i1 : IsTen (a.grads a.xi.unsqueeze0 (some y.unsqueeze0)).1
      (fun (_ : Fin 1) (i : Fin m) (k : Fin d) => (a.grads a.xi.unsqueeze0 (some y.unsqueeze0)).1.get [0, i.1, k.1]) :=
    ⟨s1, fun j i k => by rw [Subsingleton.elim j 0]; rfl⟩
  have i2 : IsTen tgl (fun (_ : Fin 1) (i : Fin m) (q : Fin k) => tgl.get [0, i.1, q.1]) :=
    ⟨s2, fun j i k => by rw [Subsingleton.elim j 0]; rfl⟩
  have hgr : a.grads a.xi.unsqueeze0 (some y.unsqueeze0) = ((a.grads a.xi.unsqueeze0 (some y.unsqueeze0)).1, some tgl) := by
    rw [← hgl]
  have hdir : D.impSamp = true → labelWeight D.cost = none → ∀ (j : Fin D.nSamples) (i : Fin m),
      (fun (q : Fin k) => w.get [j.1, i.1, q.1]) = Y i := by
    intro _ hlw j i
    have h5 := h2 y hy
    obtain ⟨b, hb⟩ : ∃ b, s.labels_s = some (.dirac y b) := by
      unfold samplerLabels at h5
      split at h5
      · simp only [samplerLabelsNC, Option.map_some, Except.ok.injEq] at h5
        exact ⟨_, h5.symm⟩
      · next hkd =>
        rcases (dualize_goodCost h).weight hkd with ⟨q, hq, hq'⟩ | hq'
        · simp [labelWeight, hkd, hq'] at hlw
        · unfold samplerLabelsNLC at h5
          simp only [hq', Except.map, Except.ok.injEq] at h5
          exact ⟨_, h5.symm⟩
    simp only [Sampler.sample, hb, Dist.rsample, Option.some.injEq] at hw
    funext q
    rw [← hw]
    exact hY.2 i q
  obtain ⟨v, hv, hV⟩ := objective_labelled (n := D.nSamples) (Z := fun j i k => (s.sample ext D.nSamples g1).1.get [j.1, i.1, k.1])
    h hr hpos he hred hy hx hY (isTen_self q1) (isTen_self q4) (by rw [hN]; exact hn) hm hd hk
    (by rw [hP]; exact hell) lam ⟨_, _, hgr, i1, i2⟩ hkap hdir
  refine ⟨s, _, _, w, _, tgl, _, _, v, hs, isTen_self q1, hw, isTen_self q4, (by rw [hG]; exact hgr), i1, i2, hv, fun g₀ hg₀ => ?_, ?_⟩
  · have hst := dualize_steady h
    rw [hy] at hst
    rw [postForward_steady (D := { D with lam := lam }) hst, show ({ D with lam := lam } : DualLoss).seeded ext g₀ = g1 by simp only [DualLoss.seeded, hs, Option.bind_some, hg₀]]
    exact postForward_val (D := { D with lam := lam }) hs (by exact hR.trans hr) hpos (by rw [← hw] at hv; exact hv)
  · simpa only [robust, softmax, avg] using hV

theorem unlabelledObjective (h : dualize ext a g = .ok (D, g')) (hr : a.rho = .num rho) (hpos : 0 < rho)
    (he : ∀ x, a.epsilon = some x → 0 < x) (hred : a.reduction = none) (hy : a.xi_labels = none) (hx : IsMat a.xi X)
    (hn : 0 < a.n_samples) (hm : 0 < m) (hd : 0 < d) (hgs : GradShapes a.grads) {ell : (Fin d → ℝ) → ℝ} (hell : PointLoss0 a.wloss.value ell)
    (lam : ℝ) (g1 : G) (hkind : D.cost.kind = .normCost) : UnlabelledObjective ext D lam rho a.xi X g1 ell := by
  obtain ⟨hP, hG, hR, hE, hM, hEps, hN, -⟩ := dualize_fields h
  obtain ⟨s, hs, h1, -, h2, -⟩ := dualize_sampler h
  have hfit := dualize_fits h hs hx.1 (k := 0) (by rw [hy]; intro t ht; cases ht)
  obtain ⟨q1, q2, q3⟩ := sample_shapes ext hfit g1 D.nSamples
  have hw : (s.sample ext D.nSamples g1).2.1 = none := by simpa [hy] using q2
  obtain ⟨r1, r2, -⟩ := hgs a.xi.unsqueeze0 none
  have s1 : (a.grads a.xi.unsqueeze0 none).1.shape = [1, m, d] := by rw [r1]; simp [Tensor.unsqueeze0, hx.1]
  have hgl : (a.grads a.xi.unsqueeze0 none).2 = none := by simpa using r2
  have i1 : IsTen (a.grads a.xi.unsqueeze0 none).1
      (fun (_ : Fin 1) (i : Fin m) (k : Fin d) => (a.grads a.xi.unsqueeze0 none).1.get [0, i.1, k.1]) :=
    ⟨s1, fun j i k => by rw [Subsingleton.elim j 0]; rfl⟩
  have hgr : a.grads a.xi.unsqueeze0 none = ((a.grads a.xi.unsqueeze0 none).1, none) := Prod.ext rfl hgl
  obtain ⟨s', hs', v, hv, hV⟩ := objective_unlabelled (n := D.nSamples) (Z := fun j i k => (s.sample ext D.nSamples g1).1.get [j.1, i.1, k.1])
    h hr hpos he hred hy hx (isTen_self q1) (by rw [hN]; exact hn) hm hd hkind (by rw [hP]; exact hell) lam ⟨_, hgr, i1⟩
  have : s' = s := by rw [hs] at hs'; simpa using hs'.symm
  subst this
  refine ⟨s', _, _, _, v, hs, isTen_self q1, hw, (by rw [hG]; exact hgr), i1, hv, fun g₀ hg₀ => ?_, ?_⟩
  · have hst := dualize_steady h
    rw [hy] at hst
    rw [postForward_steady (D := { D with lam := lam }) hst, show ({ D with lam := lam } : DualLoss).seeded ext g₀ = g1 by simp only [DualLoss.seeded, hs, Option.bind_some, hg₀]]
    exact postForward_val (D := { D with lam := lam }) hs (by exact hR.trans hr) hpos
      (by show computeDual ext _ _ _ _ (s'.sample ext D.nSamples g1).2.1 = _
          rw [hw]; exact hv)
  · refine (congrArg (IsScalar v) ?_).mp hV
    simp only [robustW, avg]
    generalize D.impSamp = b
    cases b <;> simp

/-! ### The losses of the estimators, point by point -/

theorem pointLoss_mean {w : WLoss} (hl : w.hasLabels = true) (hr : w.reduceSpatial = true) {ell : (Fin d → ℝ) → (Fin k → ℝ) → ℝ}
    (hf : RowWise w.flat (fun x y (_ : Fin 1) => ell x y)) : PointLoss w.value (fun x y => ell x y + ridge w.l2reg w.theta) := by
  intro n m z t Z W hz hw
  simpa [lossAt, avg] using wrapped_batch hl hr one_pos hf hz hw

theorem pointLoss_flat {w : WLoss} (hl : w.hasLabels = true) (hr : w.reduceSpatial = false) {ell : (Fin d → ℝ) → (Fin k → ℝ) → ℝ}
    (hf : RowWiseFlat w.flat ell) : PointLoss w.value (fun x y => ell x y + ridge w.l2reg w.theta) := by
  intro n m z t Z W hz hw
  obtain ⟨t, ht, hT⟩ := C22_pointwise_unreduced w hl hr hf (b := [n, m]) (by simp) (hasRows_of_isTen hz) (hasRows_of_isTen hw)
  refine ⟨t, ht, ?_⟩
  simpa only [ix2_apply] using isTen_of_hasRows hT

theorem pointLoss0_mean {w : WLoss} (hl : w.hasLabels = false) (hr : w.reduceSpatial = true) {ell : (Fin d → ℝ) → ℝ}
    (hf : RowWise0 w.flat (fun x (_ : Fin 1) => ell x)) : PointLoss0 w.value (fun x => ell x + ridge w.l2reg w.theta) := by
  intro n m z Z hz
  obtain ⟨t, ht, hT⟩ := C22_pointwise_nolabels w hl hr one_pos hf (b := [n, m]) (by simp) (hasRows_of_isTen hz)
  refine ⟨t, ht, ?_⟩
  simpa [ix2_apply, avg] using isTen_of_hasRows hT

theorem crossEnt_rows {K : ℕ} (l : LinMap d K) :
    RowWiseFlat (Module.crossEnt l).flat (fun (x : Fin d → ℝ) (y : Fin K → ℝ) => crossEnt y (l.out x)) := by
  intro N x y X Y hx hy
  obtain ⟨t, h1, h2⟩ := apply_isMat l hx
  have hv : (Module.crossEnt l).flat x (some y) = .ok ⟨[N], fun i => -∑ c ∈ Finset.range K, y.get (i ++ [c]) *
      Real.log (Real.exp (t.get (i ++ [c])) / ∑ c' ∈ Finset.range K, Real.exp (t.get (i ++ [c'])))⟩ := by
    simp only [Module.flat, h1, ok_bind, crossEntropy, h2.1, hy.1, if_true]
  refine ⟨_, hv, rfl, fun i => ?_⟩
  have e1 : ∀ c : Fin K, t.get ([i.1] ++ [c.1]) = l.out (X i) c := fun c => h2.2 i c
  have e2 : ∀ c : Fin K, y.get ([i.1] ++ [c.1]) = Y i c := fun c => hy.2 i c
  simp only [crossEnt, Finset.sum_range, e1, e2]

theorem weber_rows (pos : Fin d → ℝ) :
    RowWise (Module.weber pos).flat (fun (x : Fin d → ℝ) (y : Fin 1 → ℝ) (_ : Fin 1) => y 0 * dist2 x pos) := by
  intro N x y X Y hx hy
  exact C74_weber pos (Y := fun r => Y r 0) hx ⟨hy.1, fun r c => by rw [hy.2, Subsingleton.elim c 0]⟩

theorem newsvendor_rows (k u theta : ℝ) :
    RowWise0 (Module.newsvendor (d := 1) k u theta).flat (fun (x : Fin 1 → ℝ) (_ : Fin 1) => newsvendor k u theta (x 0)) := by
  intro N x X hx
  have hr := hasRows_of_isMat hx
  obtain ⟨t, h1, h2⟩ := C28_one_product_partial k u theta (xi := x) (b := [N]) (X := fun i => rowsOf X i 0)
    ⟨hr.1, fun i hi c => by rw [hr.2 i hi c, Subsingleton.elim c 0]⟩
  refine ⟨t, h1, h2.1, fun r c => ?_⟩
  simpa [rowsOf_apply] using h2.2 [r.1] (List.Forall₂.cons r.2 List.Forall₂.nil) c

theorem portfolio_rows (hd : 0 < d) (v : Fin d → ℝ) (tau eta alpha : ℝ) (he : 0 ≤ eta) (ha : 0 < alpha) : ∃ w : Fin d → ℝ, InSimplex w ∧
    (⟨List.ofFn v, tau, eta, alpha⟩ : Portfolio).weights = List.ofFn w ∧
    RowWise0 (Module.portfolio (d := d) ⟨List.ofFn v, tau, eta, alpha⟩).flat
      (fun (x : Fin d → ℝ) (_ : Fin 1) => meanCVaR eta alpha (∑ q, w q * x q) tau) := by
  obtain ⟨w, hw, hsim, -⟩ := C27_weights hd v tau eta alpha
  refine ⟨w, hsim, hw, ?_⟩
  intro N x X hx
  obtain ⟨w', -, hw', t, h1, h2⟩ := C27_batch hd v tau eta alpha he ha (hasRows_of_isMat hx)
  have : w' = w := List.ofFn_injective (hw'.symm.trans hw)
  subst this
  refine ⟨t, h1, h2.1, fun r c => ?_⟩
  simpa [rowsOf_apply] using h2.2 [r.1] (List.Forall₂.cons r.2 List.Forall₂.nil) c

/-! ### The objectives -/

variable {N : ℕ} {grads : Autograd d} {P : EstParams} {post : Bool}

/-- the entropic regularisation and the cost of the robust loss of an estimator are those of its arguments -/
theorem estimator_loss {e : EstKind} {mc : Bool} {x : Tensor ℝ} {y : Option (Tensor ℝ)} {M : Module d}
    (h : dualize ext (torchArgs grads e P post mc x y M) g = .ok (D, g')) (heps : ∀ e, P.solver_reg = some e → 0 < e) (hrho : P.rho = .num rho) :
    0 < D.epsilon ∧ (∀ e, P.solver_reg = some e → D.epsilon = e) ∧ D.nSamples = P.n_zeta_samples.toNat ∧
    ∃ parsed obj, parse_code_torch (some P.cost) y.isSome = .ok parsed ∧ cost_from_parse_torch parsed = .ok obj ∧ obj.toReal = some D.cost := by
  obtain ⟨-, -, -, -, -, hE, hN, -⟩ := dualize_fields h
  have hE' : D.epsilon = (expertEpsilon P.rho D.cost.power P.solver_reg EPSILON_SIGMA_FACTOR SIGMA_FACTOR).getD 0 := hE
  refine ⟨?_, fun e he => ?_, hN, ?_⟩
  · rw [hE', hrho]; exact expertEpsilon_pos heps
  · rw [hE', he]; rfl
  · obtain ⟨parsed, obj, c, s, hp, ho, hc, -, rfl⟩ := dualize_ok h
    exact ⟨parsed, obj, hp, ho, hc⟩

/-- **C80** Linear regression, any torch solver: whatever the data, the parameters `l`, the multiplier `lam` and the state of the generator, the
value handed to the optimizer is the robust loss of the squared error, plus the ridge penalty on all parameters. -/
theorem C80_linreg (hgs : ∀ M, GradShapes (grads M))
    (heps : ∀ e, P.solver_reg = some e → 0 < e) (hrho : P.rho = .num rho) (hpos : 0 < rho) (hn : 0 < P.n_zeta_samples) (hN : 0 < N) (hd : 0 < d)
    (X : Fin N → Fin d → ℝ) (y : Fin N → ℝ) (l : LinMap d 1)
    (h : dualize ext (torchArgs grads .linreg P post false (matT X) (some (matT fun i (_ : Fin 1) => y i)) (.mse l)) g = .ok (D, g'))
    (lam : ℝ) (g1 : G) (hkap : D.impSamp = true → labelWeight D.cost ≠ some 0) :
    LabelledObjective ext D lam rho (matT X) (matT fun i (_ : Fin 1) => y i) X (fun i (_ : Fin 1) => y i) g1
      (fun z w => (l.out z 0 - w 0) ^ 2 + ridge (some P.l2_reg) l.params) :=
  labelledObjective h hrho hpos heps rfl rfl (matT_is X) (matT_is _) (show 0 < P.n_zeta_samples.toNat by omega) hN hd one_pos (hgs _)
    (pointLoss_mean rfl rfl (mse_rows l)) lam g1 hkap

/-- **C80** Logistic regression with two classes: the same with the logistic loss of the margin. -/
theorem C80_logistic (hgs : ∀ M, GradShapes (grads M))
    (heps : ∀ e, P.solver_reg = some e → 0 < e) (hrho : P.rho = .num rho) (hpos : 0 < rho) (hn : 0 < P.n_zeta_samples) (hN : 0 < N) (hd : 0 < d)
    (X : Fin N → Fin d → ℝ) (y : Fin N → ℝ) (l : LinMap d 1)
    (h : dualize ext (torchArgs grads .logistic P post false (matT X) (some (matT fun i (_ : Fin 1) => y i)) (.softMargin l)) g = .ok (D, g'))
    (lam : ℝ) (g1 : G) (hkap : D.impSamp = true → labelWeight D.cost ≠ some 0) :
    LabelledObjective ext D lam rho (matT X) (matT fun i (_ : Fin 1) => y i) X (fun i (_ : Fin 1) => y i) g1
      (fun z w => logloss (w 0) (l.out z 0) + ridge (some P.l2_reg) l.params) :=
  labelledObjective h hrho hpos heps rfl rfl (matT_is X) (matT_is _) (show 0 < P.n_zeta_samples.toNat by omega) hN hd one_pos (hgs _)
    (pointLoss_mean rfl rfl (softMargin_rows l)) lam g1 hkap

/-- **C80** Logistic regression with `K` classes and one-hot labels `Y`: the same with the cross entropy of the scores. -/
theorem C80_multiclass {K : ℕ} (hK : 0 < K) (hgs : ∀ M, GradShapes (grads M))
    (heps : ∀ e, P.solver_reg = some e → 0 < e) (hrho : P.rho = .num rho) (hpos : 0 < rho) (hn : 0 < P.n_zeta_samples) (hN : 0 < N) (hd : 0 < d)
    (X : Fin N → Fin d → ℝ) (Y : Fin N → Fin K → ℝ) (l : LinMap d K)
    (h : dualize ext (torchArgs grads .logistic P post true (matT X) (some (matT Y)) (.crossEnt l)) g = .ok (D, g'))
    (lam : ℝ) (g1 : G) (hkap : D.impSamp = true → labelWeight D.cost ≠ some 0) :
    LabelledObjective ext D lam rho (matT X) (matT Y) X Y g1 (fun z w => crossEnt w (l.out z) + ridge (some P.l2_reg) l.params) :=
  labelledObjective h hrho hpos heps rfl rfl (matT_is X) (matT_is _) (show 0 < P.n_zeta_samples.toNat by omega) hN hd hK (hgs _)
    (pointLoss_flat rfl rfl (crossEnt_rows l)) lam g1 hkap

/-- **C80** On the labels of the data, encoded by `fit`, this cross entropy is minus the log-probability that the model gives to the true class. -/
theorem C80_true_class {L : Type} [LinearOrder L] (y : Fin N → L) (i : Fin N) (s : Fin (npUnique y).length → ℝ) :
    ∃ c : Fin (npUnique y).length, (npUnique y)[c] = y i ∧
      crossEnt (encodeOneHot (npUnique y) (y i)) s = -Real.log (Real.exp (s c) / ∑ c', Real.exp (s c')) := by
  obtain ⟨c, hc, hcy⟩ := List.getElem_of_mem ((mem_npUnique y (y i)).2 ⟨i, rfl⟩)
  refine ⟨⟨c, hc⟩, hcy, ?_⟩
  have hone : ∀ q : Fin (npUnique y).length, encodeOneHot (npUnique y) (y i) q = if q = ⟨c, hc⟩ then 1 else 0 := by
    intro q
    have : (npUnique y)[q] = y i ↔ q = ⟨c, hc⟩ := by
      rw [← hcy, Fin.ext_iff]
      exact (npUnique_nodup y).getElem_inj_iff
    simp only [encodeOneHot, this]
  simp only [crossEnt, hone, ite_mul, one_mul, zero_mul, Finset.sum_ite_eq', Finset.mem_univ, if_true]

/-- **C80** With two classes, the encoded labels are -1 for the smaller class and 1 for the larger one. -/
theorem C80_signs {L : Type} [LinearOrder L] {y : Fin N → L} (h2 : (npUnique y).length = 2) (i : Fin N) :
    (y i = (npUnique y)[0] ∧ encodeBinary (npUnique y) (y i) = -1) ∨ (y i = (npUnique y)[1] ∧ encodeBinary (npUnique y) (y i) = 1) := by
  have hm : y i ∈ npUnique y := (mem_npUnique y (y i)).2 ⟨i, rfl⟩
  obtain ⟨c, hc, hcy⟩ := List.getElem_of_mem hm
  have hidx : (npUnique y).idxOf (y i) = c := by rw [← hcy]; exact (npUnique_nodup y).idxOf_getElem c hc
  have : c = 0 ∨ c = 1 := by omega
  rcases this with rfl | rfl
  · exact Or.inl ⟨hcy.symm, by simp [encodeBinary, hidx]⟩
  · exact Or.inr ⟨hcy.symm, by simp [encodeBinary, hidx]⟩

/-- **C80** Weber: the weight times the distance to the facility. -/
theorem C80_weber (hgs : ∀ M, GradShapes (grads M))
    (heps : ∀ e, P.solver_reg = some e → 0 < e) (hrho : P.rho = .num rho) (hpos : 0 < rho) (hn : 0 < P.n_zeta_samples) (hN : 0 < N) (hd : 0 < d)
    (X : Fin N → Fin d → ℝ) (y : Fin N → ℝ) (pos : Fin d → ℝ)
    (h : dualize ext (torchArgs grads .weber P post false (matT X) (some (matT fun i (_ : Fin 1) => y i)) (.weber pos)) g = .ok (D, g'))
    (lam : ℝ) (g1 : G) (hkap : D.impSamp = true → labelWeight D.cost ≠ some 0) :
    LabelledObjective ext D lam rho (matT X) (matT fun i (_ : Fin 1) => y i) X (fun i (_ : Fin 1) => y i) g1
      (fun z w => w 0 * dist2 z pos + ridge (some P.l2_reg) (List.ofFn pos)) :=
  labelledObjective h hrho hpos heps rfl rfl (matT_is X) (matT_is _) (show 0 < P.n_zeta_samples.toNat by omega) hN hd one_pos (hgs _)
    (pointLoss_mean rfl rfl (weber_rows pos)) lam g1 hkap

/-- **C80** News vendor with one product and a cost on inputs only: the expected loss of ordering `theta`. -/
theorem C80_newsvendor {grads : Autograd 1} (hgs : ∀ M, GradShapes (grads M))
    (heps : ∀ e, P.solver_reg = some e → 0 < e) (hrho : P.rho = .num rho) (hpos : 0 < rho) (hn : 0 < P.n_zeta_samples) (hN : 0 < N)
    (X : Fin N → Fin 1 → ℝ) (k u theta : ℝ)
    (h : dualize ext (torchArgs grads .newsvendor P post false (matT X) none (.newsvendor k u theta)) g = .ok (D, g'))
    (lam : ℝ) (g1 : G) (hkind : D.cost.kind = .normCost) :
    UnlabelledObjective ext D lam rho (matT X) X g1 (fun z => newsvendor k u theta (z 0)) := by
  have := unlabelledObjective h hrho hpos heps rfl rfl (matT_is X) (show 0 < P.n_zeta_samples.toNat by omega) hN one_pos (hgs _)
    (pointLoss0_mean rfl rfl (newsvendor_rows k u theta)) lam g1 hkind
  simp only [show ridge (torchArgs grads .newsvendor P post false (matT X) none (.newsvendor k u theta)).wloss.l2reg
    (torchArgs grads .newsvendor P post false (matT X) none (.newsvendor k u theta)).wloss.theta = 0 from rfl, add_zero] at this
  exact this

/-- **C80** Portfolio with a cost on inputs only: mean-CVaR trade-off of the return of the soft-max weights. -/
theorem C80_portfolio (hgs : ∀ M, GradShapes (grads M))
    (heps : ∀ e, P.solver_reg = some e → 0 < e) (hrho : P.rho = .num rho) (hpos : 0 < rho) (hn : 0 < P.n_zeta_samples) (hN : 0 < N) (hd : 0 < d)
    (X : Fin N → Fin d → ℝ) (v : Fin d → ℝ) (tau eta alpha : ℝ) (he : 0 ≤ eta) (ha : 0 < alpha)
    (h : dualize ext (torchArgs grads .portfolio P post false (matT X) none (.portfolio ⟨List.ofFn v, tau, eta, alpha⟩)) g = .ok (D, g'))
    (lam : ℝ) (g1 : G) (hkind : D.cost.kind = .normCost) :
    ∃ w : Fin d → ℝ, InSimplex w ∧ (⟨List.ofFn v, tau, eta, alpha⟩ : Portfolio).weights = List.ofFn w ∧
    UnlabelledObjective ext D lam rho (matT X) X g1 (fun z => meanCVaR eta alpha (∑ q, w q * z q) tau) := by
  obtain ⟨w, hw1, hw2, hw3⟩ := portfolio_rows hd v tau eta alpha he ha
  refine ⟨w, hw1, hw2, ?_⟩
  have := unlabelledObjective h hrho hpos heps rfl rfl (matT_is X) (show 0 < P.n_zeta_samples.toNat by omega) hN hd (hgs _)
    (pointLoss0_mean rfl rfl hw3) lam g1 hkind
  have hz : ridge (torchArgs grads .portfolio P post false (matT X) none (.portfolio ⟨List.ofFn v, tau, eta, alpha⟩)).wloss.l2reg
    (torchArgs grads .portfolio P post false (matT X) none (.portfolio ⟨List.ofFn v, tau, eta, alpha⟩)).wloss.theta = 0 := by
    show ridge (some 0) _ = 0
    simp [ridge]
  simp only [hz, add_zero] at this
  exact this

/-- non-vacuity of the labelled statements: with default arguments, on all data, the robust loss is built, with importance sampling on for the
post-sampled solver of each estimator, and labels of weight `1e8` -/
theorem labelled_ready {e : EstKind} (he : e = .linreg ∨ e = .logistic ∨ e = .weber) (mc : Bool) (x y : Tensor ℝ) (M : Module d) :
    ∃ D g', dualize ext (torchArgs grads e e.defaults true mc x (some y) M) g = .ok (D, g') ∧ D.impSamp = true ∧
      labelWeight D.cost = some 100000000 := by
  have hp := code_parse "NLC".toList 2 2 (by decide) true
  have hsig : ∀ s, (torchArgs grads e e.defaults true mc x (some y) M).sigma = some s → 0 < s := by
    rcases he with rfl | rfl | rfl <;> intro s hs
    · cases hs
    · cases hs
    · rw [← Option.some.inj (show some (1 / 100) = some s from hs)]; norm_num
  have hcs : (torchArgs grads e e.defaults true mc x (some y) M).cost_spec = some "t-NLC-2-2".toList := by
    rcases he with rfl | rfl | rfl <;> rfl
  have himp : (torchArgs grads e e.defaults true mc x (some y) M).imp_samp = true := by rcases he with rfl | rfl | rfl <;> rfl
  generalize hA : torchArgs grads e e.defaults true mc x (some y) M = A at *
  have hl : A.xi_labels = some y := by rw [← hA]; rfl
  have hp' : parse_code_torch A.cost_spec A.xi_labels.isSome = .ok ⟨"t".toList, "NLC".toList, .fin (2 : ℕ), .fin (2 : ℕ), .fin 100000000⟩ := by
    rw [hcs, hl]; exact hp
  obtain ⟨D, g', s, hd, -⟩ := (C08_supported_costs (ext := ext) A g hp' rfl hsig).1 (Or.inr ⟨rfl, rfl⟩)
  have hc : D.cost = ⟨.normLabelCost, .fin 2, 2, .fin 100000000⟩ := by
    obtain ⟨parsed, obj, c, s, h1, h2, h3, -, rfl⟩ := dualize_ok hd
    rw [hp', Except.ok.injEq] at h1
    subst h1
    cases h2
    cases h3
    simp [dualOf, XNum.map]
  refine ⟨D, g', hd, (C21_enabled_iff ext hd).2 ⟨himp, ?_, ?_⟩, ?_⟩ <;> simp [hc, labelWeight]

/-- non-vacuity of the unlabelled statements: default arguments give a cost on inputs only -/
theorem unlabelled_ready {e : EstKind} (he : e = .portfolio ∨ e = .newsvendor) (x : Tensor ℝ) (M : Module d) :
    ∃ D g', dualize ext (torchArgs grads e e.defaults post false x none M) g = .ok (D, g') ∧ D.cost.kind = .normCost := by
  obtain ⟨t, ht, hcs⟩ : ∃ t : ℕ, (t = 1 ∨ t = 2) ∧ (torchArgs grads e e.defaults post false x none M).cost_spec =
      some (joinDash ["t".toList, "NC".toList, decimal 1, decimal t]) := by
    rcases he with rfl | rfl
    · exact ⟨1, Or.inl rfl, rfl⟩
    · exact ⟨2, Or.inr rfl, rfl⟩
  have hp := code_parse "NC".toList 1 t (by decide) false
  have hsig : ∀ s, (torchArgs grads e e.defaults post false x none M).sigma = some s → 0 < s := by
    rcases he with rfl | rfl <;> intro s hs <;> cases hs
  generalize hA : torchArgs grads e e.defaults post false x none M = A at *
  have hl : A.xi_labels = none := by rw [← hA]; rfl
  have hp' : parse_code_torch A.cost_spec A.xi_labels.isSome = .ok ⟨"t".toList, "NC".toList, .fin (1 : ℕ), .fin t, .fin 100000000⟩ := by
    rw [hcs, hl]; exact hp
  obtain ⟨D, g', s, hd, -⟩ := (C08_supported_costs (ext := ext) A g hp' rfl hsig).1 (by
    rcases ht with rfl | rfl
    · exact Or.inl ⟨rfl, Or.inl rfl⟩
    · exact Or.inl ⟨rfl, Or.inr (Or.inl rfl)⟩)
  refine ⟨D, g', hd, ?_⟩
  obtain ⟨parsed, obj, c, s, h1, h2, h3, -, rfl⟩ := dualize_ok hd
  rw [hp', Except.ok.injEq] at h1
  subst h1
  cases h2
  cases h3
  rfl

end Skwdro
