import Verif.Props.Fit

/-! # C86: the optimality conditions with which fits raise -/

namespace Skwdro
open Spec Tensor

section
variable {G O : Type} {d : ℕ} {ext : TorchExt G} {T : Torch G O} {cfg : OCConfig} {fl : ℝ → ℝ} {args : Module d → DualizeArgs}
  {M0 : Module d} {m k : ℕ} {mc : Bool} {steps : ℤ ⊕ (ℤ × ℤ)}

/-- a fit whose optimality condition raises at its first call -/
theorem solveRun_raises {fr : Bool} (hT : GoodTorch T) (hfr : fr = true → FrozenLam T ∧ (args M0).rho = .num 0) {g g' : G} {D : DualLoss}
    (hD : dualize ext (args M0) g = .ok (D, g')) (ha : ArgsFit args M0 m k mc) (hcost : (args M0).xi_labels = none → D.cost.kind = .normCost)
    (hrho : ∀ r, (args M0).rho = .num r → 0 ≤ r) (hn : 0 < (toSteps steps).iterations) {oc : OCState} {s : Sampler} (hs : D.sampler = some s)
    (hnan : (args M0).rho ≠ .nan) (himp : D.impSamp = false ∨ (args M0).rho = .num 0) {err : PyErr}
    (hcall : ∀ (v : OCView) (a : List ℝ) (pg : Option (List ℝ)) (it : ℤ), v.params = [(a, pg)] → a.length = M0.theta.length →
      (fr = true → v.lamGrad = none) → (ocCall cfg oc v it).1 = .error err) :
    ∃ st, solveRun ext T cfg fl args D M0 steps oc g' = (.error err, st) := by
  have hfits : SamplerFits s m d k (args M0).xi_labels.isSome := by
    obtain ⟨parsed, obj, c, s', -, -, -, hsm, rfl⟩ := dualize_ok hD
    have : s' = s := by simpa [dualOf] using hs
    subst this
    exact dualizeSampler_fits hsm ha.data ha.labels
  obtain ⟨z1, z2, z3⟩ := sample_shapes ext hfits g' D.nSamples
  obtain ⟨⟨p, q⟩, hi⟩ : ∃ a, interpretSteps fl split03 (toSteps steps) = .ok a := by
    cases toSteps steps with
    | one n => exact ⟨_, if_pos (by unfold split03; norm_num)⟩
    | pair p n => exact ⟨_, rfl⟩
  have hE := fitEnv_runs (ok := true) (T := T) (cfg := cfg) (mi := (toSteps steps).iterations) (Mem := fun oc' => oc' = oc) (fun _ => hT) hfr hD ha hcost
    hrho (post := (args M0).post_sample) (Z := ((s.sample ext D.nSamples g').1, (s.sample ext D.nSamples g').2.1)) z1 z2 z3
  have hU : ∀ v, FitNan (args M0).rho D.impSamp false v → v.isNan = false := fun v hv => hv.2 hnan himp
  have hstop : ∀ (it : ℕ) (w : Box d G O), FitMem fr (fun oc' => oc' = oc) M0 D (args M0).post_sample
      ((s.sample ext D.nSamples g').1, (s.sample ext D.nSamples g').2.1) w →
      ((fitEnv ext T args D (args M0).xi (args M0).xi_labels (args M0).post_sample cfg (toSteps steps).iterations).gradMetric = true →
        FitGrads true (args M0).rho false w) →
      ((fitEnv ext T args D (args M0).xi (args M0).xi_labels (args M0).post_sample cfg (toSteps steps).iterations).stop it w).1 = .error err := by
    intro it w hw _
    have := hcall ⟨0, fun _ => w.lam, w.lgrad, [(w.mod.theta, w.pgrad)], (toSteps steps).iterations⟩ w.mod.theta w.pgrad it rfl
      (theta_length hw.1.1).symm hw.2.2
    rw [← hw.2.1] at this
    exact this
  have key := solveDual_raises (out := fitReadout (d := d) (G := G) (O := O)) (presample := !(args M0).post_sample)
    (rhoPos := (args M0).rho.isPos) (fl := fl) hi (err := err)
    (P := fun st => st = startState T M0 D g' oc)
    (env := fitEnv ext T args D (args M0).xi (args M0).xi_labels (args M0).post_sample cfg (toSteps steps).iterations) (by
      cases hpost : (args M0).post_sample with
      | false =>
        rw [hpost] at hE hstop
        simp only [Bool.not_false, if_true]
        refine (optimPre_raises hE hU hstop (J0 := fun w => w = freshBox T M0 D g' oc) (fun w hw => ?_) p hn).weaken ?_
        · subst hw
          refine Or.inl ⟨(), ?_, ?_⟩ <;> simp only [fitEnv, freshBox, hs]
          exact ⟨⟨sameShape_refl M0, hs.symm, fun _ => rfl⟩, rfl, fun _ => rfl⟩
        · rintro st rfl
          exact ⟨rfl, rfl⟩
      | true =>
        rw [hpost] at hE hstop
        simp only [Bool.not_true, Bool.false_eq_true, if_false]
        refine (optimPost_raises hE hU hstop p hn).weaken ?_
        rintro st rfl
        exact ⟨⟨⟨sameShape_refl M0, rfl, fun h => by cases h⟩, rfl, fun _ => rfl⟩, rfl⟩)
  exact key _ rfl

/-- the same for `solveTorch` -/
theorem solveTorch_raises {fr : Bool} (hT : GoodTorch T) (hfr : fr = true → FrozenLam T ∧ (args M0).rho = .num 0) (ha : ArgsFit args M0 m k mc)
    (hr : CostReady (args M0)) (hrho : ∀ r, (args M0).rho = .num r → 0 ≤ r) (hn : 0 < (toSteps steps).iterations) {oc : OCState}
    (hnan : (args M0).rho ≠ .nan) (himp : (args M0).imp_samp = false ∨ (args M0).rho = .num 0) {err : PyErr}
    (hcall : ∀ (v : OCView) (a : List ℝ) (pg : Option (List ℝ)) (it : ℤ), v.params = [(a, pg)] → a.length = M0.theta.length →
      (fr = true → v.lamGrad = none) → (ocCall cfg oc v it).1 = .error err) (g : G) :
    solveTorch ext T cfg fl args M0 steps oc g = .error err := by
  obtain ⟨D, g', s, hD, hs, hk⟩ := costReady_dualize (ext := ext) hr g
  have hi : D.impSamp = false ∨ (args M0).rho = .num 0 := by
    refine himp.imp (fun h => ?_) id
    by_contra h1
    have h2 := (C21_enabled_iff ext hD).1 (by simpa using h1)
    rw [h] at h2
    exact absurd h2.1 (by simp)
  obtain ⟨st, h⟩ := solveRun_raises (fl := fl) hT hfr hD ha hk hrho hn hs hnan hi hcall
  simp only [solveTorch, hD, ok_bind, h]

/-- **C86** (violated by conditions on the gradient of the multiplier) At radius zero the multiplier is frozen and has no gradient: whatever the data,
the module, the noise and the optimizer, a fit whose optimality condition looks at the gradient of the multiplier (`monitoring` of the multiplier, alone or
with the parameters) raises `ValueError`. -/
theorem C86_frozen_multiplier_false (hT : GoodTorch T) (hF : FrozenLam T) (ha : ArgsFit args M0 m k mc) (hr : CostReady (args M0))
    (hrho : (args M0).rho = .num 0) (hn : 0 < (toSteps steps).iterations) (hw : WatchesLamGrad cfg) (oc : OCState) (g : G) :
    solveTorch ext T cfg fl args M0 steps oc g = .error .valueError := by
  refine solveTorch_raises (fr := true) hT (fun _ => ⟨hF, hrho⟩) ha hr (fun r h => ?_) hn (by rw [hrho]; simp) (Or.inr hrho)
    (fun v a pg it _ _ hl => ?_) g
  · rw [hrho] at h
    cases h
    exact le_refl 0
  · obtain ⟨hm, ht, hmon⟩ := hw
    have hL : checkL cfg oc.l v = (.error .valueError, oc.l) := by
      unfold checkL
      rw [if_neg (by linarith), if_pos hm]
      simp only [lamGrad, hl rfl]
    unfold ocCall checkAllParams
    split_ifs <;> first | (simp only [checkBoth, hL]) | (exfalso; tauto)

theorem vsub_sizes {a b : List ℝ} (h : a.length ≠ b.length) (ha : 1 < a.length) (hb : 1 < b.length) : vsub a b = .error .runtimeError := by
  unfold vsub
  rw [if_neg h]
  match a, b with
  | _ :: _ :: _, _ :: _ :: _ => rfl

/-- **C86** (violated by a condition on the motion of the parameters that remembers another problem) Whatever the problem, if the memory holds
parameters of another number (both numbers greater than one) the fit raises `RuntimeError`. -/
theorem C86_other_sizes_false (hT : GoodTorch T) (ha : ArgsFit args M0 m k mc) (hr : CostReady (args M0))
    (hrho : ∃ r, (args M0).rho = .num r ∧ 0 ≤ r) (himp : (args M0).imp_samp = false ∨ (args M0).rho = .num 0)
    (hn : 0 < (toSteps steps).iterations) (hm : cfg.metric = "param".toList) (ht : 0 < cfg.tolTheta) (hmon : cfg.monitoring ∈ JUST_T)
    {oc : OCState} {n : ℕ} (hfit : MemFits oc n) (hmem : oc.t.t0.isSome = true) (hne : n ≠ M0.theta.length) (h1 : 1 < n) (h2 : 1 < M0.theta.length)
    (g : G) : solveTorch ext T cfg fl args M0 steps oc g = .error .runtimeError := by
  obtain ⟨r, h0, h0'⟩ := hrho
  refine solveTorch_raises (fr := false) hT (fun h => by cases h) ha hr (fun r' h => ?_) hn (by rw [h0]; simp) himp
    (fun v a pg it hv hlen _ => ?_) g
  · rw [h0] at h
    cases h
    exact h0'
  · obtain ⟨t0, ht0⟩ := Option.isSome_iff_exists.1 hmem
    have hT : (checkT cfg oc.t v).1 = .error .runtimeError := by
      unfold checkT
      rw [if_neg (by linarith), if_neg (by rw [hm]; decide), if_pos hm]
      have hp : flatParam v = .ok a := by simp [flatParam, hv]
      simp only [hp, ht0]
      cases hd1 : oc.t.deltaT1 with
      | none =>
        have : vsub a t0 = .error .runtimeError := vsub_sizes (by rw [hlen, hfit.t0 _ ht0]; exact hne.symm) (by rw [hlen]; exact h2)
          (by rw [hfit.t0 _ ht0]; exact h1)
        simp only [this]
      | some t1 =>
        obtain ⟨mem, hmem⟩ := Option.isSome_iff_exists.1 (hfit.t1 (by rw [hd1]; rfl))
        have : vsub a mem = .error .runtimeError := vsub_sizes (by rw [hlen, hfit.tMem _ hmem]; exact hne.symm) (by rw [hlen]; exact h2)
          (by rw [hfit.tMem _ hmem]; exact h1)
        simp only [hmem, this]
    have hA : (checkAllParams cfg oc v).1 = .error .runtimeError := by
      have : cfg.monitoring ∉ L_AND_T ∧ cfg.monitoring ∉ L_OR_T ∧ cfg.monitoring ∉ JUST_L := by
        simp only [JUST_T, List.mem_cons, List.not_mem_nil, or_false] at hmon
        rcases hmon with h | h <;> rw [h] <;> decide
      unfold checkAllParams
      rw [if_neg this.1, if_neg this.2.1, if_neg this.2.2, if_pos hmon]
      exact hT
    unfold ocCall
    cases hx : checkAllParams cfg oc v with
    | mk x t =>
      rw [hx] at hA
      simp only at hA
      subst hA
      rfl

end

end Skwdro
