import Verif.Lemmas.DualSetting
import Mathlib.Analysis.Convex.Function

/-!
# Properties of the robust (dual) loss: C25 (robust part), C29–C37

`Plain` (Spec/Dual.lean) says what a robust evaluation receives: the losses `L j i` of the samples and the ground costs
`C j i`.  `Labelled` is the end-to-end setting (wrapped labelled model and decoded ground cost) and
`C29_formula_labelled` shows that it is an instance.
-/

namespace Skwdro
open Spec Tensor

variable {G : Type} (ext : TorchExt G)

section setting
variable {n m : ℕ} {D : DualLoss} {xi zeta : Tensor ℝ} {xl zl : Option (Tensor ℝ)} {rho : ℝ} {L C : Fin n → Fin m → ℝ}

/-! ## C29 -/

/-- **C29** The robust loss is the advertised formula, for any loss and cost values. -/
theorem C29_formula (h : Plain D xi xl zeta zl rho L C) (hr : D.reduction = .mean) :
    ReturnsVal (computeDual ext D xi xl zeta zl)
      (fun v => IsScalar v (robust D.lam rho D.cost.power D.epsilon L C)) := by
  obtain ⟨t, ht, hT⟩ := plain_compute ext h
  rw [ht]
  simpa only [robust, softmax] using finishDual_mean h.n_pos h.m_pos hr hT

/-- the value as a number -/
theorem num_plain (h : Plain D xi xl zeta zl rho L C) (hr : D.reduction = .mean) :
    num (computeDual ext D xi xl zeta zl) = robust D.lam rho D.cost.power D.epsilon L C :=
  num_of_scalar (C29_formula ext h hr)

end setting

/-- **C29** End to end: robust loss of a wrapped labelled model on data `X, Y` and samples `Z, W`, in terms of the model's
loss at single points and of the ground cost between single points. -/
theorem C29_formula_labelled {n m d k s : ℕ} {w : WLoss} {D : DualLoss}
    {ell : (Fin d → ℝ) → (Fin k → ℝ) → Fin s → ℝ} {rho : ℝ} (h : Labelled w D ell rho) (hr : D.reduction = .mean)
    (hn : 0 < n) (hm : 0 < m) {x z y y' : Tensor ℝ} {X : Fin m → Fin d → ℝ} {Z : Fin n → Fin m → Fin d → ℝ}
    {Y : Fin m → Fin k → ℝ} {W : Fin n → Fin m → Fin k → ℝ} (hx : IsMat x X) (hz : IsTen z Z) (hy : IsMat y Y)
    (hw : IsTen y' W) :
    ReturnsVal (computeDual ext D x (some y) z (some y')) (fun v => IsScalar v (D.lam * rho ^ D.cost.power +
      (∑ i, D.epsilon * Real.log ((∑ j, Real.exp ((lossAt w ell (Z j i) (W j i) -
        D.lam * costAt D.cost (X i) (Z j i) (Y i) (W j i)) / D.epsilon)) / n)) / m)) :=
  C29_formula ext (plain_of_labelled h hn hm hx hz hy hw) hr

/-- **C29** The same through the forward pass of the pre-sampled loss, when samples are given. -/
theorem C29_formula_presampled {n m : ℕ} {D : DualLoss} {xi zeta : Tensor ℝ} {xl zl : Option (Tensor ℝ)} {rho : ℝ}
    {L C : Fin n → Fin m → ℝ} (h : Plain D xi xl zeta zl rho L C) (hr : D.reduction = .mean) (cache : Cache) :
    ReturnsVal (preForward ext D cache xi xl (some zeta) zl).2
      (fun v => IsScalar v (robust D.lam rho D.cost.power D.epsilon L C)) := by
  simpa [preForward] using C29_formula ext h hr

/-- **C29** The same through the forward pass of the post-sampled loss, on the samples its re-centred sampler draws. -/
theorem C29_formula_postsampled {n m : ℕ} {D : DualLoss} {xi : Tensor ℝ} {xl : Option (Tensor ℝ)} {rho : ℝ}
    {L C : Fin n → Fin m → ℝ} {s s' : Sampler} {g g' : G} (hs : D.sampler = some s)
    (hreset : s.resetMean ext xi xl g = .ok (s', g'))
    (h : Plain D xi xl (s'.sample ext D.nSamples g').1 (s'.sample ext D.nSamples g').2.1 rho L C)
    (hr : D.reduction = .mean) :
    ∃ v D', postForward ext D xi xl true g = .ok (.val v, D', (s'.sample ext D.nSamples g').2.2) ∧
      D' = { D with sampler := some s' } ∧ IsScalar v (robust D.lam rho D.cost.power D.epsilon L C) := by
  have h' : Plain { D with sampler := some s' } xi xl (s'.sample ext D.nSamples g').1
      (s'.sample ext D.nSamples g').2.1 rho L C :=
    ⟨h.rho_eq, h.rho_pos, h.eps_pos, h.erm, h.imp, h.n_pos, h.m_pos, h.samples, h.loss, h.cost⟩
  obtain ⟨v, hv, hS⟩ := C29_formula ext h' hr
  refine ⟨v, _, ?_, rfl, hS⟩
  simp only [h.rho_eq] at hv
  simp [postForward, hs, hreset, h.rho_eq, not_lt.2 h.rho_pos.le, h.rho_pos.ne', hv]

/-! ### A concrete setting, used by the non-vacuity examples of this file -/

/-- squared error, no regularisation -/
noncomputable def exW : WLoss := ⟨true, true, sqErr, none, []⟩

noncomputable def exD : DualLoss where
  primal := exW.value
  grads := fun x y => (x, y)
  cost := ⟨.normLabelCost, .fin 2, 2, .fin 1⟩
  rho := .num 1
  epsilon := 1
  lam := 1
  reduction := .mean
  ermMode := false
  impSamp := false
  sampler := none
  hasLabels := true
  nSamples := 2

theorem exD_labelled : Labelled (d := 1) (k := 1) (s := 1) exW exD (fun x y c => (x c - y c) ^ 2) 1 where
  primal := rfl
  hasLabels := rfl
  reduceSpatial := rfl
  s_pos := by norm_num
  rows := sqErr_rowWise
  cost := ⟨Or.inl ⟨2, by norm_num, rfl⟩, fun _ => Or.inl ⟨1, by norm_num, rfl⟩⟩
  rho_eq := rfl
  rho_pos := by norm_num
  eps_pos := by norm_num [exD]
  erm := rfl
  imp := rfl

/-- two data points, three samples each -/
noncomputable def exX : Fin 2 → Fin 1 → ℝ := fun i _ => i
noncomputable def exZ : Fin 3 → Fin 2 → Fin 1 → ℝ := fun j i _ => i + j

theorem exD_plain : Plain exD (mat exX) (some (mat exX)) (ten exZ) (some (ten exZ)) 1
    (fun j i => lossAt exW (fun (x y : Fin 1 → ℝ) (c : Fin 1) => (x c - y c) ^ 2) (exZ j i) (exZ j i))
    (fun j i => costAt exD.cost (exX i) (exZ j i) (exX i) (exZ j i)) := plain_of_labelled (n := 3) (m := 2) exD_labelled (by norm_num) (by norm_num) (isMat_mat exX)
  (isTen_ten exZ) (isMat_mat exX) (isTen_ten exZ)

example : ReturnsVal (computeDual ext exD (mat exX) (some (mat exX)) (ten exZ) (some (ten exZ))) (fun v => v.shape = []) :=
  let ⟨v, h, hs⟩ := C29_formula ext exD_plain rfl
  ⟨v, h, hs.1⟩
example := C29_formula_labelled ext exD_labelled rfl (n := 3) (m := 2) (by norm_num) (by norm_num) (isMat_mat exX) (isTen_ten exZ) (isMat_mat exX) (isTen_ten exZ)
example := C29_formula_presampled ext exD_plain rfl

/-! ## C30 -/

section
variable {m : ℕ} {D : DualLoss} {xi zeta : Tensor ℝ} {xl zl : Option (Tensor ℝ)} {l : Fin m → ℝ}

theorem erm_mean {rho : ℝ} (hm : reduceLossBatch D.reduction = reduceLossBatch .mean)
    (hl : Returns (D.primal xi.unsqueeze0 (maybeUnsqueeze xl)) (fun t => IsTen t (fun (_ : Fin 1) i (_ : Fin 1) => l i))) :
    ReturnsVal (ermBranch D rho xi xl) (fun v => IsScalar v (rho * D.lam + avg l)) := by
  obtain ⟨t, ht, hT⟩ := hl
  have h2 := hT.is.squeeze0 (s := [m, 1])
  obtain ⟨u, hu, hs, hv⟩ := reduce_mean h2
  refine ⟨_, by simp only [ermBranch, ht, ok_bind, hm, hu]; rfl, by simp [addScalar, Tensor.map, hs], ?_⟩
  simp only [addScalar, Tensor.map, hv]
  congr 2
  funext i
  exact ix3_apply _ (0 : Fin 1) i (0 : Fin 1)

/-- **C30** With radius 0 the robust loss is the average loss of the data points, whatever the multiplier, the
regularisation, the samples, the importance-sampling and ERM flags.  Here for the core computation... -/
theorem C30_zero_radius (h0 : D.rho = .num 0) (hr : D.reduction = .mean)
    (hl : Returns (D.primal xi.unsqueeze0 (maybeUnsqueeze xl)) (fun t => IsTen t (fun (_ : Fin 1) i (_ : Fin 1) => l i))) :
    ReturnsVal (computeDual ext D xi xl zeta zl) (fun v => IsScalar v (avg l)) := by
  have := erm_mean (D := D) (rho := 0) (by rw [hr]) hl
  simpa [computeDual, h0] using this

/-- **C30** ... for the post-sampled loss ... -/
theorem C30_zero_radius_postsampled (h0 : D.rho = .num 0) (hr : D.reduction = .mean) {s s' : Sampler} {g g' : G}
    (hs : D.sampler = some s) (hreset : s.resetMean ext xi xl g = .ok (s', g'))
    (hl : Returns (D.primal xi.unsqueeze0 (maybeUnsqueeze xl)) (fun t => IsTen t (fun (_ : Fin 1) i (_ : Fin 1) => l i))) :
    ∃ v D' g'', postForward ext D xi xl true g = .ok (.val v, D', g'') ∧ IsScalar v (avg l) := by
  obtain ⟨v, hv, hS⟩ := erm_mean (D := D) (rho := 0) (by rw [hr]) hl
  obtain ⟨t, ht, hT⟩ := hl
  simp only [ermBranch, ht, ok_bind] at hv
  cases hu : reduceLossBatch D.reduction t.squeeze0 with
  | error e => simp [hu] at hv
  | ok u =>
    simp only [hu, ok_bind, Except.ok.injEq, DualVal.val.injEq] at hv
    refine ⟨v, { D with sampler := some s' }, g', ?_, by simpa using hS⟩
    simpa [postForward, hs, hreset, h0, ht, hu] using hv

/-- **C30** ... and for the pre-sampled loss when samples are given. -/
theorem C30_zero_radius_presampled (h0 : D.rho = .num 0) (hr : D.reduction = .mean) (cache : Cache)
    (hl : Returns (D.primal xi.unsqueeze0 (maybeUnsqueeze xl)) (fun t => IsTen t (fun (_ : Fin 1) i (_ : Fin 1) => l i))) :
    ReturnsVal (preForward ext D cache xi xl (some zeta) zl).2 (fun v => IsScalar v (avg l)) := by
  simpa [preForward] using C30_zero_radius ext h0 hr hl

/-- **C30 fails** on the pre-sampled loss when it reuses stored samples: the batch axis is not removed before the reduction,
and every such evaluation stops with an assertion error. -/
theorem C30_stored_samples_false (h0 : D.rho = .num 0) (z : Tensor ℝ) (zl' : Option (Tensor ℝ))
    (hl : Returns (D.primal xi.unsqueeze0 (maybeUnsqueeze xl)) (fun t => IsTen t (fun (_ : Fin 1) i (_ : Fin 1) => l i))) :
    (preForward ext D (some (z, zl')) xi xl none zl).2 = .error .assertionError := by
  obtain ⟨t, ht, hT⟩ := hl
  simp [preForward, h0, ht, reduceLossBatch, Tensor.dim, hT.1]

end

/-- the concrete setting with radius 0 -/
theorem exD_zero : Returns ({ exD with rho := .num 0 }.primal (mat exX).unsqueeze0 (maybeUnsqueeze (some (mat exX))))
    (fun t => IsTen t (fun (_ : Fin 1) (i : Fin 2) (_ : Fin 1) =>
      lossAt exW (fun (x y : Fin 1 → ℝ) (c : Fin 1) => (x c - y c) ^ 2) (exX i) (exX i))) :=
  wrapped_batch (w := exW) rfl rfl (by norm_num) sqErr_rowWise (isTen_unsqueeze (isMat_mat exX)) (isTen_unsqueeze (isMat_mat exX))

/-! The hypotheses of C30 are met there. -/
example (zeta : Tensor ℝ) := C30_zero_radius ext (zeta := zeta) (zl := none) rfl rfl exD_zero
example (zeta : Tensor ℝ) (cache : Cache) := C30_zero_radius_presampled ext (zeta := zeta) (zl := none) rfl rfl cache exD_zero
example (z : Tensor ℝ) := C30_stored_samples_false ext (zl := none) rfl z none exD_zero

/-! ## C31 -/

section
variable {D : DualLoss} {xi : Tensor ℝ} {xl : Option (Tensor ℝ)}

/-- **C31** Post-sampled loss: a negative radius never gives a value; it is a ValueError as soon as the sampler can be
re-centred (or is missing). -/
theorem C31_negative_postsampled {r : ℝ} (hr : D.rho = .num r) (h : r < 0) (b : Bool) (g : G) :
    (∀ v, postForward ext D xi xl b g ≠ .ok v) ∧
    ((∀ s, D.sampler = some s → b = true → ∃ v, s.resetMean ext xi xl g = .ok v) →
      postForward ext D xi xl b g = .error .valueError) := by
  cases hs : D.sampler with
  | none => simp [postForward, hs]
  | some s =>
    cases b with
    | false => simp [postForward, hs, hr, h]
    | true =>
      cases hre : s.resetMean ext xi xl g with
      | error e => simp [postForward, hs, hre]
      | ok v => simp [postForward, hs, hr, h, hre]

/-- **C31, largest true part** Outside ERM mode, for the core computation and both ways of calling the pre-sampled loss, a
negative radius is a ValueError and a NaN radius gives NaN; a NaN radius gives NaN on the post-sampled loss too.  Missing:
in ERM mode the pre-sampled loss ignores the sign of the radius (next theorem). -/
theorem C31_invalid_radius_partial (he : D.ermMode = false) (zeta : Tensor ℝ) (zl : Option (Tensor ℝ)) (cache : Cache) :
    (∀ r : ℝ, D.rho = .num r → r < 0 →
      computeDual ext D xi xl zeta zl = .error .valueError ∧
      (preForward ext D cache xi xl (some zeta) zl).2 = .error .valueError ∧
      (preForward ext D cache xi xl none zl).2 = .error .valueError) ∧
    (D.rho = .nan →
      computeDual ext D xi xl zeta zl = .ok .nan ∧
      (preForward ext D cache xi xl (some zeta) zl).2 = .ok .nan ∧
      (preForward ext D (some (zeta, zl)) xi xl none none).2 = .ok .nan ∧
      ∀ b g v D' g', postForward ext D xi xl b g = .ok (v, D', g') → v = .nan) := by
  refine ⟨fun r hr h => ?_, fun hr => ?_⟩
  · have h1 : computeDual ext D xi xl zeta zl = .error .valueError := by
      simp [computeDual, hr, h.ne, he, not_lt.2 h.le]
    refine ⟨h1, by simpa [preForward] using h1, ?_⟩
    cases cache <;> simp [preForward, hr, h]
  · have h1 : ∀ s zeta zl, computeDual ext { D with sampler := s } xi xl zeta zl = .ok .nan := by
      intro s zeta zl; simp [computeDual, hr, he]
    have h2 := h1 D.sampler zeta zl
    refine ⟨h2, by simpa [preForward] using h2, by simp only [preForward, hr]; exact h2, ?_⟩
    simp only [hr] at h1
    intro b g v D' g' hp
    cases hs : D.sampler with
    | none => simp [postForward, hs] at hp
    | some s =>
      cases b with
      | false =>
        simp only [postForward, hs, hr, h1, ok_bind, Bool.false_eq_true, if_false, Except.ok.injEq, Prod.mk.injEq] at hp
        exact hp.1.symm
      | true =>
        cases hre : s.resetMean ext xi xl g with
        | error e => simp [postForward, hs, hre] at hp
        | ok w =>
          simp only [postForward, hs, hr, h1, ok_bind, if_true, hre, Except.ok.injEq, Prod.mk.injEq] at hp
          exact hp.1.symm

end

/-- a loss with a negative radius, and one with radius NaN -/
example (xi : Tensor ℝ) (b : Bool) (g : G) := C31_negative_postsampled ext (D := { exD with rho := .num (-1) }) (xi := xi) (xl := none) rfl (by norm_num) b g
example (xi zeta : Tensor ℝ) (cache : Cache) := (C31_invalid_radius_partial ext (D := { exD with rho := .num (-1) }) (xi := xi) (xl := none) rfl zeta none cache).1
  (-1) rfl (by norm_num)
example (xi zeta : Tensor ℝ) (cache : Cache) := (C31_invalid_radius_partial ext (D := { exD with rho := .nan }) (xi := xi) (xl := none) rfl zeta none cache).2 rfl

/-- **C31 fails** in ERM mode (the mode in which pre-training is run): the pre-sampled loss accepts the radius -1 and
returns a number. -/
theorem C31_erm_mode_false : ∃ D : DualLoss, D.rho = .num (-1) ∧
    ReturnsVal (preForward ext D none (mat exX) (some (mat exX)) (some (ten exZ)) (some (ten exZ))).2
      (fun v => v.shape = []) := by
  refine ⟨{ exD with rho := .num (-1), ermMode := true }, rfl, ?_⟩
  obtain ⟨v, hv, hs⟩ := erm_mean (D := { exD with rho := .num (-1), ermMode := true }) (rho := -1)
    (xi := mat exX) (xl := some (mat exX)) rfl
    (wrapped_batch (w := exW) rfl rfl (by norm_num) sqErr_rowWise (isTen_unsqueeze (isMat_mat exX))
      (isTen_unsqueeze (isMat_mat exX)))
  refine ⟨v, ?_, hs.1⟩
  simpa [preForward, computeDual, exD] using hv

/-! ## C32 -/

section
variable {n m : ℕ} {D : DualLoss} {xi zeta : Tensor ℝ} {xl zl : Option (Tensor ℝ)} {rho : ℝ} {L C : Fin n → Fin m → ℝ}

/-- **C32** For a non-negative multiplier, the robust loss is at least the expected loss minus `eps * KL` of every adversary:
an adversary re-weights the samples of each data point, with average transport cost at most `rho^p`. -/
theorem C32_bounds_adversaries (h : Plain D xi xl zeta zl rho L C) (hr : D.reduction = .mean) (hlam : 0 ≤ D.lam)
    (q : Fin m → Fin n → ℝ) (hq : ∀ i, IsWeights (q i))
    (hadm : avg (fun i => ∑ j, q i j * C j i) ≤ rho ^ D.cost.power) :
    avg (fun i => ∑ j, q i j * L j i - D.epsilon * KL (q i)) ≤ num (computeDual ext D xi xl zeta zl) := by
  rw [num_plain ext h hr]
  have h1 : avg (fun i => ∑ j, q i j * (L j i - D.lam * C j i) - D.epsilon * KL (q i)) ≤
      avg (fun i => softmax D.epsilon (fun j => L j i - D.lam * C j i)) :=
    avg_mono fun i => gibbs_le h.n_pos h.eps_pos _ (hq i)
  have h2 : avg (fun i => ∑ j, q i j * L j i - D.epsilon * KL (q i)) =
      avg (fun i => ∑ j, q i j * (L j i - D.lam * C j i) - D.epsilon * KL (q i)) +
        D.lam * avg (fun i => ∑ j, q i j * C j i) := by
    simp only [avg]
    rw [← mul_div_assoc, ← add_div, Finset.mul_sum, ← Finset.sum_add_distrib]
    congr 1
    refine Finset.sum_congr rfl fun i _ => ?_
    simp only [mul_sub, Finset.sum_sub_distrib, Finset.mul_sum]
    have : ∀ j, q i j * (D.lam * C j i) = D.lam * (q i j * C j i) := fun j => by ring
    simp only [this]; ring
  have h3 := mul_le_mul_of_nonneg_left hadm hlam
  rw [h2, robust]; linarith

/-- **C32** At the exponentially tilted adversary this is an equality, up to the multiplier times the unused budget. -/
theorem C32_tilted_adversary (h : Plain D xi xl zeta zl rho L C) (hr : D.reduction = .mean) :
    let q := fun i => tilt D.epsilon (fun j => L j i - D.lam * C j i)
    (∀ i, IsWeights (q i)) ∧
    num (computeDual ext D xi xl zeta zl) = avg (fun i => ∑ j, q i j * L j i - D.epsilon * KL (q i)) +
      D.lam * (rho ^ D.cost.power - avg (fun i => ∑ j, q i j * C j i)) := by
  intro q
  refine ⟨fun i => tilt_weights h.n_pos _ _, ?_⟩
  rw [num_plain ext h hr, robust]
  have h1 : avg (fun i => softmax D.epsilon (fun j => L j i - D.lam * C j i)) =
      avg (fun i => ∑ j, q i j * (L j i - D.lam * C j i) - D.epsilon * KL (q i)) := by
    congr 1; funext i; exact (gibbs_eq h.n_pos h.eps_pos _).symm
  have h2 : avg (fun i => ∑ j, q i j * L j i - D.epsilon * KL (q i)) =
      avg (fun i => ∑ j, q i j * (L j i - D.lam * C j i) - D.epsilon * KL (q i)) +
        D.lam * avg (fun i => ∑ j, q i j * C j i) := by
    simp only [avg]
    rw [← mul_div_assoc, ← add_div, Finset.mul_sum, ← Finset.sum_add_distrib]
    congr 1
    refine Finset.sum_congr rfl fun i _ => ?_
    simp only [mul_sub, Finset.sum_sub_distrib, Finset.mul_sum]
    have : ∀ j, q i j * (D.lam * C j i) = D.lam * (q i j * C j i) := fun j => by ring
    simp only [this]; ring
  rw [h1, h2]; ring

/-- adversaries within the budget exist in the concrete setting: leave every sample in place -/
theorem exD_adversary : ∃ q : Fin 2 → Fin 3 → ℝ, (∀ i, IsWeights (q i)) ∧
    avg (fun i => ∑ j, q i j * costAt exD.cost (exX i) (exZ j i) (exX i) (exZ j i)) ≤ 1 ^ exD.cost.power := by
  refine ⟨fun _ j => if j = 0 then 1 else 0, fun i => ⟨fun j => by dsimp only; split <;> norm_num, by simp⟩, ?_⟩
  have : ∀ i, exZ 0 i = exX i := by intro i; funext c; simp [exZ, exX]
  have hc : ∀ i, costAt exD.cost (exX i) (exX i) (exX i) (exX i) = 0 := by
    intro i
    rw [(C05_point_formula exD.cost rfl (Or.inl ⟨2, by norm_num, rfl⟩) _ _ _ _).1 1 (by norm_num) rfl]
    have h2 : pnorm exD.cost.p (fun c => exX i c - exX i c) = 0 := by simp [exD, pnorm]
    rw [h2]; simp [exD]
  simp [this, hc, avg]

example : ∃ q : Fin 2 → Fin 3 → ℝ, avg (fun i => ∑ j, q i j * lossAt exW (fun (x y : Fin 1 → ℝ) (c : Fin 1) => (x c - y c) ^ 2) (exZ j i) (exZ j i) -
    exD.epsilon * KL (q i)) ≤ num (computeDual ext exD (mat exX) (some (mat exX)) (ten exZ) (some (ten exZ))) :=
  let ⟨q, hq, hadm⟩ := exD_adversary
  ⟨q, C32_bounds_adversaries ext exD_plain rfl (by norm_num [exD]) q hq hadm⟩
example := C32_tilted_adversary ext exD_plain rfl

/-! ## C33 -/

/-- **C33** Increasing the loss anywhere cannot decrease the robust loss. -/
theorem C33_monotone {D' : DualLoss} {L' : Fin n → Fin m → ℝ} (h : Plain D xi xl zeta zl rho L C)
    (h' : Plain D' xi xl zeta zl rho L' C) (hr : D.reduction = .mean) (hr' : D'.reduction = .mean)
    (hlam : D'.lam = D.lam) (heps : D'.epsilon = D.epsilon) (hc : D'.cost = D.cost) (hle : ∀ j i, L j i ≤ L' j i) :
    num (computeDual ext D xi xl zeta zl) ≤ num (computeDual ext D' xi xl zeta zl) := by
  rw [num_plain ext h hr, num_plain ext h' hr', robust, robust, hlam, heps, hc]
  have := avg_mono (fun i => softmax_mono h.n_pos h.eps_pos (u := fun j => L j i - D.lam * C j i)
    (v := fun j => L' j i - D.lam * C j i) (fun j => by have := hle j i; linarith))
  linarith

/-- **C33** Adding a constant to the loss adds that constant to the robust loss. -/
theorem C33_shift {D' : DualLoss} {c : ℝ} (h : Plain D xi xl zeta zl rho L C)
    (h' : Plain D' xi xl zeta zl rho (fun j i => L j i + c) C) (hr : D.reduction = .mean) (hr' : D'.reduction = .mean)
    (hlam : D'.lam = D.lam) (heps : D'.epsilon = D.epsilon) (hc : D'.cost = D.cost) :
    num (computeDual ext D' xi xl zeta zl) = num (computeDual ext D xi xl zeta zl) + c := by
  rw [num_plain ext h hr, num_plain ext h' hr', robust, robust, hlam, heps, hc]
  have : ∀ i, softmax D.epsilon (fun j => L j i + c - D.lam * C j i) =
      softmax D.epsilon (fun j => L j i - D.lam * C j i) + c := fun i => by
    rw [← softmax_add_const h.n_pos h.eps_pos]; congr 1; funext j; ring
  simp only [this]
  rw [avg_add_const h.m_pos]; ring

end

/-- **C25** Robust part: with mean reduction, adding an L2 weight to the wrapped model moves the robust loss by exactly the
same amount as each per-sample loss. -/
theorem C25_ridge_robust {n m d k s : ℕ} {w : WLoss} {D : DualLoss} {ell : (Fin d → ℝ) → (Fin k → ℝ) → Fin s → ℝ}
    {rho : ℝ} (h : Labelled w D ell rho) (hr : D.reduction = .mean) (hn : 0 < n) (hm : 0 < m) {x z y y' : Tensor ℝ}
    {X : Fin m → Fin d → ℝ} {Z : Fin n → Fin m → Fin d → ℝ} {Y : Fin m → Fin k → ℝ} {W : Fin n → Fin m → Fin k → ℝ}
    (hx : IsMat x X) (hz : IsTen z Z) (hy : IsMat y Y) (hw : IsTen y' W) :
    num (computeDual ext D x (some y) z (some y')) =
      num (computeDual ext { D with primal := { w with l2reg := none }.value } x (some y) z (some y')) +
        (match w.l2reg with
          | some r => if 0 < r then r / 2 * (w.theta.map (fun x => x ^ 2)).sum else 0
          | none => 0) := by
  have h0 : Labelled { w with l2reg := none } { D with primal := { w with l2reg := none }.value } ell rho :=
    ⟨rfl, h.hasLabels, h.reduceSpatial, h.s_pos, h.rows, h.cost, h.rho_eq, h.rho_pos, h.eps_pos, h.erm, h.imp⟩
  have p0 := plain_of_labelled h0 hn hm hx hz hy hw
  have p1 := plain_of_labelled h hn hm hx hz hy hw
  have e : (fun j i => lossAt w ell (Z j i) (W j i)) =
      (fun j i => lossAt { w with l2reg := none } ell (Z j i) (W j i) + ridge w.l2reg w.theta) := by
    funext j i; simp [lossAt, ridge]
  rw [e] at p1
  rw [C33_shift ext p0 p1 hr hr rfl rfl rfl]
  congr 1
  cases w.l2reg with
  | none => rfl
  | some r => simp only [ridge]; by_cases hr : r ≤ 0 <;> simp [hr, not_lt.2, lt_of_not_ge]

/-- squared error with a ridge penalty -/
theorem exD_ridge : Labelled (d := 1) (k := 1) (s := 1) { exW with l2reg := some 2, theta := [3] }
    { exD with primal := { exW with l2reg := some 2, theta := [3] }.value } (fun x y c => (x c - y c) ^ 2) 1 :=
  ⟨rfl, rfl, rfl, by norm_num, sqErr_rowWise, exD_labelled.cost, rfl, by norm_num, by norm_num [exD], rfl, rfl⟩

example := C25_ridge_robust ext exD_ridge rfl (n := 3) (m := 2) (by norm_num) (by norm_num) (isMat_mat exX) (isTen_ten exZ) (isMat_mat exX) (isTen_ten exZ)

/-- the ridge penalty adds a constant, hence raises the loss: C33 applies to the losses with and without it -/
example := C33_monotone ext exD_plain (plain_of_labelled exD_ridge (by norm_num) (by norm_num) (isMat_mat exX) (isTen_ten exZ) (isMat_mat exX) (isTen_ten exZ))
  rfl rfl rfl rfl rfl (fun j i => by simp only [lossAt, ridge, exW]; norm_num)
example := C33_shift ext (D' := { exD with primal := { exW with l2reg := some 2, theta := [3] }.value }) (c := 9) exD_plain (by
  have h := plain_of_labelled exD_ridge (n := 3) (m := 2) (by norm_num) (by norm_num) (isMat_mat exX) (isTen_ten exZ) (isMat_mat exX) (isTen_ten exZ)
  convert h using 4
  simp only [lossAt, ridge, exW]; norm_num) rfl rfl rfl rfl rfl

/-! ## C34 -/

/-- **C34** If the loss is convex in the model parameters at every sample, the robust loss is jointly convex in the
parameters and the multiplier. -/
theorem C34_jointly_convex {n m : ℕ} {E : Type} [AddCommGroup E] [Module ℝ E] {K : Set E} (hK : Convex ℝ K)
    {D : E → ℝ → DualLoss} {xi zeta : Tensor ℝ} {xl zl : Option (Tensor ℝ)} {rho eps p : ℝ} {L : E → Fin n → Fin m → ℝ}
    {C : Fin n → Fin m → ℝ} (h : ∀ θ ∈ K, ∀ lam, Plain (D θ lam) xi xl zeta zl rho (L θ) C)
    (hr : ∀ θ lam, (D θ lam).reduction = .mean) (hlam : ∀ θ lam, (D θ lam).lam = lam)
    (heps : ∀ θ lam, (D θ lam).epsilon = eps) (hp : ∀ θ lam, (D θ lam).cost.power = p)
    (hL : ∀ j i, ConvexOn ℝ K (fun θ => L θ j i)) :
    ConvexOn ℝ (K ×ˢ (Set.univ : Set ℝ)) (fun x => num (computeDual ext (D x.1 x.2) xi xl zeta zl)) := by
  refine ⟨hK.prod convex_univ, ?_⟩
  rintro ⟨θ, l⟩ ⟨hθ, -⟩ ⟨θ', l'⟩ ⟨hθ', -⟩ a b ha hb hab
  have hP := h _ (hK hθ hθ' ha hb hab) (a * l + b * l')
  have hm := hP.m_pos
  have hn := hP.n_pos
  have he : 0 < eps := by have := hP.eps_pos; rwa [heps] at this
  simp only [Prod.smul_mk, Prod.mk_add_mk, smul_eq_mul]
  rw [num_plain ext hP (hr _ _), num_plain ext (h θ hθ l) (hr _ _), num_plain ext (h θ' hθ' l') (hr _ _)]
  simp only [hlam, heps, hp, robust]
  have key := avg_mono (fun i => softmax_convex hn he (u := fun j => L θ j i - l * C j i)
    (v := fun j => L θ' j i - l' * C j i) (w := fun j => L (a • θ + b • θ') j i - (a * l + b * l') * C j i) ha hb hab
    (fun j => by
      have := (hL j i).2 hθ hθ' ha hb hab
      simp only [smul_eq_mul] at this
      nlinarith [this]))
  have e : avg (fun i => a * softmax eps (fun j => L θ j i - l * C j i) + b * softmax eps (fun j => L θ' j i - l' * C j i))
      = a * avg (fun i => softmax eps (fun j => L θ j i - l * C j i)) +
        b * avg (fun i => softmax eps (fun j => L θ' j i - l' * C j i)) := by
    simp only [avg, Finset.sum_add_distrib, ← Finset.mul_sum]; ring
  rw [e] at key
  nlinarith [key]

/-- a concrete family: squared error with a ridge penalty on the parameter `θ` -/
noncomputable def exWθ (θ : ℝ) : WLoss := { exW with l2reg := some 2, theta := [θ] }

theorem exWθ_plain (θ lam : ℝ) : Plain { exD with primal := (exWθ θ).value, lam := lam } (mat exX) (some (mat exX))
    (ten exZ) (some (ten exZ)) 1
    (fun j i => lossAt (exWθ θ) (fun (x y : Fin 1 → ℝ) (c : Fin 1) => (x c - y c) ^ 2) (exZ j i) (exZ j i))
    (fun j i => costAt exD.cost (exX i) (exZ j i) (exX i) (exZ j i)) :=
  plain_of_labelled (w := exWθ θ) (D := { exD with primal := (exWθ θ).value, lam := lam })
    ⟨rfl, rfl, rfl, by norm_num, sqErr_rowWise, exD_labelled.cost, rfl, by norm_num, by norm_num [exD], rfl, rfl⟩
    (by norm_num) (by norm_num) (isMat_mat exX) (isTen_ten exZ) (isMat_mat exX) (isTen_ten exZ)

example : ConvexOn ℝ (Set.univ ×ˢ (Set.univ : Set ℝ)) (fun x : ℝ × ℝ => num (computeDual ext
    { exD with primal := (exWθ x.1).value, lam := x.2 } (mat exX) (some (mat exX)) (ten exZ) (some (ten exZ)))) := by
  refine C34_jointly_convex ext (D := fun θ lam => { exD with primal := (exWθ θ).value, lam := lam }) convex_univ
    (fun θ _ lam => exWθ_plain θ lam) (fun _ _ => rfl) (fun _ _ => rfl) (fun _ _ => rfl) (fun _ _ => rfl) fun j i => ?_
  refine ⟨convex_univ, fun θ _ θ' _ a b ha hb hab => ?_⟩
  have hb' : b = 1 - a := by linarith
  subst hb'
  simp only [lossAt, exWθ, ridge, smul_eq_mul, List.map_cons, List.map_nil, List.sum_cons, List.sum_nil]
  norm_num
  nlinarith [mul_nonneg (mul_nonneg ha hb) (sq_nonneg (θ - θ'))]

/-! ## C35 -/

section
variable {n m : ℕ} {D : DualLoss} {xi zeta : Tensor ℝ} {xl zl : Option (Tensor ℝ)} {rho : ℝ} {L C : Fin n → Fin m → ℝ}

/-- **C35** Up to `lam * rho^p`, the robust loss lies between the average over samples of `L - lam*C` and its worst case
(`M i`, the maximum over the samples of data point `i`), and is within `eps * log n` of the latter. -/
theorem C35_between (h : Plain D xi xl zeta zl rho L C) (hr : D.reduction = .mean) {M : Fin m → ℝ}
    (hM : ∀ i, IsGreatest (Set.range fun j => L j i - D.lam * C j i) (M i)) :
    D.lam * rho ^ D.cost.power + avg (fun i => avg (fun j => L j i - D.lam * C j i)) ≤
      num (computeDual ext D xi xl zeta zl) ∧
    num (computeDual ext D xi xl zeta zl) ≤ D.lam * rho ^ D.cost.power + avg M ∧
    D.lam * rho ^ D.cost.power + avg M - D.epsilon * Real.log n ≤ num (computeDual ext D xi xl zeta zl) := by
  rw [num_plain ext h hr, robust]
  refine ⟨?_, ?_, ?_⟩
  · have := avg_mono (fun i => avg_le_softmax h.n_pos h.eps_pos (fun j => L j i - D.lam * C j i)); linarith
  · have := avg_mono (fun i => softmax_le_max h.n_pos h.eps_pos (fun j => L j i - D.lam * C j i)
      (fun j => (hM i).2 ⟨j, rfl⟩)); linarith
  · have h1 : ∀ i, M i + -(D.epsilon * Real.log n) ≤ softmax D.epsilon (fun j => L j i - D.lam * C j i) := by
      intro i
      obtain ⟨j, hj⟩ := (hM i).1
      have := point_le_softmax h.n_pos h.eps_pos (fun j => L j i - D.lam * C j i) j
      simp only at hj this; linarith
    have := avg_mono h1
    rw [avg_add_const h.m_pos] at this
    linarith

/-- **C35** The robust loss decreases when the regularisation grows. -/
theorem C35_decreasing_in_epsilon {D' : DualLoss} (h : Plain D xi xl zeta zl rho L C)
    (h' : Plain D' xi xl zeta zl rho L C) (hr : D.reduction = .mean) (hr' : D'.reduction = .mean)
    (hlam : D'.lam = D.lam) (hc : D'.cost = D.cost) (heps : D.epsilon ≤ D'.epsilon) :
    num (computeDual ext D' xi xl zeta zl) ≤ num (computeDual ext D xi xl zeta zl) := by
  rw [num_plain ext h hr, num_plain ext h' hr', robust, robust, hlam, hc]
  have := avg_mono (fun i => softmax_antitone_eps h.n_pos h.eps_pos heps (fun j => L j i - D.lam * C j i))
  linarith

/-- the maximum exists, as there is at least one sample -/
theorem plain_max (h : Plain D xi xl zeta zl rho L C) (i : Fin m) :
    ∃ M, IsGreatest (Set.range fun j => L j i - D.lam * C j i) M := by
  have : Nonempty (Fin n) := ⟨⟨0, h.n_pos⟩⟩
  obtain ⟨j, hj⟩ := Finite.exists_max (fun j => L j i - D.lam * C j i)
  exact ⟨_, ⟨j, rfl⟩, by rintro _ ⟨k, rfl⟩; exact hj k⟩

end

example : ∃ M : Fin 2 → ℝ, num (computeDual ext exD (mat exX) (some (mat exX)) (ten exZ) (some (ten exZ))) ≤ exD.lam * 1 ^ exD.cost.power + avg M :=
  ⟨fun i => (plain_max exD_plain i).choose, (C35_between ext exD_plain rfl fun i => (plain_max exD_plain i).choose_spec).2.1⟩
example := C35_decreasing_in_epsilon ext exD_plain (D' := { exD with epsilon := 2 })
  ⟨rfl, one_pos, two_pos, rfl, rfl, exD_plain.n_pos, exD_plain.m_pos, rfl, exD_plain.loss, exD_plain.cost⟩ rfl rfl rfl rfl (by norm_num [exD])

/-! ## C36 -/

/-- **C36** Permuting the samples of each data point (independently), or permuting the data points together with their
samples, leaves the robust loss unchanged. -/
theorem C36_order_irrelevant {n m d k s : ℕ} {w : WLoss} {D : DualLoss} {ell : (Fin d → ℝ) → (Fin k → ℝ) → Fin s → ℝ}
    {rho : ℝ} (h : Labelled w D ell rho) (hr : D.reduction = .mean) (hn : 0 < n) (hm : 0 < m)
    (X : Fin m → Fin d → ℝ) (Z : Fin n → Fin m → Fin d → ℝ) (Y : Fin m → Fin k → ℝ) (W : Fin n → Fin m → Fin k → ℝ)
    (σ : Fin m → Equiv.Perm (Fin n)) (τ : Equiv.Perm (Fin m)) :
    num (computeDual ext D (mat fun i => X (τ i)) (some (mat fun i => Y (τ i)))
      (ten fun j i => Z (σ i j) (τ i)) (some (ten fun j i => W (σ i j) (τ i)))) =
    num (computeDual ext D (mat X) (some (mat Y)) (ten Z) (some (ten W))) := by
  rw [num_plain ext (plain_of_labelled h hn hm (isMat_mat X) (isTen_ten Z) (isMat_mat Y) (isTen_ten W)) hr,
    num_plain ext (plain_of_labelled h hn hm (isMat_mat fun i => X (τ i)) (isTen_ten fun j i => Z (σ i j) (τ i))
      (isMat_mat fun i => Y (τ i)) (isTen_ten fun j i => W (σ i j) (τ i))) hr, robust, robust]
  congr 1
  rw [← avg_perm (fun i => softmax D.epsilon fun j => lossAt w ell (Z j i) (W j i) -
    D.lam * costAt D.cost (X i) (Z j i) (Y i) (W j i)) τ]
  congr 1; funext i
  exact softmax_perm (fun j => lossAt w ell (Z j (τ i)) (W j (τ i)) -
    D.lam * costAt D.cost (X (τ i)) (Z j (τ i)) (Y (τ i)) (W j (τ i))) (σ i)

/-! ## C37 -/

section
variable {n m : ℕ} {D : DualLoss} {xi zeta : Tensor ℝ} {xl zl : Option (Tensor ℝ)} {rho : ℝ} {L C : Fin n → Fin m → ℝ}

theorem Plain.withReduction (h : Plain D xi xl zeta zl rho L C) (r : Reduction) :
    Plain { D with reduction := r } xi xl zeta zl rho L C :=
  ⟨h.rho_eq, h.rho_pos, h.eps_pos, h.erm, h.imp, h.n_pos, h.m_pos, h.samples, h.loss, h.cost⟩

/-- **C37** Without reduction, the robust loss is one value per data point, and the mean-reduced robust loss is the mean of
these values. -/
theorem C37_mean_consistent (h : Plain D xi xl zeta zl rho L C) :
    ∃ (t u : Tensor ℝ) (v : Fin m → ℝ),
      computeDual ext { D with reduction := .none } xi xl zeta zl = .ok (.val t) ∧ IsVec t v ∧
      computeDual ext { D with reduction := .mean } xi xl zeta zl = .ok (.val u) ∧ IsScalar u (avg v) := by
  obtain ⟨a, ha, hA⟩ := plain_compute ext (Plain.withReduction h .none)
  obtain ⟨t, ht, hT⟩ := finishDual_none (D := { D with reduction := .none }) (rho := rho) h.n_pos rfl hA
  obtain ⟨u, hu, hU⟩ := C29_formula ext (Plain.withReduction h .mean) rfl
  refine ⟨t, u, _, by rw [ha, ht], hT, hu, ?_⟩
  have e := avg_add_const h.m_pos (fun i => softmax D.epsilon fun j => L j i - D.lam * C j i) (D.lam * rho ^ D.cost.power)
  simp only [softmax] at e
  simp only [robust, softmax] at hU
  rw [add_comm] at hU
  rw [← e] at hU
  simpa only [add_comm] using hU

/-- **C37, largest true part** The sum-reduced robust loss differs from the sum of the unreduced ones by exactly
`(m - 1) * (lam * rho^p - eps * log n)`; so it is the sum for a single data point, or when this factor vanishes.  Missing:
equality in general (next theorem). -/
theorem C37_sum_partial (h : Plain D xi xl zeta zl rho L C) :
    ∃ (t u : Tensor ℝ) (v : Fin m → ℝ),
      computeDual ext { D with reduction := .none } xi xl zeta zl = .ok (.val t) ∧ IsVec t v ∧
      computeDual ext { D with reduction := .sum } xi xl zeta zl = .ok (.val u) ∧
      IsScalar u (∑ i, v i - (m - 1) * (D.lam * rho ^ D.cost.power - D.epsilon * Real.log n)) := by
  obtain ⟨a, ha, hA⟩ := plain_compute ext (Plain.withReduction h .none)
  obtain ⟨t, ht, hT⟩ := finishDual_none (D := { D with reduction := .none }) (rho := rho) h.n_pos rfl hA
  obtain ⟨b, hb, hB⟩ := plain_compute ext (Plain.withReduction h .sum)
  obtain ⟨u, hu, hU⟩ := finishDual_sum (D := { D with reduction := .sum }) (rho := rho) (n := n) rfl hB
  refine ⟨t, u, _, by rw [ha, ht], hT, by rw [hb, hu], ?_⟩
  refine ⟨hU.1, hU.2.trans ?_⟩
  simp only [← log_avg h.n_pos, Finset.sum_add_distrib, Finset.sum_const, Finset.card_univ, Fintype.card_fin,
    nsmul_eq_mul, ← Finset.mul_sum, Finset.sum_sub_distrib]
  ring

end

/-- **C37 fails** for the sum reduction: two data points, one sample each. -/
theorem C37_sum_false : ∃ (D : DualLoss) (X : Fin 2 → Fin 1 → ℝ) (Z : Fin 1 → Fin 2 → Fin 1 → ℝ) (t u : Tensor ℝ)
    (v : Fin 2 → ℝ), Labelled (d := 1) (k := 1) (s := 1) exW D (fun x y c => (x c - y c) ^ 2) 1 ∧
      computeDual ext { D with reduction := .none } (mat X) (some (mat X)) (ten Z) (some (ten Z)) = .ok (.val t) ∧
      IsVec t v ∧
      computeDual ext { D with reduction := .sum } (mat X) (some (mat X)) (ten Z) (some (ten Z)) = .ok (.val u) ∧
      u.get [] ≠ ∑ i, v i := by
  have hp := plain_of_labelled (n := 1) (m := 2) exD_labelled (by norm_num) (by norm_num) (isMat_mat exX)
    (isTen_ten fun _ => exX) (isMat_mat exX) (isTen_ten fun _ => exX)
  obtain ⟨t, u, v, h1, h2, h3, h4⟩ := C37_sum_partial ext hp
  refine ⟨exD, exX, fun _ => exX, t, u, v, exD_labelled, h1, h2, h3, ?_⟩
  rw [h4.2]
  simp [exD]
  norm_num

/-! The hypotheses of C36 and C37 are met by the concrete setting. -/
example := C36_order_irrelevant ext exD_labelled rfl (n := 3) (m := 2) (by norm_num) (by norm_num) exX exZ exX exZ
example := C37_mean_consistent ext exD_plain
example := C37_sum_partial ext exD_plain

end Skwdro
