import Verif.Spec.Lifecycle
import Verif.Spec.Tensors
import Verif.Props.Samplers
import Verif.Lemmas.Estimators

/-! # Life cycle of samplers and optimizers: C91 – C93 -/

namespace Skwdro
open Spec Tensor

variable {G : Type} (ext : TorchExt G)

/-! ## C91: samplers -/

theorem lifeRun_append (a b : List LifeOp) (slot : Slot) (g : G) :
    lifeRun ext (a ++ b) slot g =
      ((lifeRun ext a slot g).1 ++ (lifeRun ext b (lifeRun ext a slot g).2.1 (lifeRun ext a slot g).2.2).1,
        (lifeRun ext b (lifeRun ext a slot g).2.1 (lifeRun ext a slot g).2.2).2) := by
  induction a generalizing slot g with
  | nil => rfl
  | cons op ops ih => simp only [List.cons_append, lifeRun, ih]

theorem use_unreadable {slot : Slot} {e : PyErr} (he : slot.read = .error e) {op : LifeOp} (h : Uses op) (g : G) :
    op.run ext slot g = (.error e, slot, g) := by
  cases op with
  | read => simp only [LifeOp.run, he]; rfl
  | zetas D n => simp only [LifeOp.run, generateZetas, he, error_bind]
  | forward D xi y r => simp only [LifeOp.run, lifeForward, he]
  | assign s => exact h.elim
  | delete => exact h.elim
  | init c hl xi y sg sd => exact h.elim

theorem uses_unreadable {slot : Slot} {e : PyErr} (he : slot.read = .error e) (ops : List LifeOp) (h : ∀ op ∈ ops, Uses op) (g : G) :
    lifeRun ext ops slot g = (ops.map (fun _ => .error e), slot, g) := by
  induction ops with
  | nil => rfl
  | cons op ops ih =>
    simp only [lifeRun, use_unreadable ext he (h op (List.mem_cons_self ..)) g,
      ih (fun o ho => h o (List.mem_cons_of_mem _ ho)), List.map_cons]

/-- **C91** (violated) A robust loss without sampler never builds one: whatever the losses and batches, in any sequence of forward
passes, drawings of samples and readings of the sampler every single call fails with a ValueError, and there is still no sampler. -/
theorem C91_lazy_false (ops : List LifeOp) (h : ∀ op ∈ ops, Uses op) (g : G) :
    lifeRun ext ops .unset g = (ops.map (fun _ => .error .valueError), .unset, g) :=
  uses_unreadable ext rfl ops h g

/-- **C91** (deletion) After its deletion the sampler is missing for every use (AttributeError), until another one is provided. -/
theorem C91_deleted (ops : List LifeOp) (h : ∀ op ∈ ops, Uses op) (slot : Slot) (hs : slot ≠ .deleted) (g : G) :
    lifeRun ext (.delete :: ops) slot g = (.ok .unit :: ops.map (fun _ => .error .attributeError), .deleted, g) := by
  have : LifeOp.run ext slot g .delete = (.ok .unit, .deleted, g) := by
    cases slot with
    | deleted => exact absurd rfl hs
    | unset => rfl
    | set s => rfl
  simp only [lifeRun, this, uses_unreadable ext (slot := .deleted) rfl ops h]

/-- **C91** (assignment of `None`) A loss whose sampler is set to `None`, like one built without data or by a class without default sampler, has
none: every use fails with a ValueError until a sampler is provided. -/
theorem C91_none (ops : List LifeOp) (h : ∀ op ∈ ops, Uses op) (slot : Slot) (x : Tensor ℝ) (y : Option (Tensor ℝ)) (sg : Option ℝ) (c : LossClass) (g : G) :
    lifeRun ext (.assign none :: ops) slot g = (.ok .unit :: ops.map (fun _ => .error .valueError), .unset, g) ∧
    lossInit ext .base none (some x) y sg g = .ok (none, g) ∧ lossInit ext c none none y sg g = .ok (none, g) ∧
    lifeRun ext ops (.ofOption none) g = (ops.map (fun _ => .error .valueError), .unset, g) := by
  have e : LifeOp.run ext slot g (.assign none) = (.ok .unit, .unset, g) := rfl
  refine ⟨?_, rfl, rfl, C91_lazy_false ext ops h g⟩
  simp only [lifeRun, e, uses_unreadable ext (slot := .unset) rfl ops h]

/-- **C91** (explicit initialisation) Labels must be given exactly when the loss has labels; otherwise the call fails and changes
nothing. -/
theorem C91_init_labels (cost : CostR) (hl : Bool) (xi : Tensor ℝ) (y : Option (Tensor ℝ)) (sigma : ℝ) (seed : Option ℤ) (slot : Slot)
    (g : G) (h : y.isSome ≠ hl) :
    (LifeOp.init cost hl xi y sigma seed).run ext slot g = (.error .assertionError, slot, g) := by
  cases hl <;> cases y <;> simp_all [LifeOp.run, initSampler]

theorem initSampler_built {cost : CostR} {hl : Bool} {xi : Tensor ℝ} {y : Option (Tensor ℝ)} {sigma : ℝ} {seed : Option ℤ} {g g' : G}
    {s : Sampler} (h : initSampler ext cost hl xi y sigma seed g = .ok (s, g')) : Built ext s := by
  unfold initSampler at h
  split at h
  · next y => exact ⟨g, g', xi, y, seed, cost, 0, some sigma, none, none, none, none, none, none, none, Or.inr (Or.inl h)⟩
  · exact ⟨g, g', xi, xi, seed, cost, 0, some sigma, none, none, none, none, none, none, none, Or.inl h⟩
  · cases h

theorem initSampler_centred {cost : CostR} {hl : Bool} {xi : Tensor ℝ} {y : Option (Tensor ℝ)} {sigma : ℝ} {seed : Option ℤ} {g g' : G}
    {s : Sampler} (h : initSampler ext cost hl xi y sigma seed g = .ok (s, g')) :
    CentredAt s xi y ∧ s.labels_s.isSome = hl ∧ s.seed = seed ∧ s.sigma = some sigma ∧ s.generating_cost = some cost := by
  unfold initSampler at h
  split at h
  · next y =>
    unfold mkLabeledCost at h
    cases hd : samplerData cost xi (some sigma) with
    | error e => simp [hd] at h
    | ok d =>
      simp only [hd, ok_bind] at h
      cases hll : samplerLabels cost (some y) (some sigma) with
      | error e => simp [hll] at h
      | ok l =>
        obtain ⟨l0, rfl, hc, _⟩ := samplerLabels_recentre (y' := y) hll
        simp only [hll, ok_bind, Except.ok.injEq, Prod.mk.injEq] at h
        obtain ⟨rfl, _⟩ := h
        refine ⟨⟨(samplerData_recentre (x' := xi) hd).1, fun l hl => ?_⟩, rfl, rfl, rfl, rfl⟩
        simp only [Option.some.injEq] at hl
        subst hl; rw [hc]
  · unfold mkNoLabelsCost at h
    cases hd : samplerData cost xi (some sigma) with
    | error e => simp [hd] at h
    | ok d =>
      simp only [hd, ok_bind, Except.ok.injEq, Prod.mk.injEq] at h
      obtain ⟨rfl, _⟩ := h
      exact ⟨⟨(samplerData_recentre (x' := xi) hd).1, fun l hl => by simp at hl⟩, rfl, rfl, rfl, rfl⟩
  · cases h

/-- one use keeps a sampler, with the same noise and seed -/
theorem use_keeps {s₀ s : Sampler} (hr : Resets ext s₀ s) {op : LifeOp} (h : Uses op) (g : G) :
    ∃ s', (op.run ext (.set s) g).2.1 = .set s' ∧ Resets ext s₀ s' := by
  cases op with
  | read => exact ⟨s, rfl, hr⟩
  | zetas D n => exact ⟨s, rfl, hr⟩
  | forward D xi y r =>
    simp only [LifeOp.run, lifeForward, Slot.read]
    cases r with
    | false =>
      simp only [Bool.false_eq_true, if_false]
      split <;> exact ⟨s, rfl, hr⟩
    | true =>
      simp only [if_true]
      cases hm : s.resetMean ext xi y g with
      | error e => exact ⟨s, rfl, hr⟩
      | ok p =>
        obtain ⟨s', g'⟩ := p
        dsimp only
        split <;> exact ⟨s', rfl, hr.reset hm⟩
  | assign s => exact h.elim
  | delete => exact h.elim
  | init c hl xi y sg sd => exact h.elim

theorem uses_keep {s₀ s : Sampler} (hr : Resets ext s₀ s) (ops : List LifeOp) (h : ∀ op ∈ ops, Uses op) (g : G) :
    ∃ s', (lifeRun ext ops (.set s) g).2.1 = .set s' ∧ Resets ext s₀ s' := by
  induction ops generalizing s g with
  | nil => exact ⟨s, rfl, hr⟩
  | cons op ops ih =>
    obtain ⟨s', h1, h2⟩ := use_keeps ext hr (h op (List.mem_cons_self ..)) g
    simp only [lifeRun, h1]
    exact ih h2 (fun o ho => h o (List.mem_cons_of_mem _ ho)) _

/-- **C91** (assignment) A sampler given by the user is the one used from then on: after any sequence of forward passes (failing or
not), drawings and readings there is a sampler, with the same noise laws and seed. -/
theorem C91_assigned {s₀ : Sampler} (h₀ : Built ext s₀) (slot : Slot) (ops : List LifeOp) (h : ∀ op ∈ ops, Uses op) (g : G) :
    ∃ s, (lifeRun ext (.assign (some s₀) :: ops) slot g).2.1 = .set s ∧ SameNoise ext s₀ s := by
  obtain ⟨s, h1, h2⟩ := uses_keep ext .start ops h g
  have k := (resets_spec (built_sane h₀) h2).2
  exact ⟨s, h1, k.noise, k.labelNoise, k.seed⟩

/-- **C91** (explicit initialisation) What `init_sampler` builds is centred on the batch, has a label part exactly if the loss has
labels, and stays in place in the same sense. -/
theorem C91_initialised {cost : CostR} {hl : Bool} {xi : Tensor ℝ} {y : Option (Tensor ℝ)} {sigma : ℝ} {seed : Option ℤ} {slot slot' : Slot}
    {g g' : G} {o : LifeOut} (hi : (LifeOp.init cost hl xi y sigma seed).run ext slot g = (.ok o, slot', g')) :
    ∃ s₀, o = .sampler s₀ ∧ slot' = .set s₀ ∧ CentredAt s₀ xi y ∧ s₀.labels_s.isSome = hl ∧ s₀.seed = seed ∧
      s₀.sigma = some sigma ∧ s₀.generating_cost = some cost ∧
      ∀ ops : List LifeOp, (∀ op ∈ ops, Uses op) → ∃ s, (lifeRun ext ops slot' g').2.1 = .set s ∧ SameNoise ext s₀ s := by
  simp only [LifeOp.run] at hi
  cases hs : initSampler ext cost hl xi y sigma seed g with
  | error e => simp [hs] at hi
  | ok p =>
    obtain ⟨s₀, g₀⟩ := p
    simp only [hs, Prod.mk.injEq, Except.ok.injEq] at hi
    obtain ⟨rfl, rfl, rfl⟩ := hi
    obtain ⟨h1, h2, h3, h4, h5⟩ := initSampler_centred ext hs
    refine ⟨s₀, rfl, rfl, h1, h2, h3, h4, h5, fun ops h => ?_⟩
    exact C91_assigned ext (initSampler_built ext hs) .unset ops h g₀

/-- **C91** (batches) After a forward pass with re-centring that returns a value, the sampler is centred on the batch just
evaluated. -/
theorem C91_recentred {s₀ s : Sampler} (h₀ : Built ext s₀) (hr : Resets ext s₀ s) (D : DualLoss) (xi : Tensor ℝ) (y : Option (Tensor ℝ))
    {g g' : G} {o : LifeOut} {slot : Slot} (h : (LifeOp.forward D xi y true).run ext (.set s) g = (.ok o, slot, g')) :
    ∃ s', slot = .set s' ∧ CentredAt s' xi y ∧ SameNoise ext s₀ s' := by
  simp only [LifeOp.run, lifeForward, Slot.read, if_true] at h
  cases hm : s.resetMean ext xi y g with
  | error e => simp [hm] at h
  | ok p =>
    obtain ⟨s', g₁⟩ := p
    obtain ⟨hs, k⟩ := resets_spec (built_sane h₀) hr
    obtain ⟨k', _⟩ := resetMean_spec hs hm
    simp only [hm] at h
    split at h
    · simp at h
    · simp only [Prod.mk.injEq] at h
      obtain ⟨_, rfl, _⟩ := h
      exact ⟨s', rfl, ⟨k'.centre, k'.labelCentre⟩, k'.noise.trans k.noise, k'.labelNoise.trans k.labelNoise, k'.seed.trans k.seed⟩

/-- **C91** (values) With a sampler in place, the forward pass gives the value, or the failure, of the robust loss with that sampler
(the one studied in C15 and C29 – C38). -/
theorem C91_value (D : DualLoss) {s : Sampler} (xi : Tensor ℝ) (y : Option (Tensor ℝ)) (r : Bool) (g : G) :
    (∀ {v D' g'}, postForward ext { D with sampler := some s } xi y r g = .ok (v, D', g') →
      ∃ s', lifeForward ext D xi y r (.set s) g = (.ok (.value v), .set s', g')) ∧
    (∀ {e}, postForward ext { D with sampler := some s } xi y r g = .error e →
      (lifeForward ext D xi y r (.set s) g).1 = .error e) := by
  have key : ∀ s₁ : Sampler, ∀ g₁ : G, (postForward ext { D with sampler := some s₁ } xi y false g₁) =
      (match D.rho with
      | .num rho =>
          if rho < 0 then .error .valueError
          else if rho = 0 then do
            let batched ← D.primal xi.unsqueeze0 (maybeUnsqueeze y)
            let l ← reduceLossBatch D.reduction batched.squeeze0
            .ok (.val (addScalar (rho * D.lam) l), { D with sampler := some s₁ }, g₁)
          else do
            let (z, zl, g) := s₁.sample ext D.nSamples g₁
            let v ← computeDual ext { D with sampler := some s₁ } xi y z zl
            .ok (v, { D with sampler := some s₁ }, g)
      | .nan => do
          let (z, zl, g) := s₁.sample ext D.nSamples g₁
          let v ← computeDual ext { D with sampler := some s₁ } xi y z zl
          .ok (v, { D with sampler := some s₁ }, g)) := by
    intro s₁ g₁
    simp only [postForward, Bool.false_eq_true, if_false, ok_bind]
    cases D.rho <;> rfl
  cases r with
  | false =>
    simp only [lifeForward, Slot.read, Bool.false_eq_true, if_false]
    constructor
    · intro v D' g' h; rw [h]; exact ⟨s, rfl⟩
    · intro e h; rw [h]
  | true =>
    simp only [lifeForward, Slot.read, if_true]
    cases hm : s.resetMean ext xi y g with
    | error e =>
      constructor
      · intro v D' g' h; simp [postForward, hm] at h
      · intro e' h
        simp only [postForward, if_true, hm, error_bind, Except.error.injEq] at h
        rw [h]
    | ok p =>
      obtain ⟨s', g₁⟩ := p
      have e : postForward ext { D with sampler := some s } xi y true g = postForward ext { D with sampler := some s' } xi y false g₁ := by
        rw [key]
        simp only [postForward, if_true, hm, ok_bind]
        cases D.rho <;> rfl
      dsimp only
      rw [e]
      constructor
      · intro v D' g' h; rw [h]; exact ⟨s', rfl⟩
      · intro e h; rw [h]

/-! ### Default samplers of the losses -/

/-- values drawn around a matrix with a scalar deviation -/
theorem rsample_sigma (hext : ∀ g sh, (ext.stdNormal g sh).1.shape = sh) {x : Tensor ℝ} {m d : ℕ} {X : Fin m → Fin d → ℝ}
    (hx : IsMat x X) (σ : ℝ) (n : ℕ) (g : G) :
    Displaced (Dist.rsample ext g n (.mvn x (.scaleTril (eyeTimes (lastSize x) σ)))).1 n X σ (ext.stdNormal g [n, m, d]).1 ∧
    (Dist.rsample ext g n (.mvn x (.scaleTril (eyeTimes (lastSize x) σ)))).2 = (ext.stdNormal g [n, m, d]).2 := by
  obtain ⟨hs, he⟩ := hx
  simp only [Dist.rsample, hs, TorchExt.tril, lastSize, List.getLastD_cons, List.getLastD_nil]
  refine ⟨⟨rfl, fun j i k => ?_⟩, trivial⟩
  simp only [List.tail_cons]
  rw [he]
  congr 1
  simp only [applyTril, List.getLastD_cons, List.getLastD_nil, List.dropLast_cons_cons, List.dropLast_singleton]
  have hl : ((ext.stdNormal g [n, m, d]).1.lastRow [j.1, i.1]).length = d := by
    simp [lastRow, hext]
  rw [trilRow_eye d σ _ hl k.2]
  congr 1
  simp [lastRow, hext]

/-- **C91** (default sampler, newsvendor) On every batch of demands it exists and draws normal noise of deviation `sigma` around
the demands. -/
theorem C91_default_newsvendor (hext : ∀ g sh, (ext.stdNormal g sh).1.shape = sh) {x : Tensor ℝ} {m d : ℕ} {X : Fin m → Fin d → ℝ}
    (hx : IsMat x X) (y : Option (Tensor ℝ)) {σ : ℝ} (hσ : 0 < σ) (seed : Option ℤ) (g : G) :
    Returns (callDefaultSampler ext .newsvendor x y σ (some seed) g) (fun r => ∃ s, r.1 = some s ∧ s.seed = seed ∧ ∀ n g₁,
      Displaced (s.sample ext n g₁).1 n X σ (ext.stdNormal g₁ [n, m, d]).1 ∧ (s.sample ext n g₁).2.1 = none) := by
  refine ⟨_, by simp only [callDefaultSampler, defaultSampler, mkNormalNoLabels, initCovar, ok_bind,
    mkMvn_accepts (by simp [hx.1] : x.shape ≠ []) (accepts_eye ext (lastSize x) (.inr hσ))]; rfl, _, rfl, rfl, fun n g₁ => ?_⟩
  rw [sample_fst, sample_labels]
  exact ⟨(rsample_sigma ext hext hx σ n g₁).1, rfl⟩

/-- **C91** (default sampler, regressions) For the quadratic and the logistic loss, on every labelled batch, it exists and draws
normal noise of deviation `sigma` around the inputs, then around the labels (also for the labels of a classification). -/
theorem C91_default_regressions (hext : ∀ g sh, (ext.stdNormal g sh).1.shape = sh) {c : LossClass} (hc : c = .quadratic ∨ c = .logistic)
    {x y : Tensor ℝ} {m d m' d' : ℕ} {X : Fin m → Fin d → ℝ} {Y : Fin m' → Fin d' → ℝ} (hx : IsMat x X) (hy : IsMat y Y) {σ : ℝ} (hσ : 0 < σ)
    (seed : Option ℤ) (g : G) :
    Returns (callDefaultSampler ext c x (some y) σ (some seed) g) (fun r => ∃ s, r.1 = some s ∧ s.seed = seed ∧ ∀ n g₁,
      Displaced (s.sample ext n g₁).1 n X σ (ext.stdNormal g₁ [n, m, d]).1 ∧
      ∃ t, (s.sample ext n g₁).2.1 = some t ∧
        Displaced t n Y σ (ext.stdNormal (ext.stdNormal g₁ [n, m, d]).2 [n, m', d']).1) := by
  have hd : ¬ (x.dim < 2 ∨ y.dim < 2) := by simp [Tensor.dim, hx.1, hy.1]
  have e : callDefaultSampler ext c x (some y) σ (some seed) g = .ok (some ⟨.normalNormal, seed, .mvn x (.scaleTril (eyeTimes (lastSize x) σ)),
      some (.mvn y (.scaleTril (eyeTimes (lastSize y) σ))), none, none, none⟩, seedGlobal ext seed g) := by
    rcases hc with rfl | rfl <;>
      simp only [callDefaultSampler, defaultSampler, mkNormalNormal, if_neg hd, initCovar, ok_bind,
        mkMvn_accepts (by simp [hx.1] : x.shape ≠ []) (accepts_eye ext (lastSize x) (.inr hσ)),
        mkMvn_accepts (by simp [hy.1] : y.shape ≠ []) (accepts_eye ext (lastSize y) (.inr hσ))]
  refine ⟨_, e, _, rfl, rfl, fun n g₁ => ?_⟩
  rw [sample_fst, sample_labels]
  obtain ⟨h1, h2⟩ := rsample_sigma ext hext hx σ n g₁
  refine ⟨h1, _, rfl, ?_⟩
  rw [h2]
  exact (rsample_sigma ext hext hy σ n _).1

/-- **C91** (default sampler, deviation) A deviation that is not positive is refused by each of the three losses, on every batch. -/
theorem C91_default_refused {x y : Tensor ℝ} {m d m' d' : ℕ} {X : Fin m → Fin (d + 1) → ℝ} {Y : Fin m' → Fin d' → ℝ} (hx : IsMat x X)
    (hy : IsMat y Y) {σ : ℝ} (hσ : σ ≤ 0) (seed : Option ℤ) (g : G) {c : LossClass} (hc : c = .newsvendor ∨ c = .quadratic ∨ c = .logistic) :
    callDefaultSampler ext c x (some y) σ (some seed) g = .error .valueError := by
  have hl : lastSize x = d + 1 := by simp [lastSize, hx.1]
  have hm := mkMvn_refuses (ext := ext) (by simp [hx.1] : x.shape ≠ []) (not_accepts_eye ext (d := lastSize x) (σ := σ) (by
    rw [hl]; push Not; exact ⟨by omega, hσ⟩))
  have hd : ¬ (x.dim < 2 ∨ y.dim < 2) := by simp [Tensor.dim, hx.1, hy.1]
  rcases hc with rfl | rfl | rfl <;>
    simp only [callDefaultSampler, defaultSampler, mkNormalNoLabels, mkNormalNormal, if_neg hd, initCovar, ok_bind, hm, error_bind]

/-- **C91** (default sampler, wrapped losses) There is none, on any data; nor for the two regressions without labels. -/
theorem C91_default_none (x : Tensor ℝ) (y : Option (Tensor ℝ)) (σ : ℝ) (seed : Option ℤ) (g : G) :
    callDefaultSampler ext .wrapped x y σ (some seed) g = .error .valueError ∧
    ∀ c, c = .quadratic ∨ c = .logistic → ∃ e, callDefaultSampler ext c x none σ (some seed) g = .error e := by
  refine ⟨rfl, fun c hc => ?_⟩
  by_cases hd : x.dim < 2
  · exact ⟨.assertionError, by rcases hc with rfl | rfl <;> simp [callDefaultSampler, defaultSampler, hd]⟩
  · exact ⟨.attributeError, by rcases hc with rfl | rfl <;> simp [callDefaultSampler, defaultSampler, hd]⟩

/-- **C91** (violated) The documented call `loss.default_sampler(xi, xi_labels, sigma)` (doc/pytorch.rst:291) is refused by every loss
on all data: the seed is mandatory. -/
theorem C91_documented_call_false (c : LossClass) (x : Tensor ℝ) (y : Option (Tensor ℝ)) (σ : ℝ) (g : G) :
    callDefaultSampler ext c x y σ none g = .error .typeError := rfl

/-- **C91** (constructor) A sampler given to the constructor of a loss is kept as it is; without one, and with data, the default one
is taken with deviation `sigma`, 0.1 if it is not given, and no seed; without either there is none, so that every use fails. -/
theorem C91_constructor (c : LossClass) (s : Sampler) (x : Tensor ℝ) (xo y : Option (Tensor ℝ)) (σ : ℝ) (sg : Option ℝ) (g : G) :
    lossInit ext c (some s) xo y sg g = .ok (some s, g) ∧
    lossInit ext c none (some x) y (some σ) g = callDefaultSampler ext c x y σ (some none) g ∧
    lossInit ext c none (some x) y none g = callDefaultSampler ext c x y (1 / 10) (some none) g ∧
    lossInit ext c none none y sg g = .ok (none, g) := ⟨rfl, rfl, rfl, rfl⟩

/-! ## C92: number of samples -/

theorem lifeSample_shape (d : Dist) (g : G) (n : ℕ) : (d.rsample ext g n).1.shape = n :: (centreOf d).shape := by
  cases d <;> rfl

/-- **C92** Drawing adversarial samples from a loss whose sampler is in place always succeeds: with a positive request `n` it
returns `n` of them for each data point of the batch the sampler is centred on, otherwise (no request, zero or negative) the
number set at construction; labels are returned exactly if the sampler has a law for them, in the same number. -/
theorem C92_count (D : DualLoss) (s : Sampler) (n : Option ℤ) (g : G) :
    Returns (generateZetas ext D (.set s) n g) (fun r => ∃ k : ℕ,
      ((∃ r : ℤ, n = some r ∧ 0 < r ∧ (k : ℤ) = r) ∨ ((∀ r, n = some r → r ≤ 0) ∧ k = D.nSamples)) ∧
      r.1.shape = k :: (centreOf s.data_s).shape ∧
      (s.labels_s = none → r.2.1 = none) ∧
      ∀ l, s.labels_s = some l → ∃ t, r.2.1 = some t ∧ t.shape = k :: (centreOf l).shape) := by
  refine ⟨_, rfl, zetaCount D.nSamples n, ?_, ?_, ?_, ?_⟩
  · cases n with
    | none => exact Or.inr ⟨by simp, rfl⟩
    | some r =>
      by_cases h : r ≤ 0
      · exact Or.inr ⟨fun r' h' => by simp only [Option.some.injEq] at h'; rw [← h']; exact h, by simp [zetaCount, h]⟩
      · exact Or.inl ⟨r, rfl, by omega, by simp only [zetaCount, if_neg h]; omega⟩
  · rw [sample_fst, lifeSample_shape]
  · intro h; rw [sample_labels, h]; rfl
  · intro l h
    rw [sample_labels, h]
    exact ⟨_, rfl, lifeSample_shape ext _ _ _⟩

/-- **C92** The samples are drawn from the sampler as it stands: asking for `n` samples is asking the sampler for `n` samples. -/
theorem C92_from_sampler (D : DualLoss) (s : Sampler) (r : ℤ) (hr : 0 < r) (g : G) :
    generateZetas ext D (.set s) (some r) g = .ok (s.sample ext r.toNat g) ∧
    generateZetas ext D (.set s) none g = .ok (s.sample ext D.nSamples g) := by
  constructor
  · simp only [generateZetas, Slot.read, ok_bind, zetaCount, if_neg (not_le.mpr hr)]
  · rfl

/-! ## C93: optimizers -/

/-- **C93** (post-sampled, no adaptation) AdamW with the given learning rate, 0.05 by default, on the model and, if the radius is
positive, the multiplier. -/
theorem C93_adamw (fl : ℝ → ℝ) (lr : Option ℝ) (st : Steps) (rho : ℝ) (hr : 0 < rho) :
    ∃ o, robustifySetup fl true none lr st (.num rho) = .ok o ∧ o.algo = .adamw ∧ (∀ v, lr = some v → o.lr = v) ∧
      (lr = none → o.lr = 0.05) ∧ o.params = [.model, .lam] := by
  refine ⟨_, rfl, rfl, ?_, ?_, ?_⟩
  · intro v h; subst h; rfl
  · intro h; subst h; norm_num
  · simp [trainedParams, initFlags, not_le.mpr hr]

/-- **C93** (pre-sampled) LBFGS with the given learning rate, 1 by default, on the same parameters. -/
theorem C93_lbfgs (fl : ℝ → ℝ) (adapt : Option PyStr) (lr : Option ℝ) (st : Steps) (rho : ℝ) (hr : 0 < rho) :
    ∃ o, robustifySetup fl false adapt lr st (.num rho) = .ok o ∧ o.algo = .lbfgs ∧ (∀ v, lr = some v → o.lr = v) ∧
      (lr = none → o.lr = 1) ∧ o.params = [.model, .lam] := by
  refine ⟨_, rfl, rfl, ?_, ?_, ?_⟩
  · intro v h; subst h; rfl
  · intro h; subst h; rfl
  · simp [trainedParams, initFlags, not_le.mpr hr]

theorem postOptimizer_named {a : PyStr} (ha : a = "prodigy".toList ∨ a = "mechanic".toList) : postOptimizer (some a) = .ok (.composite a) := by
  have h0 : a ≠ [] := by rcases ha with rfl | rfl <;> decide
  simp only [postOptimizer, if_neg h0, if_pos (Or.comm.mp ha)]

/-- **C93** (post-sampled, adaptation) "prodigy", the default, and "mechanic" give the composite optimizer on the model and the
multiplier; the cosine schedules of "prodigy" are as long as all iterations for the model, as the robust ones for the multiplier
(what they do to the learning rates is C110).  Any other name is refused. -/
theorem C93_adaptive (fl : ℝ → ℝ) (lr : Option ℝ) (p n : ℤ) (rho : ℝ) (hr : 0 < rho) :
    (∃ o, robustifySetup fl true (some "prodigy".toList) lr (.pair p n) (.num rho) = .ok o ∧ o.algo = .composite "prodigy".toList ∧
      o.params = [.model, .lam] ∧ o.schedules = some (p + n, n)) ∧
    (∃ o, robustifySetup fl true (some "mechanic".toList) lr (.pair p n) (.num rho) = .ok o ∧ o.algo = .composite "mechanic".toList ∧
      o.params = [.model, .lam] ∧ o.schedules = none) ∧
    ∀ a, a ≠ [] → a ≠ "prodigy".toList → a ≠ "mechanic".toList →
      robustifySetup fl true (some a) lr (.pair p n) (.num rho) = .error .assertionError := by
  refine ⟨?_, ?_, fun a h0 h1 h2 => ?_⟩
  · refine ⟨_, by simp only [robustifySetup, if_true, postSetup, postOptimizer_named (Or.inl rfl), ok_bind, interpretSteps]; rfl, rfl, ?_, rfl⟩
    simp [trainedParams, initFlags, not_le.mpr hr]
  · have h : "mechanic".toList ≠ "prodigy".toList := by decide
    refine ⟨_, by simp only [robustifySetup, if_true, postSetup, postOptimizer_named (Or.inr rfl), ok_bind, if_neg h]; rfl, rfl, ?_, rfl⟩
    simp [trainedParams, initFlags, not_le.mpr hr]
  · simp only [robustifySetup, if_true, postSetup, postOptimizer, if_neg h0, if_neg (not_or.mpr ⟨h2, h1⟩), error_bind]

/-- **C93** (violated) `learning_rate` has no effect with adaptation, which is the default of post-sampled losses. -/
theorem C93_learning_rate_false (fl : ℝ → ℝ) (a : PyStr) (ha : a = "prodigy".toList ∨ a = "mechanic".toList) (lr lr' : Option ℝ) (st : Steps)
    (rho : Radius) :
    robustifySetup fl true (some a) lr st rho = robustifySetup fl true (some a) lr' st rho := by
  simp only [robustifySetup, if_true, postSetup, postOptimizer_named ha, ok_bind]

/-- **C93** (violated) `adapt` has no effect on pre-sampled losses, for any name, existing or not. -/
theorem C93_adapt_false (fl : ℝ → ℝ) (a a' : Option PyStr) (lr : Option ℝ) (st : Steps) (rho : Radius) :
    robustifySetup fl false a lr st rho = robustifySetup fl false a' lr st rho := rfl

/-- **C93** (violated) The documented default learning rate 0.05 of pre-sampled losses is not the actual one. -/
theorem C93_default_rate_false (fl : ℝ → ℝ) (a : Option PyStr) (st : Steps) (rho : Radius) :
    ∃ o, robustifySetup fl false a none st rho = .ok o ∧ o.lr ≠ 0.05 := ⟨_, rfl, by norm_num⟩

/-- **C93** (what is trained) The optimizer of a loss built by `robustify` never updates the radius nor the regularisation, and
updates the multiplier only for a radius that is not `<= 0`. -/
theorem C93_trained (fl : ℝ → ℝ) (post : Bool) (a : Option PyStr) (lr : Option ℝ) (st : Steps) (rho : Radius) {o : OptSetup}
    (h : robustifySetup fl post a lr st rho = .ok o) :
    .model ∈ o.params ∧ .rho ∉ o.params ∧ .epsilon ∉ o.params ∧ (.lam ∈ o.params ↔ ∀ r, rho = .num r → 0 < r) := by
  have key : o.params = trainedParams rho false := by
    cases post with
    | false =>
      simp only [robustifySetup, Bool.false_eq_true, if_false, preSetup, preOptimizer, ok_bind, Except.ok.injEq] at h
      rw [← h]
    | true =>
      simp only [robustifySetup, if_true, postSetup] at h
      cases hp : postOptimizer a with
      | error e => simp [hp] at h
      | ok c =>
        simp only [hp, ok_bind] at h
        cases c with
        | composite name =>
          dsimp only at h
          have ht : (trainedParams rho false).filter (fun t => decide (t = .model ∨ t = .lam)) = trainedParams rho false := by
            cases rho with
            | nan => simp [trainedParams, initFlags]
            | num r => by_cases hr : r ≤ 0 <;> simp [trainedParams, initFlags, hr]
          split at h
          · obtain ⟨q, _, h⟩ := bind_ok h
            simp only [Except.ok.injEq] at h
            rw [← h]; exact ht
          · simp only [Except.ok.injEq] at h
            rw [← h]; exact ht
        | adamw => simp only [Except.ok.injEq] at h; rw [← h]
        | lbfgs => simp only [Except.ok.injEq] at h; rw [← h]
  rw [key]
  cases rho with
  | nan => simp [trainedParams, initFlags]
  | num r =>
    by_cases hr : r ≤ 0
    · simp [trainedParams, initFlags, hr]
    · simp [trainedParams, initFlags, hr, not_le.mp hr]

/-- **C93** (user's optimizer) The optimizer read back is the one assigned; reading fails exactly when there is none. -/
theorem C93_assigned {O : Type} (o : O) : readOptimizer (some o) = .ok o ∧ readOptimizer (none : Option O) = .error .attributeError :=
  ⟨rfl, rfl⟩

/-! ### The hypotheses above are met -/

/-- a sampler exists for the logistic loss on one labelled sample, and stays through a forward pass and a drawing -/
example (D : DualLoss) (g : G) :
    ∃ s₀, Built ext s₀ ∧ ∃ s, (lifeRun ext [.assign (some s₀), .forward D (mat fun (_ : Fin 1) (_ : Fin 2) => 1)
      (some (mat fun (_ : Fin 1) (_ : Fin 1) => 1)) true, .zetas D none] .unset g).2.1 = .set s ∧ SameNoise ext s₀ s := by
  have hb : Built ext ⟨.normalNormal, none, .mvn (mat fun (_ : Fin 1) (_ : Fin 2) => 1) (.scaleTril (eyeTimes 2 1)),
      some (.mvn (mat fun (_ : Fin 1) (_ : Fin 1) => 1) (.scaleTril (eyeTimes 1 1))), none, none, none⟩ :=
    ⟨g, g, mat fun (_ : Fin 1) (_ : Fin 2) => 1, mat fun (_ : Fin 1) (_ : Fin 1) => 1, none, ⟨.normCost, .fin 2, 2, .fin 0⟩, 0, some 1, some 1, none, none, none, none, none, none,
      Or.inr (Or.inr (Or.inr (Or.inl (by
        unfold mkNormalNormal
        rw [if_neg (by simp [Tensor.dim, mat])]
        simp only [initCovar, ok_bind]
        rw [mkMvn_accepts (by simp [mat]) (accepts_eye ext _ (.inr one_pos)), mkMvn_accepts (by simp [mat]) (accepts_eye ext _ (.inr one_pos))]
        rfl))))⟩
  refine ⟨_, hb, C91_assigned ext hb .unset [_, _] ?_ g⟩
  simp [Uses]

end Skwdro
