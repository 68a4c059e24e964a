import Verif.Spec.Samplers
import Verif.Lemmas.Tensor

/-! Helper lemmas on samplers. -/

namespace Skwdro
open Spec

variable {G : Type} {ext : TorchExt G}

/-- same distribution with another centre -/
def Dist.recentre (x : Tensor ℝ) : Dist → Dist
  | .laplace _ s => .laplace x s
  | .normal _ s => .normal x s
  | .mvn _ c => .mvn x c
  | .flip p _ => .flip p x
  | .dirac _ n => .dirac x n

theorem validScale_recentre {s : XNum ℝ} {d d' : Dist} (x : Tensor ℝ) (h : validScale s d = .ok d') :
    d' = d ∧ validScale s (d.recentre x) = .ok (d.recentre x) := by
  unfold validScale at *
  cases s with
  | nan => simp at h
  | ninf => simp at h
  | pinf => simp at h; exact ⟨h.symm, rfl⟩
  | fin e =>
    by_cases he : 0 < e
    · simp [he] at h; exact ⟨h.symm, by simp [he]⟩
    · simp [he] at h

theorem mkNormal_recentre {s : XNum ℝ} {x x' : Tensor ℝ} {d : Dist} (h : mkNormal x s = .ok d) :
    centreOf d = x ∧ mkNormal x' s = .ok (d.recentre x') := by
  obtain ⟨h1, h2⟩ := validScale_recentre x' h
  subst h1; exact ⟨rfl, h2⟩

theorem mkLaplace_recentre {s : XNum ℝ} {x x' : Tensor ℝ} {d : Dist} (h : mkLaplace x s = .ok d) :
    centreOf d = x ∧ mkLaplace x' s = .ok (d.recentre x') := by
  obtain ⟨h1, h2⟩ := validScale_recentre x' h
  subst h1; exact ⟨rfl, h2⟩

theorem samplerData_recentre {c : CostR} {x x' : Tensor ℝ} {e : Option ℝ} {d : Dist}
    (h : samplerData c x e = .ok d) : centreOf d = x ∧ samplerData c x' e = .ok (d.recentre x') := by
  unfold samplerData at *
  simp only at *
  split at h
  · next h1 =>
    rw [if_pos h1]
    split at h
    · split at h
      · next h2 => rw [if_pos h2]; exact mkLaplace_recentre h
      · next h2 =>
        rw [if_neg h2]
        split at h
        · next h3 => rw [if_pos h3]; exact mkNormal_recentre h
        · simp at h
    · exact mkNormal_recentre h
    · simp at h
  · next h1 =>
    rw [if_neg h1]
    split at h
    · next h2 =>
      rw [if_pos h2]
      split at h
      · split at h
        · next h3 => rw [if_pos h3]; exact mkNormal_recentre h
        · simp at h
      · simp at h
    · simp at h

theorem samplerLabels_recentre {c : CostR} {y y' : Tensor ℝ} {e : Option ℝ} {d : Option Dist}
    (h : samplerLabels c (some y) e = .ok d) :
    ∃ d0, d = some d0 ∧ centreOf d0 = y ∧ samplerLabels c (some y') e = .ok (some (d0.recentre y')) := by
  unfold samplerLabels at *
  split at h
  · simp only [samplerLabelsNC, Option.map_some, Except.ok.injEq] at h
    subst h
    exact ⟨_, rfl, rfl, rfl⟩
  · simp only at h
    have key : ∃ d0, samplerLabelsNLC c y e = .ok d0 ∧ d = some d0 := by
      cases hh : samplerLabelsNLC c y e with
      | error e => rw [hh] at h; simp [Except.map] at h
      | ok d0 => rw [hh] at h; simp only [Except.map, Except.ok.injEq] at h; exact ⟨d0, rfl, h.symm⟩
    obtain ⟨d0, h0, rfl⟩ := key
    have k2 : centreOf d0 = y ∧ samplerLabelsNLC c y' e = .ok (d0.recentre y') := by
      unfold samplerLabelsNLC at *
      simp only at *
      split at h0
      · simp only [Except.ok.injEq] at h0; subst h0; exact ⟨rfl, rfl⟩
      · split at h0
        · next h1 =>
          rw [if_pos h1]
          split at h0
          · split at h0
            · next h2 => rw [if_pos h2]; exact mkLaplace_recentre h0
            · next h2 =>
              rw [if_neg h2]
              split at h0
              · next h3 => rw [if_pos h3]; exact mkNormal_recentre h0
              · simp at h0
          · exact mkNormal_recentre h0
          · simp at h0
        · next h1 =>
          rw [if_neg h1]
          split at h0
          · next h2 =>
            rw [if_pos h2]
            split at h0
            · split at h0
              · next h3 => rw [if_pos h3]; exact mkNormal_recentre h0
              · simp at h0
            · simp at h0
          · simp at h0
      · simp at h0
    exact ⟨d0, rfl, k2.1, by simp only; rw [k2.2]; rfl⟩

theorem noiseOf_recentre (d : Dist) (x : Tensor ℝ) : noiseOf ext (d.recentre x) = noiseOf ext d := by
  cases d <;> rfl

theorem centreOf_recentre (d : Dist) (x : Tensor ℝ) : centreOf (d.recentre x) = x := by
  cases d <;> rfl

theorem mkMvn_ok {loc : Tensor ℝ} {c : Covar} {d : Dist} (h : mkMvn ext loc c = .ok d) :
    d = .mvn loc c ∧ loc.shape ≠ [] ∧ ext.Accepts c := by
  unfold mkMvn at h
  split at h
  · simp at h
  · split at h
    · next h1 h2 => simp only [Except.ok.injEq] at h; exact ⟨h.symm, h1, h2⟩
    · simp at h

theorem mkMvn_accepts {loc : Tensor ℝ} {c : Covar} (h1 : loc.shape ≠ []) (h2 : ext.Accepts c) :
    mkMvn ext loc c = .ok (.mvn loc c) := by
  simp [mkMvn, h1, h2]

theorem mkMvn_refuses {loc : Tensor ℝ} {c : Covar} (h1 : loc.shape ≠ []) (h2 : ¬ ext.Accepts c) :
    mkMvn ext loc c = .error .valueError := by
  simp [mkMvn, h1, h2]

/-- the parameters a sampler keeps for resetting -/
structure Sane (s : Sampler) : Prop where
  noLabelsCost : s.kind = .noLabelsCost → ∃ c x, s.generating_cost = some c ∧ samplerData c x s.sigma = .ok s.data_s ∧
    s.labels_s = none
  labeledCost : s.kind = .labeledCost → ∃ c x y, s.generating_cost = some c ∧ samplerData c x s.sigma = .ok s.data_s ∧
    samplerLabels c (some y) s.sigma = .ok s.labels_s
  normalNoLabels : s.kind = .normalNoLabels → ∃ x c, s.data_s = .mvn x c ∧ s.labels_s = none ∧ s.generating_cost = none ∧
    s.sigma = none ∧ s.p = none
  normalNormal : s.kind = .normalNormal → ∃ x c y c', s.data_s = .mvn x c ∧ s.labels_s = some (.mvn y c') ∧
    s.generating_cost = none ∧ s.sigma = none ∧ s.p = none
  normalId : s.kind = .normalId → ∃ x c y, s.data_s = .mvn x c ∧ s.labels_s = some (.dirac y 1) ∧
    s.generating_cost = none ∧ s.sigma = none ∧ s.p = none
  normalBernoulli : s.kind = .normalBernoulli → ∃ x c y p, s.data_s = .mvn x c ∧ s.labels_s = some (.flip p y) ∧
    s.generating_cost = none ∧ s.sigma = none ∧ s.p = some p ∧ 0 ≤ p ∧ p ≤ 1
  noP : (s.kind = .noLabelsCost ∨ s.kind = .labeledCost) → s.p = none

theorem built_sane {s : Sampler} (h : Built ext s) : Sane s := by
  obtain ⟨g, g', xi, y, seed, cost, p, sigma, sigma', tril, prec, cov, tril', prec', cov', h⟩ := h
  rcases h with h | h | h | h | h | h
  · unfold mkNoLabelsCost at h
    cases hd : samplerData cost xi sigma with
    | error e => simp [hd] at h
    | ok d =>
      simp only [hd, ok_bind, Except.ok.injEq, Prod.mk.injEq] at h
      obtain ⟨rfl, _⟩ := h
      constructor <;> simp
      exact ⟨xi, hd⟩
  · unfold mkLabeledCost at h
    cases hd : samplerData cost xi sigma with
    | error e => simp [hd] at h
    | ok d =>
      cases hl : samplerLabels cost (some y) sigma with
      | error e => simp [hd, hl] at h
      | ok l =>
        cases l with
        | none => simp [hd, hl] at h
        | some l =>
          simp only [hd, hl, ok_bind, Except.ok.injEq, Prod.mk.injEq] at h
          obtain ⟨rfl, _⟩ := h
          constructor <;> simp
          exact ⟨⟨xi, hd⟩, ⟨y, hl⟩⟩
  · unfold mkNormalNoLabels at h
    cases hc : initCovar (lastSize xi) sigma tril prec cov with
    | error e => simp [hc] at h
    | ok c =>
      simp only [hc, ok_bind] at h
      obtain ⟨d, hm, h⟩ := bind_ok h
      obtain ⟨rfl, _⟩ := mkMvn_ok hm
      simp only [Except.ok.injEq, Prod.mk.injEq] at h
      obtain ⟨rfl, _⟩ := h
      constructor <;> simp
  · unfold mkNormalNormal at h
    split at h
    · simp at h
    · cases hc : initCovar (lastSize xi) sigma tril prec cov with
      | error e => simp [hc] at h
      | ok c =>
        cases hc' : initCovar (lastSize y) sigma' tril' prec' cov' with
        | error e => simp [hc, hc'] at h
        | ok c' =>
          simp only [hc, hc', ok_bind] at h
          obtain ⟨d, hm, h⟩ := bind_ok h
          obtain ⟨rfl, _⟩ := mkMvn_ok hm
          obtain ⟨d', hm', h⟩ := bind_ok h
          obtain ⟨rfl, _⟩ := mkMvn_ok hm'
          simp only [Except.ok.injEq, Prod.mk.injEq] at h
          obtain ⟨rfl, _⟩ := h
          constructor <;> simp
  · unfold mkNormalId at h
    cases hc : initCovar (lastSize xi) sigma tril prec cov with
    | error e => simp [hc] at h
    | ok c =>
      simp only [hc, ok_bind] at h
      obtain ⟨d, hm, h⟩ := bind_ok h
      obtain ⟨rfl, _⟩ := mkMvn_ok hm
      simp only [Except.ok.injEq, Prod.mk.injEq] at h
      obtain ⟨rfl, _⟩ := h
      constructor <;> simp
  · unfold mkNormalBernoulli at h
    split at h
    · next hp =>
      cases hc : initCovar (lastSize xi) sigma tril prec cov with
      | error e => simp [hc] at h
      | ok c =>
        simp only [hc, ok_bind] at h
        obtain ⟨d, hm, h⟩ := bind_ok h
        obtain ⟨rfl, _⟩ := mkMvn_ok hm
        simp only [Except.ok.injEq, Prod.mk.injEq] at h
        obtain ⟨rfl, _⟩ := h
        constructor <;> simp
        exact hp
    · simp at h

/-- what a reset does, in full -/
structure ResetTo (ext : TorchExt G) (s s' : Sampler) (xi : Tensor ℝ) (y : Option (Tensor ℝ)) : Prop where
  kind : s'.kind = s.kind
  seed : s'.seed = s.seed
  cost : s'.generating_cost = s.generating_cost
  sigma : s'.sigma = s.sigma
  p : s'.p = s.p
  noise : noiseOf ext s'.data_s = noiseOf ext s.data_s
  centre : centreOf s'.data_s = xi
  labels : s'.labels_s.isSome = s.labels_s.isSome
  labelNoise : s'.labels_s.map (noiseOf ext) = s.labels_s.map (noiseOf ext)
  labelCentre : ∀ l, s'.labels_s = some l → y = some (centreOf l)
  sane : Sane s'

theorem resetMean_spec {s : Sampler} (hs : Sane s) {xi : Tensor ℝ} {y : Option (Tensor ℝ)} {g g' : G} {s' : Sampler}
    (h : s.resetMean ext xi y g = .ok (s', g')) :
    ResetTo ext s s' xi y ∧ g' = seedGlobal ext s.seed g := by
  unfold Sampler.resetMean at h
  cases hk : s.kind with
  | noLabelsCost =>
    obtain ⟨c, x, hc, hd, hl⟩ := hs.noLabelsCost hk
    have hp := hs.noP (Or.inl hk)
    obtain ⟨_, hd'⟩ := samplerData_recentre (x' := xi) hd
    simp only [hk, hc, mkNoLabelsCost, hd', ok_bind, Except.ok.injEq, Prod.mk.injEq] at h
    obtain ⟨rfl, rfl⟩ := h
    refine ⟨⟨by simp [hk], rfl, by simp [hc], rfl, by simp [hp], noiseOf_recentre _ _, centreOf_recentre _ _,
      by simp [hl], by simp [hl], by simp, ?_⟩, rfl⟩
    constructor <;> simp
    exact ⟨xi, hd'⟩
  | labeledCost =>
    obtain ⟨c, x, y0, hc, hd, hl⟩ := hs.labeledCost hk
    have hp := hs.noP (Or.inr hk)
    cases y with
    | none => simp [hk] at h
    | some y =>
      obtain ⟨_, hd'⟩ := samplerData_recentre (x' := xi) hd
      obtain ⟨l0, hl0, _, hl'⟩ := samplerLabels_recentre (y' := y) hl
      simp only [hk, hc, mkLabeledCost, hd', hl', ok_bind, Except.ok.injEq, Prod.mk.injEq] at h
      obtain ⟨rfl, rfl⟩ := h
      refine ⟨⟨by simp [hk], rfl, by simp [hc], rfl, by simp [hp], noiseOf_recentre _ _, centreOf_recentre _ _,
        by simp [hl0], by simp [hl0, noiseOf_recentre], by simp [centreOf_recentre], ?_⟩, rfl⟩
      constructor <;> simp
      exact ⟨⟨xi, hd'⟩, ⟨y, hl'⟩⟩
  | normalNoLabels =>
    obtain ⟨x, c, hd, hl, h1, h2, h3⟩ := hs.normalNoLabels hk
    simp only [hk, hd, Dist.trilAttr, mkNormalNoLabels, initCovar, ok_bind] at h
    obtain ⟨d, hm, h⟩ := bind_ok h
    obtain ⟨rfl, _⟩ := mkMvn_ok hm
    simp only [Except.ok.injEq, Prod.mk.injEq] at h
    obtain ⟨rfl, rfl⟩ := h
    refine ⟨⟨by simp [hk], rfl, by simp [h1], by simp [h2], by simp [h3], by simp [hd, noiseOf, TorchExt.tril], rfl,
      by simp [hl], by simp [hl], by simp, ?_⟩, rfl⟩
    constructor <;> simp
  | normalNormal =>
    obtain ⟨x, c, y0, c', hd, hl, h1, h2, h3⟩ := hs.normalNormal hk
    cases y with
    | none => simp [hk] at h
    | some y =>
      simp only [hk, hd, hl, Dist.trilAttr, mkNormalNormal, initCovar, ok_bind] at h
      split at h
      · simp at h
      · obtain ⟨d, hm, h⟩ := bind_ok h
        obtain ⟨rfl, _⟩ := mkMvn_ok hm
        obtain ⟨d', hm', h⟩ := bind_ok h
        obtain ⟨rfl, _⟩ := mkMvn_ok hm'
        simp only [Except.ok.injEq, Prod.mk.injEq] at h
        obtain ⟨rfl, rfl⟩ := h
        refine ⟨⟨by simp [hk], rfl, by simp [h1], by simp [h2], by simp [h3], by simp [hd, noiseOf, TorchExt.tril], rfl,
          by simp [hl], by simp [hl, noiseOf, TorchExt.tril], by simp [centreOf], ?_⟩, rfl⟩
        constructor <;> simp
  | normalId =>
    obtain ⟨x, c, y0, hd, hl, h1, h2, h3⟩ := hs.normalId hk
    cases y with
    | none => simp [hk] at h
    | some y =>
      simp only [hk, hd, Dist.trilAttr, mkNormalId, initCovar, ok_bind] at h
      obtain ⟨d, hm, h⟩ := bind_ok h
      obtain ⟨rfl, _⟩ := mkMvn_ok hm
      simp only [Except.ok.injEq, Prod.mk.injEq] at h
      obtain ⟨rfl, rfl⟩ := h
      refine ⟨⟨by simp [hk], rfl, by simp [h1], by simp [h2], by simp [h3], by simp [hd, noiseOf, TorchExt.tril], rfl,
        by simp [hl], by simp [hl, noiseOf], by simp [centreOf], ?_⟩, rfl⟩
      constructor <;> simp
  | normalBernoulli =>
    obtain ⟨x, c, y0, p, hd, hl, h1, h2, h3, hp⟩ := hs.normalBernoulli hk
    cases y with
    | none => simp [hk] at h
    | some y =>
      simp only [hk, hd, h3, Dist.trilAttr, mkNormalBernoulli, initCovar, ok_bind, hp, and_self, if_true] at h
      obtain ⟨d, hm, h⟩ := bind_ok h
      obtain ⟨rfl, _⟩ := mkMvn_ok hm
      simp only [Except.ok.injEq, Prod.mk.injEq] at h
      obtain ⟨rfl, rfl⟩ := h
      refine ⟨⟨by simp [hk], rfl, by simp [h1], by simp [h2], by simp [h3], by simp [hd, noiseOf, TorchExt.tril], rfl,
        by simp [hl], by simp [hl, noiseOf], by simp [centreOf], ?_⟩, rfl⟩
      constructor <;> simp [hp]

/-- two samplers with the same class, seed, stored parameters and noise reset in the same way -/
structure SameLaw (ext : TorchExt G) (s t : Sampler) : Prop where
  kind : t.kind = s.kind
  seed : t.seed = s.seed
  cost : t.generating_cost = s.generating_cost
  sigma : t.sigma = s.sigma
  p : t.p = s.p
  noise : noiseOf ext t.data_s = noiseOf ext s.data_s
  labels : t.labels_s.isSome = s.labels_s.isSome
  labelNoise : t.labels_s.map (noiseOf ext) = s.labels_s.map (noiseOf ext)

theorem SameLaw.rfl {s : Sampler} : SameLaw ext s s := ⟨Eq.refl _, Eq.refl _, Eq.refl _, Eq.refl _, Eq.refl _, Eq.refl _, Eq.refl _, Eq.refl _⟩

theorem SameLaw.trans {s t u : Sampler} (h : SameLaw ext s t) (k : SameLaw ext t u) : SameLaw ext s u :=
  ⟨k.kind.trans h.kind, k.seed.trans h.seed, k.cost.trans h.cost, k.sigma.trans h.sigma, k.p.trans h.p,
    k.noise.trans h.noise, k.labels.trans h.labels, k.labelNoise.trans h.labelNoise⟩

theorem ResetTo.same {s s' : Sampler} {xi : Tensor ℝ} {y : Option (Tensor ℝ)} (h : ResetTo ext s s' xi y) :
    SameLaw ext s s' := ⟨h.kind, h.seed, h.cost, h.sigma, h.p, h.noise, h.labels, h.labelNoise⟩

theorem resets_spec {s₀ s : Sampler} (h0 : Sane s₀) (h : Resets ext s₀ s) : Sane s ∧ SameLaw ext s₀ s := by
  induction h with
  | start => exact ⟨h0, SameLaw.rfl⟩
  | reset h r ih =>
    obtain ⟨k, _⟩ := resetMean_spec ih.1 r
    exact ⟨k.sane, ih.2.trans k.same⟩

theorem resetMean_congr {s t : Sampler} (hs : Sane s) (ht : Sane t) (h : SameLaw ext s t) (xi : Tensor ℝ)
    (y : Option (Tensor ℝ)) (g : G) : t.resetMean ext xi y g = s.resetMean ext xi y g := by
  have hn := h.noise
  have hln := h.labelNoise
  cases hk : s.kind with
  | noLabelsCost =>
    have hk' := h.kind.trans hk
    simp only [Sampler.resetMean, hk, hk', h.cost, h.sigma, h.seed]
  | labeledCost =>
    have hk' := h.kind.trans hk
    cases y <;> simp only [Sampler.resetMean, hk, hk', h.cost, h.sigma, h.seed]
  | normalNoLabels =>
    have hk' := h.kind.trans hk
    obtain ⟨x, c, hd, _⟩ := hs.normalNoLabels hk
    obtain ⟨x', c', hd', _⟩ := ht.normalNoLabels hk'
    rw [hd, hd'] at hn
    simp only [noiseOf, Noise.gaussian.injEq] at hn
    simp only [Sampler.resetMean, hk, hk', hd, hd', Dist.trilAttr, hn, h.seed]
  | normalNormal =>
    have hk' := h.kind.trans hk
    obtain ⟨x, c, z, e, hd, hl, _⟩ := hs.normalNormal hk
    obtain ⟨x', c', z', e', hd', hl', _⟩ := ht.normalNormal hk'
    rw [hd, hd'] at hn
    rw [hl, hl'] at hln
    simp only [noiseOf, Noise.gaussian.injEq, Option.map_some, Option.some.injEq] at hn hln
    cases y <;> simp only [Sampler.resetMean, hk, hk', hd, hd', hl, hl', Dist.trilAttr, hn, hln, h.seed]
  | normalId =>
    have hk' := h.kind.trans hk
    obtain ⟨x, c, z, hd, hl, _⟩ := hs.normalId hk
    obtain ⟨x', c', z', hd', hl', _⟩ := ht.normalId hk'
    rw [hd, hd'] at hn
    simp only [noiseOf, Noise.gaussian.injEq] at hn
    cases y <;> simp only [Sampler.resetMean, hk, hk', hd, hd', Dist.trilAttr, hn, h.seed]
  | normalBernoulli =>
    have hk' := h.kind.trans hk
    obtain ⟨x, c, z, p, hd, hl, _⟩ := hs.normalBernoulli hk
    obtain ⟨x', c', z', p', hd', hl', _⟩ := ht.normalBernoulli hk'
    rw [hd, hd'] at hn
    simp only [noiseOf, Noise.gaussian.injEq] at hn
    cases y <;> simp only [Sampler.resetMean, hk, hk', hd, hd', Dist.trilAttr, hn, h.seed, h.p]

/-- with a seed, a reset forgets the generator state -/
theorem resetMean_seeded {s : Sampler} {k : ℤ} (hs : s.seed = some k) (xi : Tensor ℝ) (y : Option (Tensor ℝ)) (g g' : G) :
    s.resetMean ext xi y g = s.resetMean ext xi y g' := by
  unfold Sampler.resetMean
  cases s.kind <;> cases y <;>
    simp [hs, mkNoLabelsCost, mkLabeledCost, mkNormalNoLabels, mkNormalNormal, mkNormalId, mkNormalBernoulli, seedGlobal]

/-- samples of one distribution around two centres of the same shape -/
theorem rsample_congr {d d' : Dist} (hn : noiseOf ext d' = noiseOf ext d)
    (hsh : (centreOf d').shape = (centreOf d).shape) (n : ℕ) (g : G) :
    (d'.rsample ext g n).2 = (d.rsample ext g n).2 ∧ (d'.rsample ext g n).1.shape = (d.rsample ext g n).1.shape ∧
    (∀ i, (∀ p, noiseOf ext d ≠ .flip p) →
      (d'.rsample ext g n).1.get i - (centreOf d').get i.tail = (d.rsample ext g n).1.get i - (centreOf d).get i.tail) ∧
    (∀ i p, noiseOf ext d = .flip p →
      ((d'.rsample ext g n).1.get i = (centreOf d').get i.tail ∧ (d.rsample ext g n).1.get i = (centreOf d).get i.tail) ∨
      ((d'.rsample ext g n).1.get i = -(centreOf d').get i.tail ∧
        (d.rsample ext g n).1.get i = -(centreOf d).get i.tail)) := by
  cases d <;> cases d' <;> simp only [noiseOf, reduceCtorEq, Noise.laplace.injEq, Noise.normal.injEq,
    Noise.gaussian.injEq, Noise.flip.injEq] at hn <;> simp only [centreOf] at hsh
  · subst hn; refine ⟨?_, ?_, ?_, ?_⟩ <;> simp [Dist.rsample, hsh, centreOf, noiseOf]
  · subst hn; refine ⟨?_, ?_, ?_, ?_⟩ <;> simp [Dist.rsample, hsh, centreOf, noiseOf]
  · refine ⟨?_, ?_, ?_, ?_⟩ <;> simp [Dist.rsample, hsh, centreOf, noiseOf]
  · refine ⟨?_, ?_, ?_, ?_⟩ <;> simp [Dist.rsample, hsh, centreOf, noiseOf, hn]
  · subst hn
    refine ⟨?_, ?_, ?_, ?_⟩
    · simp [Dist.rsample, hsh]
    · simp [Dist.rsample, hsh]
    · intro i h; simp [noiseOf] at h
    · intro i p _
      simp only [Dist.rsample, hsh, centreOf]
      split
      · left; constructor <;> ring
      · right; constructor <;> ring

end Skwdro
