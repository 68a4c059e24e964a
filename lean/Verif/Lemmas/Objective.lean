import Verif.Spec.Objective
import Verif.Lemmas.Estimators
import Verif.Props.ImpSamp
import Verif.Props.Objective

/-! The robust objective built by `robustify` from a pointwise loss, importance sampling included. -/

namespace Skwdro
open Spec Tensor

variable {G : Type} {ext : TorchExt G}

theorem mkNormal_ok {x : Tensor ℝ} {e : ℝ} {l : Dist} (h : mkNormal x (.fin e) = .ok l) : 0 < e ∧ l = .normal x (.fin e) := by
  unfold mkNormal validScale at h
  dsimp only at h
  split at h
  · next he => simp only [Except.ok.injEq] at h; exact ⟨he, h.symm⟩
  · cases h

theorem mkLaplace_ok {x : Tensor ℝ} {e : ℝ} {l : Dist} (h : mkLaplace x (.fin e) = .ok l) : 0 < e ∧ l = .laplace x (.fin e) := by
  unfold mkLaplace validScale at h
  dsimp only at h
  split at h
  · next he => simp only [Except.ok.injEq] at h; exact ⟨he, h.symm⟩
  · cases h

/-- an accepted cost has a norm order, and its sampler draws from Laplace or normal noise of the given scale around the data -/
theorem samplerData_scale {c : CostR} {x : Tensor ℝ} {e : ℝ} {l : Dist} (h : samplerData c x (some e) = .ok l) :
    NormOrder c.p ∧ 0 < e ∧ (l = .laplace x (.fin e) ∧ c.power = 1 ∧ c.p = .fin 1 ∨ l = .normal x (.fin e) ∧ (c.power ≠ 1 ∨ c.p ≠ .fin 1)) := by
  unfold samplerData at h
  simp only [defaultEps, Option.getD_some] at h
  split at h
  · next h1 =>
    split at h
    · next q hq =>
      split at h
      · next h2 =>
        obtain ⟨h3, rfl⟩ := mkLaplace_ok h
        exact ⟨Or.inl ⟨q, by rw [h2], hq⟩, h3, Or.inl ⟨rfl, h1, by rw [hq, h2]⟩⟩
      · next h2 =>
        split at h
        · next h4 =>
          obtain ⟨h3, rfl⟩ := mkNormal_ok h
          exact ⟨Or.inl ⟨q, by rw [h4]; norm_num, hq⟩, h3, Or.inr ⟨rfl, Or.inr (by rw [hq]; simpa using h2)⟩⟩
        · cases h
    · next hq =>
      obtain ⟨h3, rfl⟩ := mkNormal_ok h
      exact ⟨Or.inr hq, h3, Or.inr ⟨rfl, Or.inr (by rw [hq]; simp)⟩⟩
    · cases h
  · next h1 =>
    split at h
    · split at h
      · next q hq =>
        split at h
        · next h4 =>
          obtain ⟨h3, rfl⟩ := mkNormal_ok h
          exact ⟨Or.inl ⟨q, by rw [h4]; norm_num, hq⟩, h3, Or.inr ⟨rfl, Or.inl h1⟩⟩
        · cases h
      · cases h
    · cases h

/-- what a successful `robustify` hands to its sampler -/
theorem dualize_sampler {a : DualizeArgs} {g g' : G} {D : DualLoss} (h : dualize ext a g = .ok (D, g')) :
    ∃ s, D.sampler = some s ∧ samplerData D.cost a.xi (some (expertSigma a.rho a.sigma SIGMA_FACTOR)) = .ok s.data_s ∧
      (∀ y, a.xi_labels = some y → samplerLabels D.cost (some y) (some (expertSigma a.rho a.sigma SIGMA_FACTOR)) = .ok s.labels_s) ∧
      (a.xi_labels = none → s.labels_s = none) ∧ g' = seedGlobal ext a.seed g ∧ s.seed = a.seed := by
  obtain ⟨parsed, obj, c, s, -, -, -, hs, rfl⟩ := dualize_ok h
  refine ⟨s, rfl, ?_⟩
  cases hy : a.xi_labels with
  | none =>
    simp only [dualizeSampler, hy, mkNoLabelsCost] at hs
    cases hd : samplerData c a.xi (some (expertSigma a.rho a.sigma SIGMA_FACTOR)) with
    | error e => simp [hd] at hs
    | ok l =>
      simp only [hd, ok_bind, Except.ok.injEq, Prod.mk.injEq] at hs
      obtain ⟨rfl, rfl⟩ := hs
      exact ⟨hd, (by simp), fun _ => rfl, rfl, rfl⟩
  | some y =>
    simp only [dualizeSampler, hy, mkLabeledCost] at hs
    cases hd : samplerData c a.xi (some (expertSigma a.rho a.sigma SIGMA_FACTOR)) with
    | error e => simp [hd] at hs
    | ok l =>
      cases hl : samplerLabels c (some y) (some (expertSigma a.rho a.sigma SIGMA_FACTOR)) with
      | error e => simp [hd, hl] at hs
      | ok ll =>
        cases ll with
        | none => simp [hd, hl] at hs
        | some ll =>
          simp only [hd, hl, ok_bind, Except.ok.injEq, Prod.mk.injEq] at hs
          obtain ⟨rfl, rfl⟩ := hs
          refine ⟨hd, ?_, (by simp), rfl, rfl⟩
          rintro y' hy'
          cases hy'
          exact hl

/-- the cost of a robust loss built by `robustify` -/
theorem dualize_goodCost {a : DualizeArgs} {g g' : G} {D : DualLoss} (h : dualize ext a g = .ok (D, g')) : GoodCost D.cost := by
  obtain ⟨s, -, h1, -⟩ := dualize_sampler h
  refine ⟨(samplerData_scale h1).1, fun hk => ?_⟩
  obtain ⟨parsed, obj, c, s, -, ho, hc, -, rfl⟩ := dualize_ok h
  exact kappa_ok ho hc hk

/-- settings read off a successful `robustify` -/
theorem dualize_fields {a : DualizeArgs} {g g' : G} {D : DualLoss} (h : dualize ext a g = .ok (D, g')) :
    D.primal = a.wloss.value ∧ D.grads = a.grads ∧ D.rho = a.rho ∧ D.ermMode = false ∧ D.reduction = reductionAttr a.reduction ∧
      D.epsilon = (expertEpsilon a.rho D.cost.power a.epsilon EPSILON_SIGMA_FACTOR SIGMA_FACTOR).getD 0 ∧ D.nSamples = a.n_samples ∧
      D.lam = initialLam a.rho := by
  obtain ⟨parsed, obj, c, s, -, -, -, -, rfl⟩ := dualize_ok h
  exact ⟨rfl, rfl, rfl, rfl, rfl, rfl, rfl, rfl⟩

/-- with importance sampling on, the noise is normal around the data; labels get normal noise or none -/
theorem imp_sampler {a : DualizeArgs} {g g' : G} {D : DualLoss} (h : dualize ext a g = .ok (D, g')) (hi : D.impSamp = true) :
    ∃ s, D.sampler = some s ∧ ∃ sig, 0 < sig ∧ s.data_s = .normal a.xi (.fin sig) ∧ (a.xi_labels = none → s.labels_s = none) ∧
      ∀ y, a.xi_labels = some y → s.labels_s = some (.normal y (.fin sig)) ∨ ∃ b, s.labels_s = some (.dirac y b) := by
  obtain ⟨s, hs, h1, h2, h3, -⟩ := dualize_sampler h
  obtain ⟨-, hp, hw⟩ := (C21_enabled_iff ext h).1 hi
  obtain ⟨-, hsig, h4⟩ := samplerData_scale h1
  refine ⟨s, hs, _, hsig, ?_, h3, fun y hy => ?_⟩
  · rcases h4 with ⟨-, h5, -⟩ | ⟨h5, -⟩
    · rw [hw] at h5; norm_num at h5
    · exact h5
  · have h5 := h2 y hy
    unfold samplerLabels at h5
    split at h5
    · simp only [samplerLabelsNC, Option.map_some, Except.ok.injEq] at h5
      exact Or.inr ⟨1, h5.symm⟩
    · unfold samplerLabelsNLC at h5
      dsimp only at h5
      split at h5
      · simp only [Except.map, Except.ok.injEq] at h5
        exact Or.inr ⟨0, h5.symm⟩
      · rw [if_neg (by rw [hw]; norm_num), if_pos hw, hp] at h5
        simp only [if_true, defaultEps, Option.getD_some] at h5
        cases hn : mkNormal y (.fin (expertSigma a.rho a.sigma SIGMA_FACTOR)) with
        | error e => rw [hn] at h5; cases h5
        | ok l =>
          rw [hn] at h5
          simp only [Except.map, Except.ok.injEq] at h5
          left
          rw [← h5, (mkNormal_ok hn).2]
      · cases h5

/-! ## Correction terms with labels -/

/-- the label part of a log-probability: finite, and the same for every law of the two kinds used with importance sampling -/
theorem label_format {n m e : ℕ} {ls : Dist} {y w : Tensor ℝ} {Y : Fin m → Fin e → ℝ} {W : Fin n → Fin m → Fin e → ℝ} {sig : ℝ}
    (hsig : 0 < sig) (hls : ls = .normal y (.fin sig) ∨ ∃ b, ls = .dirac y b ∧ ∀ j i, W j i = Y i) (hy : IsMat y Y) (hw : IsTen w W)
    {a : Tensor (XNum ℝ)} {A : Fin n → Fin m → ℝ} (ha : IsTen a (fun j i (_ : Fin 1) => .fin (A j i))) :
    ∃ b u, formatLogprobs ext ls w = .ok b ∧ Tensor.zipWith XNum.add a b = .ok u ∧
      ∃ U : Fin n → Fin m → ℝ, IsTen u (fun j i (_ : Fin 1) => .fin (U j i)) := by
  rcases hls with rfl | ⟨b, rfl, hW⟩
  · obtain ⟨b, hb, hB⟩ := format_is ext (l := .normal y (.fin sig)) ⟨sig, hsig, rfl⟩ hy hw
    obtain ⟨u, hu, hU⟩ := Is.zipWith_same (f := XNum.add) ha.is hB.is
    refine ⟨b, u, hb, hu, fun j i => A j i + rowLP ext (.normal y (.fin sig)) (fun k => W j i k - Y i k), ?_⟩
    have := isTen_iff.1 hU
    simpa only [ix3_apply, XNum.add] using this
  · obtain ⟨t, ht, hT⟩ := zipWith_mat (f := fun v m : ℝ => |v - m|) hw hy
    have h0 : t.toList.sum = 0 := by
      apply List.sum_eq_zero
      intro v hv
      simp only [toList, List.mem_map, mem_indices] at hv
      obtain ⟨idx, hidx, rfl⟩ := hv
      rw [hT.1] at hidx
      rcases hidx with _ | ⟨i0, hidx⟩
      rcases hidx with _ | ⟨i1, hidx⟩
      rcases hidx with _ | ⟨i2, hidx⟩
      cases hidx
      have := hT.2 ⟨_, i0⟩ ⟨_, i1⟩ ⟨_, i2⟩
      simp only at this
      rw [this, hW]
      simp
    have hb : formatLogprobs ext (.dirac y b) w = .ok (Tensor.scalar (XNum.fin 0)).unsqueezeLast := by
      simp [formatLogprobs, Dist.logProb, ht, h0, Tensor.scalar, Tensor.dim]
    have hsh : bcastShape [n, m, 1] [1] = some [n, m, 1] := by simp [bcastShape, bcastRev]
    refine ⟨_, ⟨[n, m, 1], fun i => XNum.add (a.get (proj a.shape i)) (XNum.fin 0)⟩, hb, ?_, A, rfl, fun j i k => ?_⟩
    · unfold Tensor.zipWith
      have e1 : (Tensor.scalar (XNum.fin (0 : ℝ))).unsqueezeLast.shape = [1] := rfl
      rw [ha.1, e1, hsh]
      rfl
    · have hp : proj a.shape [j.1, i.1, k.1] = [j.1, i.1, k.1] := by
        rw [ha.1]
        exact proj_self (List.Forall₂.cons j.2 (List.Forall₂.cons i.2 (List.Forall₂.cons k.2 List.Forall₂.nil)))
      simp only [hp, ha.2 j i k, XNum.add, add_zero]

/-! ## The objective -/

section core
variable {n m d k : ℕ} {a : DualizeArgs} {g g' : G} {D : DualLoss} {rho : ℝ} {X : Fin m → Fin d → ℝ} {Z : Fin n → Fin m → Fin d → ℝ}
  {z : Tensor ℝ}

/-- The objective of a labelled problem on samples `Z`, `W`: the soft-max robust loss at the samples, displaced if importance sampling is
on (and then without any correction, see C20). -/
theorem objective_labelled (h : dualize ext a g = .ok (D, g')) (hr : a.rho = .num rho) (hpos : 0 < rho)
    (he : ∀ x, a.epsilon = some x → 0 < x) (hred : a.reduction = none) {y w : Tensor ℝ} {Y : Fin m → Fin k → ℝ} {W : Fin n → Fin m → Fin k → ℝ}
    (hy : a.xi_labels = some y) (hx : IsMat a.xi X) (hY : IsMat y Y) (hz : IsTen z Z) (hw : IsTen w W) (hn : 0 < n) (hm : 0 < m) (hd : 0 < d)
    (hk : 0 < k) {ell : (Fin d → ℝ) → (Fin k → ℝ) → ℝ} (hell : PointLoss D.primal ell) (lam : ℝ) {gx : Fin m → Fin d → ℝ} {gy : Fin m → Fin k → ℝ}
    (hg : ∃ tg tgl, a.grads a.xi.unsqueeze0 (some y.unsqueeze0) = (tg, some tgl) ∧ IsTen tg (fun (_ : Fin 1) => gx) ∧
      IsTen tgl (fun (_ : Fin 1) => gy))
    (hkap : D.impSamp = true → labelWeight D.cost ≠ some 0)
    (hdir : D.impSamp = true → labelWeight D.cost = none → ∀ j i, W j i = Y i) :
    ReturnsVal (computeDual ext { D with lam := lam } a.xi (some y) z (some w)) (fun v => IsScalar v (lam * rho ^ D.cost.power +
      (∑ i, D.epsilon * Real.log ((∑ j, Real.exp ((
        ell (displaced D.impSamp (moved (Regular lam gx ∧ Regular lam gy) lam gx) Z j i)
          (displaced D.impSamp (movedLabel D.cost (Regular lam gx ∧ Regular lam gy) lam gy) W j i) -
        lam * costAt D.cost (X i) (displaced D.impSamp (moved (Regular lam gx ∧ Regular lam gy) lam gx) Z j i) (Y i)
          (displaced D.impSamp (movedLabel D.cost (Regular lam gx ∧ Regular lam gy) lam gy) W j i)) / D.epsilon)) / n)) / m)) := by
  obtain ⟨hP, hG, hR, hE, hM, hEps, -, -⟩ := dualize_fields h
  have hgood := dualize_goodCost h
  have hmean : D.reduction = .mean := by rw [hM, hred]; rfl
  have heps : 0 < D.epsilon := by rw [hEps, hr]; exact expertEpsilon_pos he
  rw [hr] at hR
  have hDD : ∀ b, D.impSamp = b → ({ D with lam := lam, impSamp := b } : DualLoss) = { D with lam := lam } := by rintro _ rfl; rfl
  cases hi : D.impSamp with
  | false =>
    rw [hDD _ hi]
    have hpl : Plain { D with lam := lam } a.xi (some y) z (some w) rho (fun j i => ell (Z j i) (W j i))
        (fun j i => costAt D.cost (X i) (Z j i) (Y i) (W j i)) :=
      ⟨hR, hpos, heps, hE, hi, hn, hm, by simp [size0, hz.1], hell hz hw, cost_batch hgood hx hz hY hw⟩
    have := C29_formula ext hpl hmean
    have e1 : ∀ (v : Fin m → Fin d → ℝ) j i, displaced false v Z j i = Z j i := by intro v j i; funext k; simp [displaced]
    have e2 : ∀ (v : Fin m → Fin k → ℝ) j i, displaced false v W j i = W j i := by intro v j i; funext k; simp [displaced]
    simp only [e1, e2]
    exact this
  | true =>
    rw [hDD _ hi]
    obtain ⟨-, hp, hpw⟩ := (C21_enabled_iff ext h).1 hi
    obtain ⟨s, hs, sig, hsig, hds, -, hls⟩ := imp_sampler h hi
    have hk0 := hkap hi
    obtain ⟨tg, tgl, hg1, hg2, hg3⟩ := hg
    have hW : WithLabels { D with lam := lam } a.xi y z w X Y Z W gx gy :=
      ⟨hm, hd, hk, hp, hpw, hgood, hx, hz, hY, hw, tg, tgl, by rw [← hg1, ← hG], hg2, hg3⟩
    obtain ⟨x', y', z', w', h1, h2, h3, h4, h5⟩ := lab hW
    simp only [labelTo_weight hgood hk0] at h3 h5
    set ok := Regular lam gx ∧ Regular lam gy
    have hzr : IsTen z' (displaced true (moved ok lam gx) Z) := ⟨h4.1, fun j i q => by rw [h4.2 j i q]; simp [displaced]⟩
    have hwr : IsTen (w'.map XNum.toReal) (displaced true (movedLabel D.cost ok lam gy) W) :=
      ⟨h5.1, fun j i q => by simp only [Tensor.map]; rw [h5.2 j i q]; simp [displaced, XNum.toReal]⟩
    have hvalid : ∀ {N : ℕ} {t : Tensor (XNum ℝ)} {q : ℕ} {A : Fin N → Fin m → Fin q → ℝ}, IsTen t (fun j i k => .fin (A j i k)) →
        checkTensorInvalid t = false := by
      intro N t q A ht
      rw [Bool.eq_false_iff]
      simp only [checkTensorInvalid, ne_eq, List.any_eq_true, toList, List.mem_map, mem_indices, not_exists, not_and]
      rintro v ⟨idx, hidx, rfl⟩
      rw [ht.1] at hidx
      rcases hidx with _ | ⟨i0, hidx⟩
      rcases hidx with _ | ⟨i1, hidx⟩
      rcases hidx with _ | ⟨i2, hidx⟩
      cases hidx
      have := ht.2 ⟨_, i0⟩ ⟨_, i1⟩ ⟨_, i2⟩
      simp only at this
      rw [this]; simp [XNum.notFin]
    obtain ⟨lt, hl1, hl2⟩ := hell hzr hwr
    obtain ⟨ct, hc1, hc2⟩ := cost_batch hgood hx hzr hY hwr
    obtain ⟨it, hi1, hi2⟩ := Is.zipWith_same (f := fun l c => (l - lam * c) / D.epsilon) hl2.is hc2.is
    have hdm : IsMat s.data_s.mean X := by rw [hds]; exact hx
    obtain ⟨a1, ha1, hA1⟩ := format_is ext (l := s.data_s) (by rw [hds]; exact ⟨sig, hsig, rfl⟩) hdm hzr
    have hlaw : ∃ ls, s.labels_s = some ls ∧ (ls = .normal y (.fin sig) ∨ ∃ b, ls = .dirac y b ∧
        ∀ j i, displaced true (movedLabel D.cost ok lam gy) W j i = Y i) := by
      rcases hls y hy with h6 | ⟨b, h6⟩
      · exact ⟨_, h6, Or.inl rfl⟩
      · refine ⟨_, h6, Or.inr ⟨b, rfl, fun j i => ?_⟩⟩
        have hnone : labelWeight D.cost = none := by
          obtain ⟨s', hs', h1', h2', -⟩ := dualize_sampler h
          rw [hs] at hs'
          cases hs'
          have h7 := h2' y hy
          rw [h6] at h7
          unfold samplerLabels at h7
          unfold labelWeight
          split at h7
          · next hkind => simp [hkind]
          · next hkind =>
            unfold samplerLabelsNLC at h7
            dsimp only at h7
            split at h7
            · next hkk => simp [hkind, hkk]
            · exfalso
              rw [if_neg (by rw [hpw]; norm_num), if_pos hpw, hp] at h7
              simp only [if_true, defaultEps, Option.getD_some] at h7
              cases hnn : mkNormal y (.fin (expertSigma a.rho a.sigma SIGMA_FACTOR)) with
              | error e => rw [hnn] at h7; cases h7
              | ok l =>
                rw [hnn, (mkNormal_ok hnn).2] at h7
                simp [Except.map] at h7
            · cases h7
        funext q
        rw [← hdir hi hnone j i]
        simp [displaced, movedLabel, hnone]
    obtain ⟨ls, hls1, hls2⟩ := hlaw
    obtain ⟨b1, u, hb1, hu, U, hU⟩ := label_format (ext := ext) hsig hls2 hY hwr hA1
    obtain ⟨t, ht, hT⟩ := Is.zipWith_same (f := XNum.sub) hU.is hU.is
    have hT' : IsTen t (fun (_ : Fin n) (_ : Fin m) (_ : Fin 1) => .fin 0) := by
      have := isTen_iff.1 hT
      simpa only [ix3_apply, XNum.sub, XNum.add, XNum.neg, add_neg_cancel] using this
    have htr : IsTen (t.map XNum.toReal) (fun (_ : Fin n) (_ : Fin m) (_ : Fin 1) => (0 : ℝ)) :=
      ⟨hT'.1, fun j i q => by simp only [Tensor.map]; rw [hT'.2 j i q]; rfl⟩
    obtain ⟨ft, hf1, hf2⟩ := Is.zipWith_same (f := fun p q : ℝ => p + q) hi2 htr.is
    have hcomp : computeDual ext { D with lam := lam } a.xi (some y) z (some w) = finishDual { D with lam := lam } rho n ft := by
      have hsz : z'.size0 = n := by simp [size0, h4.1]
      have e1 : s.logProb ext z' (some (w'.map XNum.toReal)) = .ok u := by simp [Sampler.logProb, hls1, ha1, hb1, hu]
      have e2 : s.logProbRecentered ext x' (some (y'.map XNum.toReal)) z' (some (w'.map XNum.toReal)) = .ok u := by
        simp [Sampler.logProbRecentered, hls1, ha1, hb1, hu]
      have v1 := hvalid h3
      have v2 := hvalid h5
      have v3 := hvalid hT'
      have f1 : ({ D with lam := lam } : DualLoss).rho = .num rho := hR
      have f2 : ({ D with lam := lam } : DualLoss).ermMode = false := hE
      have f3 : ({ D with lam := lam } : DualLoss).impSamp = true := hi
      have f4 : ({ D with lam := lam } : DualLoss).sampler = some s := hs
      have f5 : integrand { D with lam := lam } a.xi (some y) z' (some (w'.map XNum.toReal)) = .ok it := by
        simp only [integrand, hl1, ok_bind, maybeUnsqueeze, Option.map_some, hc1, hi1]
      generalize ({ D with lam := lam } : DualLoss) = E at f1 f2 f3 f4 f5 h1 ⊢
      simp only [computeDual, f1, hpos.ne', f2, Bool.false_eq_true, or_self, if_false, hpos, if_true, f3,
        impSampBranch, h1, ok_bind, labelsInvalid, realLabels, Option.map_some, f4, e1, e2, ht, v1, v2, v3, Bool.or_self, f5, hf1, hsz]
    rw [hcomp]
    have hten := isTen_iff.1 hf2
    simp only [ix3_apply, add_zero] at hten
    have hfin := finishDual_mean (D := { D with lam := lam }) hn hm (rho := rho) hmean hten
    simpa only [avg] using hfin

/-- The objective of a problem without labels on samples `Z`: the soft-max robust loss at the samples; if importance sampling is on they
are displaced, each exponential being multiplied by the ratio of the density of the noise around the data to its density around the displaced
data. -/
theorem objective_unlabelled (h : dualize ext a g = .ok (D, g')) (hr : a.rho = .num rho) (hpos : 0 < rho)
    (he : ∀ x, a.epsilon = some x → 0 < x) (hred : a.reduction = none) (hy : a.xi_labels = none) (hx : IsMat a.xi X) (hz : IsTen z Z)
    (hn : 0 < n) (hm : 0 < m) (hd : 0 < d) (hkind : D.cost.kind = .normCost) {ell : (Fin d → ℝ) → ℝ} (hell : PointLoss0 D.primal ell) (lam : ℝ)
    {gx : Fin m → Fin d → ℝ} (hg : ∃ tg, a.grads a.xi.unsqueeze0 none = (tg, none) ∧ IsTen tg (fun (_ : Fin 1) => gx)) :
    ∃ s, D.sampler = some s ∧
    ReturnsVal (computeDual ext { D with lam := lam } a.xi none z none) (fun v => IsScalar v (lam * rho ^ D.cost.power +
      (∑ i, D.epsilon * Real.log ((∑ j,
        (if D.impSamp then densityAt ext s.data_s (X i) (displaced true (moved (Regular lam gx) lam gx) Z j i) /
          densityAt ext s.data_s (fun q => X i q + moved (Regular lam gx) lam gx i q) (displaced true (moved (Regular lam gx) lam gx) Z j i)
          else 1) *
        Real.exp ((ell (displaced D.impSamp (moved (Regular lam gx) lam gx) Z j i) -
        lam * pnorm D.cost.p (fun q => X i q - displaced D.impSamp (moved (Regular lam gx) lam gx) Z j i q) ^ D.cost.power) / D.epsilon)) / n)) / m)) := by
  obtain ⟨hP, hG, hR, hE, hM, hEps, -, -⟩ := dualize_fields h
  have hgood := dualize_goodCost h
  have hmean : D.reduction = .mean := by rw [hM, hred]; rfl
  have heps : 0 < D.epsilon := by rw [hEps, hr]; exact expertEpsilon_pos he
  rw [hr] at hR
  have hDD : ∀ b, D.impSamp = b → ({ D with lam := lam, impSamp := b } : DualLoss) = { D with lam := lam } := by rintro _ rfl; rfl
  cases hi : D.impSamp with
  | false =>
    obtain ⟨s, hs, -⟩ := dualize_sampler h
    refine ⟨s, hs, ?_⟩
    rw [hDD _ hi]
    have hpl : Plain { D with lam := lam } a.xi none z none rho (fun j i => ell (Z j i))
        (fun j i => pnorm D.cost.p (fun q => X i q - Z j i q) ^ D.cost.power) :=
      ⟨hR, hpos, heps, hE, hi, hn, hm, by simp [size0, hz.1], hell hz, C04_formula D.cost hkind hgood.order (isTen_unsqueeze hx) hz none none⟩
    have := C29_formula ext hpl hmean
    have e1 : ∀ (v : Fin m → Fin d → ℝ) j i, displaced false v Z j i = Z j i := by intro v j i; funext k; simp [displaced]
    simp only [e1, Bool.false_eq_true, if_false, one_mul]
    exact this
  | true =>
    obtain ⟨-, hp, hpw⟩ := (C21_enabled_iff ext h).1 hi
    obtain ⟨s, hs, sig, hsig, hds, hsl, -⟩ := imp_sampler h hi
    refine ⟨s, hs, ?_⟩
    rw [hDD _ hi]
    obtain ⟨tg, hg1, hg2⟩ := hg
    have hU : Unlabelled { D with lam := lam } a.xi z X Z gx := ⟨hm, hd, hp, hpw, hx, hz, tg, by rw [← hg1, ← hG], hg2⟩
    obtain ⟨x', z', X', Z', h1, h2, h3, h4⟩ := C19_value ext hU hkind hR hpos hE hi hn hmean hs (hsl hy) (by rw [hds]; exact ⟨sig, hsig, rfl⟩)
      (by rw [hds]; exact hx) (fun z Z hz => hell hz)
    obtain ⟨x2, z2, k1, k2, k3⟩ := unlab hU
    rw [h1] at k1
    simp only [Except.ok.injEq, Prod.mk.injEq, true_and, and_true] at k1
    obtain ⟨rfl, rfl⟩ := k1
    have eX : X' = fun i q => X i q + moved (Regular lam gx) lam gx i q := by
      funext i q
      exact (h2.2 0 i q).symm.trans (k2.2 0 i q)
    have eZ : Z' = displaced true (moved (Regular lam gx) lam gx) Z := by
      funext j i q
      refine (h3.2 j i q).symm.trans ((k3.2 j i q).trans ?_)
      simp [displaced]
    subst eX eZ
    simp only [if_true, hpw, hp, Spec.norm2] at h4 ⊢
    have e2 : ∀ x : ℝ, x ^ (2 : ℝ) = x ^ 2 := fun x => by norm_num
    simpa only [e2] using h4

end core

end Skwdro
