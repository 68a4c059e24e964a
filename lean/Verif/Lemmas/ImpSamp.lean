import Verif.Spec.ImpSamp
import Verif.Lemmas.Costs
import Verif.Lemmas.DualSetting

/-! Helper lemmas on displacements. -/

namespace Skwdro
open Spec Tensor

theorem two_order : NormOrder (.fin 2) := Or.inl ⟨2, by norm_num, rfl⟩

instance : Inhabited (XNum ℝ) := ⟨.nan⟩

/-- the displacement before halving, possibly not finite -/
noncomputable def rawDisp {d : ℕ} (lam : ℝ) (g : Fin d → ℝ) (k : Fin d) : XNum ℝ :=
  if norm2 g = 0 then .nan else xdiv (g k / norm2 g * min (10 ^ 10) (norm2 g)) lam

theorem normalizeVects_is {m d : ℕ} {t : Tensor ℝ} {g : Fin m → Fin d → ℝ} (lam : ℝ)
    (ht : IsTen t (fun (_ : Fin 1) => g)) :
    IsTen (normalizeVects (10 ^ 10) lam t) (fun (_ : Fin 1) i k => rawDisp lam (g i) k) := by
  refine ⟨ht.1, fun j i k => ?_⟩
  have hrow : t.lastRow [j.1, i.1] = (List.range d).map (fun k => ix1 (g i) [k]) := by
    have h := ht.is
    have h' : Is t ([1, m] ++ [d]) (ix3 (fun (_ : Fin 1) => g)) := h
    rw [h'.lastRow (List.Forall₂.cons j.2 (List.Forall₂.cons i.2 .nil))]
    refine List.map_congr_left fun k hk => ?_
    have := ix3_apply (fun (_ : Fin 1) => g) j i ⟨k, List.mem_range.1 hk⟩
    have e := ix1_apply (g i) ⟨k, List.mem_range.1 hk⟩
    simp only [List.cons_append, List.nil_append] at *
    rw [this, e]
  have hnorm : vnorm (.fin 2) ((List.range d).map (fun k => ix1 (g i) [k])) = norm2 (g i) := by
    rw [vnorm_range two_order]; simp [norm2]
  simp only [normalizeVects, List.dropLast_cons_cons, List.dropLast_singleton, List.getLastD_cons, List.getLastD_nil, hrow,
    normalizeRow, hnorm]
  unfold rawDisp
  split
  · simp
  · simp

theorem xdiv_ne {a b : ℝ} (hb : b ≠ 0) : xdiv a b = .fin (a / b) := by simp [xdiv, hb]

theorem xdiv_zero_not_fin (a x : ℝ) : xdiv a 0 ≠ .fin x := by
  unfold xdiv; simp only [if_true]; split_ifs <;> simp

/-- some displacement is not finite exactly for a degenerate batch -/
theorem invalid_iff {m d : ℕ} (hm : 0 < m) (hd : 0 < d) {t : Tensor ℝ} {g : Fin m → Fin d → ℝ} (lam : ℝ)
    (ht : IsTen t (fun (_ : Fin 1) => g)) :
    checkTensorInvalid (normalizeVects (10 ^ 10) lam t) = true ↔ ¬ Regular lam g := by
  have hN := normalizeVects_is lam ht
  have hnf : ∀ x : XNum ℝ, x.notFin = true ↔ ∀ r, x ≠ .fin r := by
    intro x; cases x <;> simp [XNum.notFin]
  have key : checkTensorInvalid (normalizeVects (10 ^ 10) lam t) = true ↔ ∃ i k, ∀ r, rawDisp lam (g i) k ≠ .fin r := by
    unfold checkTensorInvalid
    rw [List.any_eq_true]
    simp only [hnf, toList, List.mem_map, mem_indices]
    constructor
    · rintro ⟨x, ⟨idx, hidx, rfl⟩, h⟩
      rw [hN.1] at hidx
      rcases hidx with _ | ⟨h0, hidx⟩
      rcases hidx with _ | ⟨h1, hidx⟩
      rcases hidx with _ | ⟨h2, hidx⟩
      cases hidx
      refine ⟨⟨_, h1⟩, ⟨_, h2⟩, fun r hr => h r ?_⟩
      have := hN.2 ⟨_, h0⟩ ⟨_, h1⟩ ⟨_, h2⟩
      simp only at this
      rw [this, hr]
    · rintro ⟨i, k, h⟩
      refine ⟨_, ⟨[0, i.1, k.1], ?_, rfl⟩, ?_⟩
      · rw [hN.1]
        exact List.Forall₂.cons (by omega) (List.Forall₂.cons i.2 (List.Forall₂.cons k.2 .nil))
      · have := hN.2 0 i k
        simp only [Fin.val_zero] at this
        rw [this]; exact h
  rw [key]
  unfold Regular
  constructor
  · rintro ⟨i, k, h⟩ ⟨hl, hg⟩
    exact h _ (by unfold rawDisp; rw [if_neg (hg i), xdiv_ne hl])
  · intro h
    by_cases hl : lam = 0
    · refine ⟨⟨0, hm⟩, ⟨0, hd⟩, fun r => ?_⟩
      unfold rawDisp
      split
      · simp
      · rw [hl]; exact xdiv_zero_not_fin _ _
    · have : ∃ i, norm2 (g i) = 0 := by
        by_contra hc
        exact h ⟨hl, fun i hi => hc ⟨i, hi⟩⟩
      obtain ⟨i, hi⟩ := this
      refine ⟨i, ⟨0, hd⟩, fun r => ?_⟩
      unfold rawDisp; simp [hi]

theorem rawDisp_regular {m d : ℕ} {lam : ℝ} {g : Fin m → Fin d → ℝ} (h : Regular lam g) (i : Fin m) (k : Fin d) :
    (rawDisp lam (g i) k).toReal / 2 = shift lam (g i) k := by
  have h2 := h.2 i
  have h1 := h.1
  unfold rawDisp shift
  rw [if_neg h2, xdiv_ne h1, XNum.toReal]
  field_simp

theorem halfStep_right {n m d : ℕ} {t r : Tensor ℝ} {A : Fin n → Fin m → Fin d → ℝ} {B : Fin m → Fin d → ℝ}
    (ht : IsTen t A) (hr : IsTen r (fun (_ : Fin 1) => B)) :
    ∃ u, halfStep t r = .ok u ∧ IsTen u (fun j i k => A j i k + B i k / 2) := by
  obtain ⟨u, hu, hU⟩ := Is.zipWith_right (f := fun a b : ℝ => a + b / 2) ht.is hr.is
  refine ⟨u, hu, ?_⟩
  refine ⟨hU.1, fun j i k => ?_⟩
  have e := hU.2 [j.1, i.1, k.1] (List.Forall₂.cons j.2 (List.Forall₂.cons i.2 (List.Forall₂.cons k.2 .nil)))
  simp only [List.tail_cons] at e
  rw [e, ix3_apply]
  have := ix3_apply (fun (_ : Fin 1) => B) 0 i k
  simp only [Fin.val_zero] at this
  rw [this]

theorem labelStep_right {n m d : ℕ} {t r : Tensor ℝ} {A : Fin n → Fin m → Fin d → ℝ} {B : Fin m → Fin d → ℝ}
    (kappa : XNum ℝ) (ht : IsTen t A) (hr : IsTen r (fun (_ : Fin 1) => B)) :
    ∃ u, Tensor.zipWith (labelStep kappa) t r = .ok u ∧ IsTen u (fun j i k => labelStep kappa (A j i k) (B i k)) := by
  obtain ⟨u, hu, hU⟩ := Is.zipWith_right (f := labelStep kappa) ht.is hr.is
  refine ⟨u, hu, ?_⟩
  refine ⟨hU.1, fun j i k => ?_⟩
  have e := hU.2 [j.1, i.1, k.1] (List.Forall₂.cons j.2 (List.Forall₂.cons i.2 (List.Forall₂.cons k.2 .nil)))
  simp only [List.tail_cons] at e
  rw [e, ix3_apply]
  have := ix3_apply (fun (_ : Fin 1) => B) 0 i k
  simp only [Fin.val_zero] at this
  rw [this]

theorem map_toReal_is {m d : ℕ} {t : Tensor ℝ} {g : Fin m → Fin d → ℝ} (lam : ℝ)
    (ht : IsTen t (fun (_ : Fin 1) => g)) :
    IsTen ((normalizeVects (10 ^ 10) lam t).map XNum.toReal) (fun (_ : Fin 1) i k => (rawDisp lam (g i) k).toReal) := by
  have h := normalizeVects_is lam ht
  exact ⟨h.1, fun j i k => by simp only [Tensor.map]; rw [h.2 j i k]⟩

variable {n m d e : ℕ} {D : DualLoss} {xi zeta y zl tg tgl : Tensor ℝ} {X g : Fin m → Fin d → ℝ}
  {Z : Fin n → Fin m → Fin d → ℝ} {Y gl : Fin m → Fin e → ℝ} {W : Fin n → Fin m → Fin e → ℝ}

/-- displacement without labels -/
theorem displace_unlabelled (hm : 0 < m) (hd : 0 < d) (hsq : isSquaredEuclid D.cost = true) (hx : IsMat xi X)
    (hz : IsTen zeta Z) (hg : D.grads xi.unsqueeze0 none = (tg, none)) (ht : IsTen tg (fun (_ : Fin 1) => g)) :
    ∃ x' z', displaceSamples D xi none zeta none = .ok (x', none, z', none) ∧
      IsTen x' (fun (_ : Fin 1) i k => X i k + moved (Regular D.lam g) D.lam g i k) ∧
      IsTen z' (fun j i k => Z j i k + moved (Regular D.lam g) D.lam g i k) := by
  have hb := invalid_iff hm hd D.lam ht
  have hT := map_toReal_is D.lam ht
  by_cases hr : Regular D.lam g
  · have hv : checkTensorInvalid (normalizeVects (10 ^ 10) D.lam tg) = false := by
      simpa using mt hb.1 (not_not.2 hr)
    obtain ⟨x', hx1, hx2⟩ := halfStep_right (isTen_unsqueeze hx) hT
    obtain ⟨z', hz1, hz2⟩ := halfStep_right hz hT
    refine ⟨x', z', ?_, ?_, ?_⟩
    · simp [displaceSamples, optimalDisplacement, maybeUnsqueeze, hg, hv, labelsInvalid, solveMaxSeriesExp, hsq, hx1, hz1]
    · simpa only [moved, if_pos hr, rawDisp_regular hr] using hx2
    · simpa only [moved, if_pos hr, rawDisp_regular hr] using hz2
  · have hv := hb.2 hr
    refine ⟨xi.unsqueeze0, zeta, ?_, ?_, ?_⟩
    · simp [displaceSamples, optimalDisplacement, maybeUnsqueeze, hg, hv]
    · simpa only [moved, if_neg hr, add_zero] using isTen_unsqueeze hx
    · simpa only [moved, if_neg hr, add_zero] using hz

theorem labelStep_fin {q : ℝ} (hq : q ≠ 0) (a b : ℝ) : labelStep (.fin q) a b = .fin (a + b / 2 / q) := by
  simp [labelStep, xdiv_ne hq]

open Classical in
/-- a displaced label, possibly not finite -/
noncomputable def labelTo (c : CostR) (ok : Prop) (lam : ℝ) (gl : Fin m → Fin e → ℝ) (i : Fin m) (k : Fin e) (a : ℝ) :
    XNum ℝ :=
  if ok ∧ c.kind = .normLabelCost then labelStep c.kappa a (2 * shift lam (gl i) k) else .fin a

/-- displacement with labels -/
theorem displace_labelled_raw (hm : 0 < m) (hd : 0 < d) (he : 0 < e) (hsq : isSquaredEuclid D.cost = true)
    (hx : IsMat xi X) (hz : IsTen zeta Z) (hy : IsMat y Y) (hw : IsTen zl W)
    (hg : D.grads xi.unsqueeze0 (some y.unsqueeze0) = (tg, some tgl)) (ht : IsTen tg (fun (_ : Fin 1) => g))
    (htl : IsTen tgl (fun (_ : Fin 1) => gl)) :
    ∃ x' y' z' zl', displaceSamples D xi (some y) zeta (some zl) = .ok (x', some y', z', some zl') ∧
      IsTen x' (fun (_ : Fin 1) i k => X i k + moved (Regular D.lam g ∧ Regular D.lam gl) D.lam g i k) ∧
      IsTen y' (fun (_ : Fin 1) i k => labelTo D.cost (Regular D.lam g ∧ Regular D.lam gl) D.lam gl i k (Y i k)) ∧
      IsTen z' (fun j i k => Z j i k + moved (Regular D.lam g ∧ Regular D.lam gl) D.lam g i k) ∧
      IsTen zl' (fun j i k => labelTo D.cost (Regular D.lam g ∧ Regular D.lam gl) D.lam gl i k (W j i k)) := by
  have hb := invalid_iff hm hd D.lam ht
  have hbl := invalid_iff hm he D.lam htl
  have hT := map_toReal_is D.lam ht
  have hTl := map_toReal_is D.lam htl
  have finTen : ∀ {N : ℕ} {t : Tensor ℝ} {A : Fin N → Fin m → Fin e → ℝ}, IsTen t A →
      IsTen (t.map XNum.fin) (fun j i k => XNum.fin (A j i k)) := by
    intro N t A h
    exact ⟨h.1, fun j i k => by simp [Tensor.map, h.2 j i k]⟩
  by_cases hr : Regular D.lam g ∧ Regular D.lam gl
  · have hv : checkTensorInvalid (normalizeVects (10 ^ 10) D.lam tg) = false := by
      simpa using mt hb.1 (not_not.2 hr.1)
    have hvl : checkTensorInvalid (normalizeVects (10 ^ 10) D.lam tgl) = false := by
      simpa using mt hbl.1 (not_not.2 hr.2)
    obtain ⟨x', hx1, hx2⟩ := halfStep_right (isTen_unsqueeze hx) hT
    obtain ⟨z', hz1, hz2⟩ := halfStep_right hz hT
    cases hkind : D.cost.kind with
    | normCost =>
      have key : ∀ a i k, labelTo D.cost (Regular D.lam g ∧ Regular D.lam gl) D.lam gl i k a = XNum.fin a := by
        intro a i k; simp [labelTo, hkind]
      refine ⟨x', y.unsqueeze0.map XNum.fin, z', zl.map XNum.fin, ?_, ?_, ?_, ?_, ?_⟩
      · simp [displaceSamples, optimalDisplacement, maybeUnsqueeze, hg, hv, hvl, labelsInvalid, solveMaxSeriesExp, hsq,
          hx1, hz1, hkind]
      · simpa only [moved, if_pos hr, rawDisp_regular hr.1] using hx2
      · simpa only [key] using finTen (isTen_unsqueeze hy)
      · simpa only [moved, if_pos hr, rawDisp_regular hr.1] using hz2
      · simpa only [key] using finTen hw
    | normLabelCost =>
      obtain ⟨y', hy1, hy2⟩ := labelStep_right D.cost.kappa (isTen_unsqueeze hy) hTl
      obtain ⟨zl', hw1, hw2⟩ := labelStep_right D.cost.kappa hw hTl
      have key : ∀ a i k, labelStep D.cost.kappa a (rawDisp D.lam (gl i) k).toReal =
          labelTo D.cost (Regular D.lam g ∧ Regular D.lam gl) D.lam gl i k a := by
        intro a i k
        have : (rawDisp D.lam (gl i) k).toReal = 2 * shift D.lam (gl i) k := by
          have := rawDisp_regular hr.2 i k; linarith
        simp [labelTo, hr, hkind, this]
      refine ⟨x', y', z', zl', ?_, ?_, ?_, ?_, ?_⟩
      · simp [displaceSamples, optimalDisplacement, maybeUnsqueeze, hg, hv, hvl, labelsInvalid, solveMaxSeriesExp, hsq,
          hx1, hz1, hkind, hy1, hw1]
      · simpa only [moved, if_pos hr, rawDisp_regular hr.1] using hx2
      · simpa only [key] using hy2
      · simpa only [moved, if_pos hr, rawDisp_regular hr.1] using hz2
      · simpa only [key] using hw2
  · have hv : (checkTensorInvalid (normalizeVects (10 ^ 10) D.lam tg) ||
        checkTensorInvalid (normalizeVects (10 ^ 10) D.lam tgl)) = true := by
      rw [Bool.or_eq_true, hb, hbl]; tauto
    have hl : ∀ i k a, labelTo D.cost (Regular D.lam g ∧ Regular D.lam gl) D.lam gl i k a = .fin a := by
      intro i k a; simp [labelTo, hr]
    refine ⟨xi.unsqueeze0, y.unsqueeze0.map XNum.fin, zeta, zl.map XNum.fin, ?_, ?_, ?_, ?_, ?_⟩
    · simp only [displaceSamples, optimalDisplacement, maybeUnsqueeze, Option.map_some, hg, labelsInvalid, hv, if_true]
    · simpa only [moved, if_neg hr, add_zero] using isTen_unsqueeze hx
    · simpa only [hl] using finTen (isTen_unsqueeze hy)
    · simpa only [moved, if_neg hr, add_zero] using hz
    · simpa only [hl] using finTen hw

theorem labelTo_weight {c : CostR} (hc : GoodCost c) (hk : labelWeight c ≠ some 0) (ok : Prop) (lam : ℝ)
    (gl : Fin m → Fin e → ℝ) (i : Fin m) (k : Fin e) (a : ℝ) :
    labelTo c ok lam gl i k a = .fin (a + movedLabel c ok lam gl i k) := by
  by_cases hok : ok
  · cases hkind : c.kind with
    | normCost => simp [labelTo, hkind, movedLabel, labelWeight]
    | normLabelCost =>
      rcases hc.weight hkind with ⟨q, hq0, hq⟩ | hq
      · have hne : q ≠ 0 := by
          rintro rfl
          exact hk (by simp [labelWeight, hkind, hq])
        have e : 2 * shift lam (gl i) k / 2 / q = shift lam (gl i) k / q := by ring
        simp only [labelTo, hok, hkind, and_self, if_true, hq, labelStep_fin hne, movedLabel, labelWeight, moved, e]
      · simp [labelTo, hok, hkind, hq, labelStep, movedLabel, labelWeight]
  · have : movedLabel c ok lam gl i k = 0 := by
      unfold movedLabel; split <;> simp [moved, hok]
    rw [this]; simp [labelTo, hok]

end Skwdro

namespace Skwdro
open Spec Tensor
variable {d : ℕ}

theorem norm2_sq (v : Fin d → ℝ) : norm2 v ^ 2 = ∑ k, v k ^ 2 := by
  have h0 : 0 ≤ ∑ k, |v k| ^ (2 : ℝ) := Finset.sum_nonneg fun i _ => Real.rpow_nonneg (abs_nonneg _) _
  simp only [norm2, pnorm]
  rw [← Real.rpow_natCast, ← Real.rpow_mul h0]
  norm_num

theorem norm2_nonneg (v : Fin d → ℝ) : 0 ≤ norm2 v := pnorm_nonneg _ _

theorem norm2_mul (a : ℝ) (v : Fin d → ℝ) : norm2 (fun k => a * v k) = |a| * norm2 v := by
  have h1 := norm2_nonneg (fun k => a * v k)
  have h2 : 0 ≤ |a| * norm2 v := mul_nonneg (abs_nonneg _) (norm2_nonneg v)
  rw [← abs_of_nonneg h1, ← abs_of_nonneg h2, ← sq_eq_sq_iff_abs_eq_abs, norm2_sq, mul_pow, norm2_sq, sq_abs, Finset.mul_sum]
  simp [mul_pow]

theorem norm2_eq_zero (v : Fin d → ℝ) : norm2 v = 0 ↔ ∀ k, v k = 0 := pnorm_eq_zero two_order v

theorem norm2_shift {lam : ℝ} (hl : 0 < lam) {g : Fin d → ℝ} (hg : norm2 g ≠ 0) :
    norm2 (shift lam g) = min (10 ^ 10) (norm2 g) / (2 * lam) := by
  have hn := norm2_nonneg g
  have hp : 0 < norm2 g := lt_of_le_of_ne hn (Ne.symm hg)
  have e : shift lam g = fun k => (min (10 ^ 10) (norm2 g) / (2 * lam) / norm2 g) * g k := by
    funext k; unfold shift; ring
  rw [e, norm2_mul, abs_of_nonneg (by positivity)]
  field_simp

theorem squared_of {c : CostR} (h1 : c.p = .fin 2) (h2 : c.power = 2) : isSquaredEuclid c = true := by
  simp [isSquaredEuclid, h1, h2, XNum.eqLit]

end Skwdro

namespace Skwdro
open Spec Tensor
variable {G : Type} (ext : TorchExt G) {n m d : ℕ}

/-! ## Log-densities -/

theorem zipWith_mat {α β γ : Type} [Inhabited α] [Inhabited β] {f : α → β → γ} {a : Tensor α} {b : Tensor β}
    {A : Fin n → Fin m → Fin d → α} {B : Fin m → Fin d → β} (ha : IsTen a A) (hb : IsMat b B) :
    ∃ c, Tensor.zipWith f a b = .ok c ∧ IsTen c (fun j i k => f (A j i k) (B i k)) := by
  refine ⟨⟨[n, m, d], fun i => f (a.get (proj a.shape i)) (b.get (proj b.shape i))⟩, ?_, rfl, fun j i k => ?_⟩
  · have := bcastShape_suffix' [m, d] [n]
    simp only [List.cons_append, List.nil_append] at this
    simp [Tensor.zipWith, ha.1, hb.1, this]
  · have h2 : InShape [i.1, k.1] [m, d] := List.Forall₂.cons i.2 (List.Forall₂.cons k.2 .nil)
    have h3 : InShape [j.1, i.1, k.1] [n, m, d] := List.Forall₂.cons j.2 h2
    have e := proj_suffix h2 [j.1]
    simp only [List.cons_append, List.nil_append] at e
    simp only [ha.1, hb.1, proj_self h3, e, ha.2 j i k, hb.2 i k]

theorem xsum_fin (l : List ℝ) : xsum (l.map XNum.fin) = .fin l.sum := by
  induction l with
  | nil => rfl
  | cons a l ih =>
    simp only [xsum, List.map_cons, List.foldr_cons, List.sum_cons] at *
    rw [ih]; rfl

/-- log-density of the noise at a vector -/
noncomputable def rowLP (l : Dist) (v : Fin d → ℝ) : ℝ :=
  match l with
  | .normal _ s => ∑ k, normalLP (scaleVal s) (v k)
  | .laplace _ s => ∑ k, laplaceLP (scaleVal s) (v k)
  | .mvn _ cov => ext.mvnLogDensity (ext.tril cov) (List.ofFn v)
  | _ => 0

theorem lastRow_ten {α : Type} [Inhabited α] {t : Tensor α} {A : Fin n → Fin m → Fin d → α} (h : IsTen t A) (j : Fin n)
    (i : Fin m) : t.lastRow [j.1, i.1] = List.ofFn (A j i) := by
  have h' : Is t ([n, m] ++ [d]) (ix3 A) := h.is
  rw [h'.lastRow (List.Forall₂.cons j.2 (List.Forall₂.cons i.2 .nil))]
  rw [List.ofFn_eq_map, ← List.map_coe_finRange_eq_range, List.map_map]
  refine List.map_congr_left fun k _ => ?_
  simp [ix3_apply]

theorem sumLast_fin {t : Tensor (XNum ℝ)} {A : Fin n → Fin m → Fin d → ℝ} (h : IsTen t (fun j i k => .fin (A j i k))) :
    IsTen (t.reduceLast xsum) (fun j i (_ : Fin 1) => .fin (∑ k, A j i k)) := by
  have e : t.reduceLast xsum = ⟨[n, m, 1], fun i => xsum (t.lastRow i.dropLast)⟩ := by
    unfold Tensor.reduceLast; rw [h.1]; simp
  rw [e]
  refine ⟨rfl, fun j i k => ?_⟩
  simp only [List.dropLast_cons_cons, List.dropLast_singleton]
  rw [lastRow_ten h j i]
  have : List.ofFn (fun k => XNum.fin (A j i k)) = (List.ofFn (A j i)).map XNum.fin := by
    rw [List.map_ofFn]; rfl
  rw [this, xsum_fin, List.sum_ofFn]

theorem format_is {l : Dist} (hl : HasDensity l) {z : Tensor ℝ} {X : Fin m → Fin d → ℝ} {Z : Fin n → Fin m → Fin d → ℝ}
    (hc : IsMat l.mean X) (hz : IsTen z Z) :
    ∃ t, formatLogprobs ext l z = .ok t ∧
      IsTen t (fun j i (_ : Fin 1) => .fin (rowLP ext l (fun k => Z j i k - X i k))) := by
  cases l with
  | normal loc s =>
    obtain ⟨t, ht, hT⟩ := zipWith_mat (f := fun v m => XNum.fin (normalLP (scaleVal s) (v - m))) hz hc
    simp only [Dist.mean] at ht
    refine ⟨t.reduceLast xsum, ?_, sumLast_fin hT⟩
    simp [formatLogprobs, Dist.logProb, ht, dim, hT.1]
  | laplace loc s =>
    obtain ⟨t, ht, hT⟩ := zipWith_mat (f := fun v m => XNum.fin (laplaceLP (scaleVal s) (v - m))) hz hc
    simp only [Dist.mean] at ht
    refine ⟨t.reduceLast xsum, ?_, sumLast_fin hT⟩
    simp [formatLogprobs, Dist.logProb, ht, dim, hT.1]
  | mvn loc cov =>
    obtain ⟨t, ht, hT⟩ := zipWith_mat (f := fun v m : ℝ => v - m) hz hc
    simp only [Dist.mean] at ht
    refine ⟨⟨[n, m, 1], fun i => XNum.fin (ext.mvnLogDensity (ext.tril cov) (t.lastRow i.dropLast))⟩, ?_, rfl,
      fun j i k => ?_⟩
    · simp [formatLogprobs, Dist.logProb, ht, dim, hT.1, Tensor.unsqueezeLast]
    · simp only [List.dropLast_cons_cons, List.dropLast_singleton, rowLP]
      rw [lastRow_ten hT j i]
  | dirac _ _ => exact hl.elim
  | flip _ _ => exact hl.elim

theorem exp_normalLP {s : ℝ} (hs : 0 < s) (c z : ℝ) :
    Real.exp (normalLP s (z - c)) = ProbabilityTheory.gaussianPDFReal c (s.toNNReal ^ 2) z := by
  have hpi : 0 < Real.sqrt (2 * Real.pi) := Real.sqrt_pos.2 (by positivity)
  unfold normalLP ProbabilityTheory.gaussianPDFReal
  rw [Real.exp_sub, Real.exp_sub, Real.exp_log hs, Real.exp_log hpi]
  have e : ((s.toNNReal ^ 2 : NNReal) : ℝ) = s ^ 2 := by simp [hs.le]
  rw [e, Real.sqrt_mul (by positivity : (0 : ℝ) ≤ 2 * Real.pi) (s ^ 2), Real.sqrt_sq hs.le]
  field_simp

theorem exp_laplaceLP {s : ℝ} (hs : 0 < s) (c z : ℝ) :
    Real.exp (laplaceLP s (z - c)) = 1 / (2 * s) * Real.exp (-|z - c| / s) := by
  unfold laplaceLP
  rw [sub_eq_add_neg, Real.exp_add, Real.exp_neg, Real.exp_log (by positivity), one_div, neg_div]

theorem exp_rowLP {l : Dist} (hl : HasDensity l) (c z : Fin d → ℝ) :
    Real.exp (rowLP ext l (fun k => z k - c k)) = densityAt ext l c z := by
  cases l with
  | normal loc s =>
    obtain ⟨x, hx, rfl⟩ := hl
    simp only [rowLP, densityAt, normalDensity, Real.exp_sum, scaleVal, exp_normalLP hx]
  | laplace loc s =>
    obtain ⟨x, hx, rfl⟩ := hl
    simp only [rowLP, densityAt, laplaceDensity, Real.exp_sum, scaleVal, exp_laplaceLP hx]
  | mvn loc cov => simp only [rowLP, densityAt]
  | dirac _ _ => exact hl.elim
  | flip _ _ => exact hl.elim

/-- the correction of an unlabelled sampler -/
theorem correction_is {s : Sampler} (hs : s.labels_s = none) (hl : HasDensity s.data_s) {x' z : Tensor ℝ}
    {X X' : Fin m → Fin d → ℝ} {Z : Fin n → Fin m → Fin d → ℝ} (hc : IsMat s.data_s.mean X)
    (hx : IsTen x' (fun (_ : Fin 1) => X')) (hz : IsTen z Z) :
    ∃ a b t, s.logProb ext z none = .ok a ∧ s.logProbRecentered ext x' none z none = .ok b ∧
      Tensor.zipWith XNum.sub a b = .ok t ∧ IsTen t (fun j i (_ : Fin 1) => .fin
        (rowLP ext s.data_s (fun k => Z j i k - X i k) - rowLP ext s.data_s (fun k => Z j i k - X' i k))) := by
  obtain ⟨a, ha, hA⟩ := format_is ext hl hc hz
  obtain ⟨u, hu, hU⟩ := Is.zipWith_right (f := fun p q : ℝ => p - q) hz.is hx.is
  have hU' : IsTen u (fun j i k => Z j i k - X' i k) := by
    refine ⟨hU.1, fun j i k => ?_⟩
    have e := hU.2 [j.1, i.1, k.1] (List.Forall₂.cons j.2 (List.Forall₂.cons i.2 (List.Forall₂.cons k.2 .nil)))
    simp only [List.tail_cons] at e
    rw [e, ix3_apply]
    have := ix3_apply (fun (_ : Fin 1) => X') 0 i k
    simp only [Fin.val_zero] at this
    rw [this]
  obtain ⟨w, hw, hW⟩ := zipWith_mat (f := fun p q : ℝ => p + q) hU' hc
  obtain ⟨b, hb, hB⟩ := format_is ext hl hc hW
  obtain ⟨t, ht, hT⟩ := Is.zipWith_same (f := XNum.sub) hA.is hB.is
  refine ⟨a, b, t, ?_, ?_, ht, ?_⟩
  · simp [Sampler.logProb, hs, ha]
  · simp [Sampler.logProbRecentered, hs, hu, hw, hb]
  · refine ⟨hT.1, fun j i k => ?_⟩
    have e := hT.2 [j.1, i.1, k.1] (List.Forall₂.cons j.2 (List.Forall₂.cons i.2 (List.Forall₂.cons k.2 .nil)))
    rw [e]
    simp only [ix3_apply, XNum.sub, XNum.neg, XNum.add, sub_eq_add_neg, add_neg_cancel_right]


end Skwdro
