import Verif.Lemmas.WrapProblem
import Verif.Spec.InitialDual
import Verif.Lemmas.ImpSamp
import Mathlib.Analysis.InnerProductSpace.PiL2
import Mathlib.Analysis.MeanInequalities

/-! # C41: initial dual multiplier -/

namespace Skwdro
open Spec Tensor

section
variable {m d : ℕ}

theorem toList_row {t : Tensor ℝ} {f : Fin m → ℝ} (h : IsTen t (fun (_ : Fin 1) i (_ : Fin 1) => f i)) :
    t.toList.sum = ∑ i, f i := by
  simp only [toList, h.1, indices]
  simp only [List.range_one, List.flatMap_cons, List.map_cons, List.map_nil, List.flatMap_nil, List.append_nil]
  have : List.flatMap (fun i => [[i, 0]]) (List.range m) = (List.range m).map (fun i => [i, 0]) := by
    exact List.flatMap_pure_eq_map _ _
  rw [this, List.map_map, List.map_map, sum_range_fin]
  refine Finset.sum_congr rfl fun i _ => ?_
  simpa using h.2 0 i 0

theorem lam0_is {t : Tensor ℝ} {f : Fin m → ℝ} (h : IsTen t (fun (_ : Fin 1) i (_ : Fin 1) => f i)) {p : ℝ} (hp : p ≠ 1)
    (r : ℝ) : lam0 p r t = (∑ i, (f i * r) ^ (p / (p - 1) - 1)) ^ (1 / (p / (p - 1))) / (p * r) := by
  have h2 : IsTen (t.map (fun x => (x * r) ^ (p / (p - 1) - 1)))
      (fun (_ : Fin 1) i (_ : Fin 1) => (f i * r) ^ (p / (p - 1) - 1)) := by
    refine ⟨h.1, fun j i k => ?_⟩
    simp only [Tensor.map, h.2 j i k]
  simp only [lam0, if_neg hp, Tensor.sum, toList_row h2]

theorem inner_le (u v : Fin d → ℝ) : ∑ k, u k * v k ≤ norm2 u * norm2 v := by
  refine le_trans (le_abs_self _) (abs_le_of_sq_le_sq ?_ (mul_nonneg (norm2_nonneg _) (norm2_nonneg _)))
  rw [mul_pow, norm2_sq, norm2_sq]
  exact Finset.sum_mul_sq_le_sq_mul_sq _ _ _

theorem inner_self (v : Fin d → ℝ) : ∑ k, v k * v k = norm2 v ^ 2 := by
  rw [norm2_sq]; exact Finset.sum_congr rfl fun k _ => by ring

theorem worstGain_eq {lam p : ℝ} (hl : 0 < lam) (hp : 1 < p) (g : Fin d → ℝ) :
    WorstGain lam p g ((p - 1) * lam * (norm2 g / (lam * p)) ^ (p / (p - 1))) := by
  have hp0 : 0 < p := by linarith
  have hp1 : 0 < p - 1 := by linarith
  set q := p / (p - 1) with hq
  have hc : p.HolderConjugate q := (Real.holderConjugate_iff_eq_conjExponent hp).2 hq
  set u := norm2 g / (lam * p) with hu
  have hu0 : 0 ≤ u := div_nonneg (norm2_nonneg _) (by positivity)
  have hG : norm2 g = lam * p * u := by rw [hu]; field_simp
  constructor
  · rintro x ⟨δ, rfl⟩
    have h1 := inner_le g δ
    have h2 := Real.young_inequality_of_nonneg (norm2_nonneg δ) hu0 hc
    have h3 : (p - 1) * lam * u ^ q = lam * p * (u ^ q / q) := by rw [hq]; field_simp
    have h4 : lam * norm2 δ ^ p = lam * p * (norm2 δ ^ p / p) := by field_simp
    rw [h3, h4]
    have h5 := mul_le_mul_of_nonneg_left h2 (show 0 ≤ lam * p by positivity)
    rw [hG] at h1
    nlinarith [h1, h5]
  · intro b hb
    rcases eq_or_ne (norm2 g) 0 with h0 | h0
    · have : u = 0 := by rw [hu, h0]; simp
      rw [this, Real.zero_rpow hc.symm.pos.ne', mul_zero]
      refine hb ⟨fun _ => 0, ?_⟩
      have : norm2 (fun _ : Fin d => (0 : ℝ)) = 0 := (norm2_eq_zero _).2 fun _ => rfl
      rw [this, Real.zero_rpow hp0.ne']; simp
    · have hg0 : 0 < norm2 g := lt_of_le_of_ne (norm2_nonneg _) (Ne.symm h0)
      have hu1 : 0 < u := by rw [hu]; positivity
      refine hb ⟨fun k => u ^ (q - 1) / norm2 g * g k, ?_⟩
      have e1 : ∑ k, g k * (u ^ (q - 1) / norm2 g * g k) = u ^ (q - 1) * norm2 g := by
        have : ∀ k, g k * (u ^ (q - 1) / norm2 g * g k) = u ^ (q - 1) / norm2 g * (g k * g k) := fun k => by ring
        simp only [this, ← Finset.mul_sum, inner_self]
        field_simp
      have e2 : norm2 (fun k => u ^ (q - 1) / norm2 g * g k) = u ^ (q - 1) := by
        rw [norm2_mul, abs_of_nonneg (by positivity)]; field_simp
      have e3 : (u ^ (q - 1)) ^ p = u ^ q := by
        rw [← Real.rpow_mul hu0]
        congr 1
        rw [hq]; field_simp; ring
      have e4 : u ^ (q - 1) * u = u ^ q := by
        rw [Real.rpow_sub_one hu1.ne']; field_simp
      rw [e1, e2, e3, hG, ← e4]; ring

theorem lam0_pos_formula {p rho : ℝ} (hp : 1 < p) (hr : 0 < rho) (hm : 0 < m) {t : Tensor ℝ} {G : Fin m → ℝ}
    (hG : ∀ i, 0 ≤ G i) (h : IsTen t (fun (_ : Fin 1) i (_ : Fin 1) => G i ^ p)) :
    lam0 p (m * rho ^ p) t = (avg (fun i => G i ^ (p / (p - 1))) / rho ^ p) ^ (1 / (p / (p - 1))) / p := by
  have hp0 : 0 < p := by linarith
  have hp1 : 0 < p - 1 := by linarith
  rw [lam0_is h hp.ne']
  set q := p / (p - 1) with hq
  have hq0 : 0 < q := by positivity
  have hR : 0 < rho ^ p := Real.rpow_pos_of_pos hr p
  have hm' : (0 : ℝ) < m := by exact_mod_cast hm
  set R := rho ^ p
  have e1 : ∀ i, (G i ^ p * (m * R)) ^ (q - 1) = G i ^ q * (m * R) ^ (q - 1) := fun i => by
    rw [Real.mul_rpow (Real.rpow_nonneg (hG i) _) (by positivity), ← Real.rpow_mul (hG i)]
    congr 2
    rw [hq]; field_simp; ring
  simp only [e1, ← Finset.sum_mul]
  set S := ∑ i, G i ^ q
  have hS : 0 ≤ S := Finset.sum_nonneg fun i _ => Real.rpow_nonneg (hG i) _
  have e2 : (m * R : ℝ) = ((m * R) ^ q) ^ (1 / q) := by
    rw [← Real.rpow_mul (by positivity)]; field_simp; simp
  have e3 : (S * (m * R) ^ (q - 1)) ^ (1 / q) / (m * R) = (S / m / R) ^ (1 / q) := by
    have : (S * (m * R) ^ (q - 1)) ^ (1 / q) / (m * R) = (S * (m * R) ^ (q - 1)) ^ (1 / q) / ((m * R) ^ q) ^ (1 / q) := by
      rw [← e2]
    rw [this, ← Real.div_rpow (by positivity) (by positivity), Real.rpow_sub_one (by positivity)]
    congr 1
    have : (m * R : ℝ) ^ q ≠ 0 := by positivity
    field_simp
  rw [mul_comm p, ← div_div, e3]
  rfl

theorem grad_norms {D : DualLoss} {xi : Tensor ℝ} {xl : Option (Tensor ℝ)} {rho : ℝ} {g : Fin m → Fin d → ℝ}
    (h : InitSetting D xi xl rho g) :
    ∃ t, initialGuess D xi xl = .ok { D with lam := lam0 D.cost.power (m * rho ^ D.cost.power) t } ∧
      IsTen t (fun (_ : Fin 1) i (_ : Fin 1) => norm2 (g i) ^ D.cost.power) := by
  obtain ⟨tg, tgl, hg, hT⟩ := h.grads
  have hz : IsTen (zerosLike tg) (fun (_ : Fin 1) (_ : Fin m) (_ : Fin d) => (0 : ℝ)) := ⟨hT.1, fun _ _ _ => rfl⟩
  obtain ⟨t, ht, hI⟩ := C04_formula D.cost h.kind (h.order ▸ two_order) hT hz tgl (tgl.map zerosLike)
  refine ⟨t, ?_, ?_⟩
  · have e : initialGuess D xi xl = (do
        let norms ← D.cost.value tg (zerosLike tg) tgl (tgl.map zerosLike)
        .ok { D with lam := lam0 D.cost.power (xi.size0 * rho ^ D.cost.power) norms }) := by
      simp only [initialGuess, h.rho_eq, if_pos h.rho_pos, hg]
    rw [e, ht, ok_bind, h.data]
  · simp only [sub_zero, h.order] at hI
    exact hI

/-- **C41** (value) For an input cost `|.|^p` with Euclidean norm and power `p > 1`, the initial multiplier is
`(mean |grad|^q / rho^p)^(1/q) / p`, `q` the conjugate exponent of `p`. -/
theorem C41_value {D : DualLoss} {xi : Tensor ℝ} {xl : Option (Tensor ℝ)} {rho : ℝ} {g : Fin m → Fin d → ℝ}
    (h : InitSetting D xi xl rho g) {p q : ℝ} (hp : 1 < p) (hpw : D.cost.power = p) (hq : q = p / (p - 1)) :
    initialGuess D xi xl = .ok { D with lam := (avg (fun i => norm2 (g i) ^ q) / rho ^ p) ^ (1 / q) / p } := by
  obtain ⟨t, ht, hT⟩ := grad_norms h
  rw [ht]
  rw [hpw] at hT ⊢
  rw [lam0_pos_formula hp h.rho_pos h.m_pos (fun i => norm2_nonneg _) hT, hq]

/-- **C41** (squared Euclidean cost) The initial multiplier is `sqrt(mean |grad|^2) / (2 rho)`. -/
theorem C41_squared {D : DualLoss} {xi : Tensor ℝ} {xl : Option (Tensor ℝ)} {rho : ℝ} {g : Fin m → Fin d → ℝ}
    (h : InitSetting D xi xl rho g) (hpw : D.cost.power = 2) :
    initialGuess D xi xl = .ok { D with lam := Real.sqrt (avg (fun i => ∑ k, g i k ^ 2)) / (2 * rho) } := by
  rw [C41_value h (p := 2) (q := 2) (by norm_num) hpw (by norm_num)]
  have hr := h.rho_pos
  have e : ∀ i, norm2 (g i) ^ (2 : ℝ) = ∑ k, g i k ^ 2 := fun i => by rw [← norm2_sq]; norm_cast
  simp only [e]
  rw [← Real.sqrt_eq_rpow, Real.sqrt_div' _ (by positivity)]
  have : Real.sqrt (rho ^ (2 : ℝ)) = rho := by
    rw [show rho ^ (2 : ℝ) = rho ^ 2 by norm_cast, Real.sqrt_sq hr.le]
  rw [this, div_div, mul_comm rho]

/-- **C41** (power one) The initial multiplier is `1 / (m rho)`, whatever the gradients (any cost that evaluates). -/
theorem C41_power_one {D : DualLoss} {xi : Tensor ℝ} {xl : Option (Tensor ℝ)} {rho : ℝ} {g : Fin m → Fin d → ℝ}
    (h : InitSetting D xi xl rho g) (hpw : D.cost.power = 1) :
    initialGuess D xi xl = .ok { D with lam := 1 / (m * rho) } := by
  obtain ⟨t, ht, -⟩ := grad_norms h
  rw [ht, hpw]
  simp [lam0]

/-- **C41** (no ball) For `rho <= 0`, or a NaN radius, the initial multiplier is 0. -/
theorem C41_no_ball (D : DualLoss) (xi : Tensor ℝ) (xl : Option (Tensor ℝ))
    (h : D.rho = .nan ∨ ∃ r ≤ 0, D.rho = .num r) : initialGuess D xi xl = .ok { D with lam := 0 } := by
  rcases h with h | ⟨r, h0, h⟩
  · simp only [initialGuess, h]
  · simp only [initialGuess, h, if_neg (not_lt.2 h0)]

/-- **C41** (new loss) The multiplier of a loss made by `robustify` is `1e-3 / rho` for a positive radius and 0 otherwise. -/
theorem C41_constructed {G : Type} {ext : TorchExt G} {a : DualizeArgs} {g g' : G} {D : DualLoss} (h : dualize ext a g = .ok (D, g')) :
    (∀ r, a.rho = .num r → 0 < r → D.lam = 1 / (1000 * r)) ∧ (∀ r, a.rho = .num r → r ≤ 0 → D.lam = 0) ∧ (a.rho = .nan → D.lam = 0) := by
  obtain ⟨parsed, obj, c, s, -, -, -, -, rfl⟩ := dualize_ok h
  refine ⟨fun r hr h0 => ?_, fun r hr h0 => ?_, fun hr => ?_⟩ <;> simp only [dualOf, initialLam, hr]
  · rw [if_pos h0, div_div]
  · rw [if_neg (not_lt.2 h0)]

theorem vnorm_nonneg (p : XNum ℝ) (v : List ℝ) : 0 ≤ vnorm p v := by
  have hf : ∀ l : List ℝ, 0 ≤ l.foldr max 0 := by
    intro l
    induction l with
    | nil => exact le_refl _
    | cons a l ih => exact le_max_of_le_right ih
  cases p with
  | fin q =>
    simp only [vnorm]
    split
    · positivity
    · refine Real.rpow_nonneg (List.sum_nonneg fun x hx => ?_) _
      obtain ⟨y, -, rfl⟩ := List.mem_map.1 hx
      exact Real.rpow_nonneg (abs_nonneg _) _
  | pinf => exact hf _
  | nan => exact le_refl _
  | ninf => exact le_refl _

theorem penalty_nonneg {p : XNum ℝ} {a b t : Tensor ℝ} (h : penalty p a b = .ok t) (i : List ℕ) : 0 ≤ t.get i := by
  unfold penalty at h
  cases hz : Tensor.zipWith (· - ·) a b with
  | error e => rw [hz] at h; simp at h
  | ok c =>
    rw [hz, ok_bind] at h
    injection h with h
    subst h
    unfold Tensor.reduceLast
    split <;> exact vnorm_nonneg _ _

theorem value_nonneg {c : CostR} (hk : c.kind = .normLabelCost → ∀ k, c.kappa = .fin k → 0 ≤ k) {a b t : Tensor ℝ}
    {al bl : Option (Tensor ℝ)} (h : c.value a b al bl = .ok t) (i : List ℕ) : 0 ≤ t.get i := by
  have hpow : ∀ {p : XNum ℝ} {x y t : Tensor ℝ}, (do let d ← penalty p x y; .ok (d.map (· ^ c.power)) :
      Except PyErr (Tensor ℝ)) = .ok t → 0 ≤ t.get i := by
    intro p x y t h
    cases hz : penalty p x y with
    | error e => rw [hz] at h; simp at h
    | ok u =>
      rw [hz, ok_bind] at h
      injection h with h
      subst h
      exact Real.rpow_nonneg (penalty_nonneg hz i) _
  cases hc : c.kind with
  | normCost =>
    simp only [CostR.value, hc, normCostValue] at h
    exact hpow h
  | normLabelCost =>
    simp only [CostR.value, hc, normLabelCostValue] at h
    split at h
    · split at h
      · exact hpow h
      · next k hk' =>
        split at h
        · exact hpow h
        · have h0 := hk hc k hk'
          rename_i _ _ yl zl _ _
          cases h1 : penalty c.p a b with
          | error e => rw [h1] at h; simp at h
          | ok u =>
            cases h2 : penalty c.p yl zl with
            | error e => rw [h1, h2] at h; simp at h
            | ok w =>
              rw [h1, h2, ok_bind, ok_bind] at h
              unfold Tensor.zipWith at h
              split at h
              · rw [ok_bind] at h
                injection h with h
                subst h
                refine Real.rpow_nonneg (div_nonneg (add_nonneg (penalty_nonneg h1 _) (mul_nonneg h0 (penalty_nonneg h2 _)))
                  (by linarith)) _
              · simp at h
      · simp at h
    · simp at h

/-- **C41** (sign) For every cost of the library with positive power on which the gradients can be evaluated, the initial
multiplier is non-negative, and nothing but the multiplier changes. -/
theorem C41_nonneg (D D' : DualLoss) (xi : Tensor ℝ) (xl : Option (Tensor ℝ)) (hp : 0 < D.cost.power)
    (hk : D.cost.kind = .normLabelCost → ∀ k, D.cost.kappa = .fin k → 0 ≤ k)
    (h : initialGuess D xi xl = .ok D') : 0 ≤ D'.lam ∧ D' = { D with lam := D'.lam } := by
  have hpos : ∀ (c r : ℝ) (n : ℕ) (t : Tensor ℝ), 0 < c → 0 < r →
      (∀ i, 0 ≤ t.get i) → 0 ≤ lam0 c (n * r ^ c) t := by
    intro c r n t hc hr ht
    have hR : 0 ≤ n * r ^ c := by positivity
    unfold lam0
    split
    · positivity
    · refine div_nonneg (Real.rpow_nonneg ?_ _) (by positivity)
      simp only [Tensor.sum]
      refine List.sum_nonneg fun x hx => ?_
      simp only [toList, Tensor.map, List.mem_map] at hx
      obtain ⟨i, hi, rfl⟩ := hx
      exact Real.rpow_nonneg (mul_nonneg (ht _) hR) _
  unfold initialGuess at h
  split at h
  · injection h with h; subst h; exact ⟨le_refl _, rfl⟩
  · next rho hrho =>
    split at h
    · next hr =>
      simp only at h
      cases hv : D.cost.value (D.grads xi.unsqueeze0 (maybeUnsqueeze xl)).1
        (zerosLike (D.grads xi.unsqueeze0 (maybeUnsqueeze xl)).1) (D.grads xi.unsqueeze0 (maybeUnsqueeze xl)).2
        ((D.grads xi.unsqueeze0 (maybeUnsqueeze xl)).2.map zerosLike) with
      | error e => rw [hv] at h; simp at h
      | ok t =>
        rw [hv, ok_bind] at h
        injection h with h
        subst h
        exact ⟨hpos _ _ _ _ hp hr (value_nonneg hk hv), rfl⟩
    · injection h with h; subst h; exact ⟨le_refl _, rfl⟩

theorem rpow_tangent {t a : ℝ} (ht : 0 < t) (ha : a ≤ 0) : 1 + a * (t - 1) ≤ t ^ a := by
  have h1 : Real.log t ≤ t - 1 := Real.log_le_sub_one_of_pos ht
  have h2 : a * Real.log t + 1 ≤ Real.exp (a * Real.log t) := Real.add_one_le_exp _
  rw [Real.rpow_def_of_pos ht, mul_comm (Real.log t)]
  nlinarith

/-- **C41** (optimality) For an input cost `|.|^p` with Euclidean norm and power `p > 1`, the initial multiplier minimises
the linearised robust objective `lam * rho^p + mean_i sup_δ (<grad_i, δ> - lam |δ|^p)` over all `lam >= 0` at which it is
finite; and it is finite there. -/
theorem C41_optimal {D : DualLoss} {xi : Tensor ℝ} {xl : Option (Tensor ℝ)} {rho : ℝ} {g : Fin m → Fin d → ℝ}
    (h : InitSetting D xi xl rho g) (hp : 1 < D.cost.power) :
    ∃ D', initialGuess D xi xl = .ok D' ∧ ∃ v0 : Fin m → ℝ, (∀ i, WorstGain D'.lam D.cost.power (g i) (v0 i)) ∧
      ∀ lam, 0 ≤ lam → ∀ v : Fin m → ℝ, (∀ i, WorstGain lam D.cost.power (g i) (v i)) →
        D'.lam * rho ^ D.cost.power + avg v0 ≤ lam * rho ^ D.cost.power + avg v := by
  refine ⟨_, C41_value h hp rfl rfl, ?_⟩
  generalize D.cost.power = p at hp
  have hp0 : 0 < p := by linarith
  have hp1 : 0 < p - 1 := by linarith
  have hm : (0 : ℝ) < m := by exact_mod_cast h.m_pos
  have hR : 0 < rho ^ p := Real.rpow_pos_of_pos h.rho_pos p
  generalize rho ^ p = R at hR
  have hq0 : 0 < p / (p - 1) := by positivity
  obtain ⟨q, hq⟩ : ∃ q, q = p / (p - 1) := ⟨_, rfl⟩
  rw [← hq] at hq0
  simp only [← hq]
  obtain ⟨M, hM⟩ : ∃ M, M = avg (fun i => norm2 (g i) ^ q) := ⟨_, rfl⟩
  rw [← hM]
  have hterm : ∀ i, 0 ≤ norm2 (g i) ^ q := fun i => Real.rpow_nonneg (norm2_nonneg _) _
  have hM0 : 0 ≤ M := by rw [hM]; exact div_nonneg (Finset.sum_nonneg fun i _ => hterm i) hm.le
  have hgain0 : ∀ (lam : ℝ) i v, WorstGain lam p (g i) v → 0 ≤ v := by
    intro lam i v hv
    refine hv.1 ⟨fun _ => 0, ?_⟩
    have : norm2 (fun _ : Fin d => (0 : ℝ)) = 0 := (norm2_eq_zero _).2 fun _ => rfl
    rw [this, Real.zero_rpow hp0.ne']; simp
  rcases hM0.eq_or_lt with h0 | hMpos
  · -- all gradients vanish
    have hz : ∀ i, norm2 (g i) = 0 := by
      intro i
      have hs : ∑ i, norm2 (g i) ^ q = 0 := by
        rw [← h0, avg, eq_comm, div_eq_zero_iff] at hM
        exact hM.resolve_right hm.ne'
      have := (Finset.sum_eq_zero_iff_of_nonneg fun i _ => hterm i).1 hs i (Finset.mem_univ i)
      exact (Real.rpow_eq_zero (norm2_nonneg _) hq0.ne').1 this
    have hl : (M / R) ^ (1 / q) / p = 0 := by
      rw [← h0, zero_div, Real.zero_rpow (by positivity), zero_div]
    rw [hl]
    refine ⟨fun _ => 0, fun i => ?_, fun lam hlam v hv => ?_⟩
    · have : ∀ k, g i k = 0 := (norm2_eq_zero _).1 (hz i)
      have hset : {x | ∃ δ : Fin d → ℝ, x = ∑ k, g i k * δ k - 0 * norm2 δ ^ p} = {0} := by
        ext x; simp [this]
      rw [WorstGain, hset]
      exact isLUB_singleton
    · have : 0 ≤ avg v := div_nonneg (Finset.sum_nonneg fun i _ => hgain0 _ i _ (hv i)) hm.le
      have e : avg (fun _ : Fin m => (0 : ℝ)) = 0 := by simp [avg]
      rw [e]
      have := mul_nonneg hlam hR.le
      linarith
  · obtain ⟨l0, hl0⟩ : ∃ l0, l0 = (M / R) ^ (1 / q) / p := ⟨_, rfl⟩
    rw [← hl0]
    have hl0p : 0 < l0 := by rw [hl0]; positivity
    have hkey : (l0 * p) ^ q = M / R := by
      have : l0 * p = (M / R) ^ (1 / q) := by rw [hl0]; field_simp
      rw [this, ← Real.rpow_mul (by positivity)]
      rw [one_div, inv_mul_cancel₀ hq0.ne', Real.rpow_one]
    have hsum : ∀ lam, 0 < lam →
        avg (fun i => (p - 1) * lam * (norm2 (g i) / (lam * p)) ^ q) = (p - 1) * lam * (M / (lam * p) ^ q) := by
      intro lam hlam
      have : ∀ i, (norm2 (g i) / (lam * p)) ^ q = norm2 (g i) ^ q / (lam * p) ^ q := fun i =>
        Real.div_rpow (norm2_nonneg _) (by positivity) _
      simp only [this, avg, hM, ← Finset.mul_sum, ← Finset.sum_div]
      ring
    refine ⟨fun i => (p - 1) * l0 * (norm2 (g i) / (l0 * p)) ^ q, fun i => by rw [hq]; exact worstGain_eq hl0p hp _,
      fun lam hlam v hv => ?_⟩
    rcases hlam.eq_or_lt with hz | hlam
    · -- zero multiplier: the gain is unbounded at a point with non-zero gradient
      exfalso
      have : ∃ i, norm2 (g i) ≠ 0 := by
        by_contra hcon
        push Not at hcon
        have : M = 0 := by
          rw [hM, avg]
          simp [hcon, Real.zero_rpow hq0.ne']
        exact hMpos.ne' this
      obtain ⟨i, hi⟩ := this
      have hi2 : 0 < norm2 (g i) ^ 2 := by positivity
      have hb := (hv i).1 ⟨fun k => (v i + 1) / norm2 (g i) ^ 2 * g i k, rfl⟩
      have e1 : ∑ k, g i k * ((v i + 1) / norm2 (g i) ^ 2 * g i k) = v i + 1 := by
        have : ∀ k, g i k * ((v i + 1) / norm2 (g i) ^ 2 * g i k) = (v i + 1) / norm2 (g i) ^ 2 * (g i k * g i k) :=
          fun k => by ring
        simp only [this, ← Finset.mul_sum, inner_self]
        field_simp
      rw [e1, ← hz] at hb
      linarith
    · have hv' : ∀ i, v i = (p - 1) * lam * (norm2 (g i) / (lam * p)) ^ q := fun i =>
        (hv i).unique (by rw [hq]; exact worstGain_eq hlam hp _)
      rw [hsum l0 hl0p, show v = _ from funext hv', hsum lam hlam, hkey]
      obtain ⟨t, ht⟩ : ∃ t, t = lam / l0 := ⟨_, rfl⟩
      have ht0 : 0 < t := by rw [ht]; positivity
      have elam : lam = l0 * t := by rw [ht]; field_simp
      have e2 : (lam * p) ^ q = M / R * t ^ q := by
        rw [elam, show l0 * t * p = l0 * p * t by ring, Real.mul_rpow (by positivity) ht0.le, hkey]
      have e3 : M / (M / R * t ^ q) = R * t ^ (-q) := by
        rw [Real.rpow_neg ht0.le]
        have : t ^ q ≠ 0 := by positivity
        field_simp
      have e4 : M / (M / R) = R := by field_simp
      rw [e2, e3, e4, elam]
      have e5 : t * t ^ (-q) = t ^ (1 - q) := by
        rw [sub_eq_add_neg, Real.rpow_add ht0, Real.rpow_one]
      have h6 := rpow_tangent (a := 1 - q) ht0 (by rw [hq]; rw [sub_nonpos, le_div_iff₀ hp1]; linarith)
      have e7 : (p - 1) * (1 - q) = -1 := by rw [hq]; field_simp; ring
      have h8 : p ≤ t + (p - 1) * t ^ (1 - q) := by
        have := mul_le_mul_of_nonneg_left h6 hp1.le
        nlinarith
      have h9 := mul_le_mul_of_nonneg_left h8 (show 0 ≤ l0 * R by positivity)
      have e10 : l0 * t * R + (p - 1) * (l0 * t) * (R * t ^ (-q)) = l0 * R * (t + (p - 1) * (t * t ^ (-q))) := by ring
      rw [e10, e5]
      calc l0 * R + (p - 1) * l0 * R = l0 * R * p := by ring
        _ ≤ _ := h9

/-- a concrete initialisation: one data point in dimension 1, gradient 3, radius 1 -/
noncomputable def exInit (power : ℝ) : DualLoss where
  primal := fun z _ => .ok z
  grads := fun _ _ => (ten (fun (_ : Fin 1) (_ : Fin 1) (_ : Fin 1) => (3 : ℝ)), none)
  cost := ⟨.normCost, .fin 2, power, .nan⟩
  rho := .num 1
  epsilon := 1
  lam := 5
  reduction := .mean
  ermMode := false
  impSamp := false
  sampler := none
  hasLabels := false
  nSamples := 1

theorem exInit_setting (power : ℝ) :
    InitSetting (exInit power) (mat (fun (_ : Fin 1) (_ : Fin 1) => 7)) none 1 (fun (_ : Fin 1) (_ : Fin 1) => 3) :=
  ⟨one_pos, rfl, one_pos, rfl, rfl, rfl, _, _, rfl, isTen_ten _⟩

/-- non-vacuity of C41: with squared cost, gradient 3 and radius 1 the initial multiplier is `3/2` -/
example : initialGuess (exInit 2) (mat (fun (_ : Fin 1) (_ : Fin 1) => 7)) none = .ok { exInit 2 with lam := 3 / 2 } := by
  rw [C41_squared (exInit_setting 2) rfl]
  have : Real.sqrt (avg (fun _ : Fin 1 => ∑ _k : Fin 1, (3 : ℝ) ^ 2)) = 3 := by
    simp [avg]
  rw [this, mul_one]

/-- non-vacuity of the other statements of C41, for the same loss with other powers -/
example := C41_value (exInit_setting 3) (p := 3) (q := 3 / 2) (by norm_num) rfl (by norm_num)

example := C41_power_one (exInit_setting 1) rfl

example := C41_no_ball { exInit 2 with rho := .num 0 } (mat (fun (_ : Fin 1) (_ : Fin 1) => 7)) none (Or.inr ⟨0, le_rfl, rfl⟩)

example := C41_nonneg (exInit 1) _ _ none one_pos (by simp [exInit]) (C41_power_one (exInit_setting 1) rfl)

example := C41_optimal (exInit_setting 2) (by norm_num [exInit])

end
end Skwdro
