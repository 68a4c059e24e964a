import Verif.Lemmas.Dual
import Verif.Props.Costs
import Verif.Props.WrappedLoss

/-! From a concrete setting (wrapped labelled model, ground cost) to `Plain`. -/

namespace Skwdro
open Spec Tensor

theorem isTen_unsqueeze {m d : ℕ} {x : Tensor ℝ} {X : Fin m → Fin d → ℝ} (h : IsMat x X) :
    IsTen x.unsqueeze0 (fun (_ : Fin 1) i k => X i k) := by
  have := isTen_iff.1 (h.is.unsqueeze0 (s := [m, d]))
  simpa only [List.tail_cons, ix2_apply] using this

/-- batch evaluation of a ground cost is pointwise evaluation -/
theorem cost_batch {c : CostR} (hc : GoodCost c) {n m d k : ℕ} {x z y y' : Tensor ℝ} {X : Fin m → Fin d → ℝ}
    {Z : Fin n → Fin m → Fin d → ℝ} {Y : Fin m → Fin k → ℝ} {W : Fin n → Fin m → Fin k → ℝ} (hx : IsMat x X)
    (hz : IsTen z Z) (hy : IsMat y Y) (hw : IsTen y' W) :
    Returns (c.value x.unsqueeze0 z (some y.unsqueeze0) (some y'))
      (fun t => IsTen t (fun j i (_ : Fin 1) => costAt c (X i) (Z j i) (Y i) (W j i))) := by
  have hx' := isTen_unsqueeze hx
  have hy' := isTen_unsqueeze hy
  cases hk : c.kind with
  | normCost =>
    obtain ⟨t, ht, hT⟩ := C04_formula c hk hc.order hx' hz (some y.unsqueeze0) (some y')
    refine ⟨t, ht, ?_⟩
    simpa only [C04_point_formula c hk hc.order] using hT
  | normLabelCost =>
    rcases hc.weight hk with ⟨κ, h0, hκ⟩ | hκ
    · have hf := fun x z y y' => (C05_point_formula c hk hc.order (d := d) (k := k) x z y y').1 κ h0 hκ
      rcases h0.eq_or_lt with h | h
      · obtain ⟨t, ht, hI⟩ := penalty_batch hc.order hx' hz
        refine ⟨t.map (· ^ c.power), ?_, ?_⟩
        · simp [CostR.value, hk, normLabelCostValue, hκ, ← h, ht]
        · have := isTen_iff.1 (hI.map (f := (· ^ c.power)))
          simp only [ix3_apply] at this
          simp only [hf, ← h]
          simpa using this
      · obtain ⟨t, ht, hT⟩ := C05_formula c hk hc.order h hκ hx' hz hy' hw
        refine ⟨t, ht, ?_⟩
        simpa only [hf] using hT
    · have hf := fun x z y y' => (C05_point_formula c hk hc.order (d := d) (k := k) x z y y').2 hκ
      obtain ⟨t, ht, hI⟩ := penalty_batch hc.order hy' hw
      refine ⟨t.map (· ^ c.power), ?_, ?_⟩
      · simp [CostR.value, hk, normLabelCostValue, hκ, ht]
      · have := isTen_iff.1 (hI.map (f := (· ^ c.power)))
        simp only [ix3_apply] at this
        simpa only [hf] using this

theorem hasRows_of_isTen {n m d : ℕ} {t : Tensor ℝ} {Z : Fin n → Fin m → Fin d → ℝ} (h : IsTen t Z) :
    HasRows t [n, m] (ix2 Z) := by
  refine ⟨h.1, fun i hi k => ?_⟩
  rcases hi with _ | ⟨h1, hi⟩
  rcases hi with _ | ⟨h2, hi⟩
  cases hi
  rename_i a b
  have := ix2_apply Z ⟨a, h1⟩ ⟨b, h2⟩
  simp only at this
  rw [this]
  exact h.2 ⟨a, h1⟩ ⟨b, h2⟩ k

theorem isTen_of_hasRows {n m d : ℕ} {t : Tensor ℝ} {X : List ℕ → Fin d → ℝ} (h : HasRows t [n, m] X) :
    IsTen t (fun (j : Fin n) (i : Fin m) k => X [j, i] k) :=
  ⟨h.1, fun j i k => h.2 [j, i] (List.Forall₂.cons j.2 (List.Forall₂.cons i.2 List.Forall₂.nil)) k⟩

/-- batch evaluation of a wrapped labelled loss is pointwise evaluation -/
theorem wrapped_batch {w : WLoss} (hl : w.hasLabels = true) (hr : w.reduceSpatial = true) {n m d k s : ℕ} (hs : 0 < s)
    {ell : (Fin d → ℝ) → (Fin k → ℝ) → Fin s → ℝ} (hf : RowWise w.flat ell) {z y : Tensor ℝ}
    {Z : Fin n → Fin m → Fin d → ℝ} {W : Fin n → Fin m → Fin k → ℝ} (hz : IsTen z Z) (hw : IsTen y W) :
    Returns (w.value z (some y)) (fun t => IsTen t (fun j i (_ : Fin 1) => lossAt w ell (Z j i) (W j i))) := by
  obtain ⟨t, ht, hT⟩ := C22_pointwise_labels w hl hr hs hf (b := [n, m]) (by simp) (hasRows_of_isTen hz)
    (hasRows_of_isTen hw)
  refine ⟨t, ht, ?_⟩
  have := isTen_of_hasRows hT
  simpa only [ix2_apply, lossAt] using this

theorem plain_of_labelled {n m d k s : ℕ} {w : WLoss} {D : DualLoss} {ell : (Fin d → ℝ) → (Fin k → ℝ) → Fin s → ℝ}
    {rho : ℝ} (h : Labelled w D ell rho) (hn : 0 < n) (hm : 0 < m) {x z y y' : Tensor ℝ} {X : Fin m → Fin d → ℝ}
    {Z : Fin n → Fin m → Fin d → ℝ} {Y : Fin m → Fin k → ℝ} {W : Fin n → Fin m → Fin k → ℝ} (hx : IsMat x X)
    (hz : IsTen z Z) (hy : IsMat y Y) (hw : IsTen y' W) :
    Plain D x (some y) z (some y') rho (fun j i => lossAt w ell (Z j i) (W j i))
      (fun j i => costAt D.cost (X i) (Z j i) (Y i) (W j i)) where
  rho_eq := h.rho_eq
  rho_pos := h.rho_pos
  eps_pos := h.eps_pos
  erm := h.erm
  imp := h.imp
  n_pos := hn
  m_pos := hm
  samples := by simp [size0, hz.1]
  loss := by rw [h.primal]; exact wrapped_batch h.hasLabels h.reduceSpatial h.s_pos h.rows hz hw
  cost := cost_batch h.cost hx hz hy hw

end Skwdro
