import Verif.Lemmas.Tensor
import Verif.Model.WrappedLoss
import Verif.Spec.Losses

/-! # C22–C25: wrapped losses (`/repo/skwdro/base/losses_torch/wrapper.py`, `base_loss.py`) -/

namespace Skwdro
open Spec Tensor

theorem regularize_is (w : WLoss) {t : Tensor ℝ} {s : List ℕ} {f : List ℕ → ℝ} (h : Is t s f) :
    Is (w.regularize t) s (fun i => f i + ridge w.l2reg w.theta) := by
  unfold WLoss.regularize WLoss.l2attr ridge
  cases hw : w.l2reg with
  | none => simpa using h
  | some r =>
    by_cases hr : r ≤ 0
    · simpa [hr] using h
    · simp only [hr, if_false]
      refine (h.map).congr fun i _ => ?_
      have : (w.theta.map fun x => x * x).sum = (w.theta.map fun x => x ^ 2).sum := by
        congr 1; apply List.map_congr_left; intros; ring
      rw [this]; ring

theorem reduceFlat_mean (w : WLoss) (hr : w.reduceSpatial = true) {t : Tensor ℝ} {N s : ℕ} (hs : 0 < s)
    {A : Fin N → Fin s → ℝ} (h : IsMat t A) :
    Is (w.reduceFlat (w.regularize t)) [N, 1]
      (ix2 (fun (r : Fin N) (_ : Fin 1) => avg (A r) + ridge w.l2reg w.theta)) := by
  have h1 := (regularize_is w h.is).reduceLast (s := [N]) (d := s) (f := listMean)
  have e : w.reduceFlat (w.regularize t) = (w.regularize t).reduceLast listMean := by
    simp [WLoss.reduceFlat, hr, meanLast]
  rw [e]
  refine h1.congr fun i hi => ?_
  rcases hi with _ | ⟨hi1, hi⟩
  rcases hi with _ | ⟨hi2, hi⟩
  cases hi
  rename_i r c
  have hc : c = 0 := by omega
  subst hc
  have e2 := ix2_apply (fun (r : Fin N) (_ : Fin 1) => avg (A r) + ridge w.l2reg w.theta) ⟨r, hi1⟩ 0
  simp only [Fin.val_zero] at e2
  rw [e2]
  have hs' : (s : ℝ) ≠ 0 := by positivity
  simp only [List.dropLast, listMean, List.length_map, List.length_range, avg]
  rw [sum_range_fin, Finset.sum_add_distrib]
  have e3 : ∀ k : Fin s, ix2 A ([r] ++ [k.1]) = A ⟨r, hi1⟩ k := fun k => ix2_apply A ⟨r, hi1⟩ k
  simp only [e3, Finset.sum_const, Finset.card_univ, Fintype.card_fin, nsmul_eq_mul]
  field_simp

theorem reduceFlat_flat (w : WLoss) (hr : w.reduceSpatial = false) {t : Tensor ℝ} {N : ℕ}
    {A : Fin N → ℝ} (h : IsVec t A) :
    Is (w.reduceFlat (w.regularize t)) [N, 1]
      (ix2 (fun (r : Fin N) (_ : Fin 1) => A r + ridge w.l2reg w.theta)) := by
  have h1 := (regularize_is w h.is).unsqueezeLast
  have e : w.reduceFlat (w.regularize t) = (w.regularize t).unsqueezeLast := by simp [WLoss.reduceFlat, hr]
  rw [e]
  refine h1.congr fun i hi => ?_
  rcases hi with _ | ⟨hi1, hi⟩
  rcases hi with _ | ⟨hi2, hi⟩
  cases hi
  rename_i r c
  have hc : c = 0 := by omega
  subst hc
  have e2 := ix2_apply (fun (r : Fin N) (_ : Fin 1) => A r + ridge w.l2reg w.theta) ⟨r, hi1⟩ 0
  simp only [Fin.val_zero] at e2
  rw [e2]
  have := ix1_apply A ⟨r, hi1⟩
  simpa [List.dropLast] using this

theorem view_rows {t : Tensor ℝ} {b : List ℕ} {F : Fin b.prod → ℝ}
    (h : Is t [b.prod, 1] (ix2 (fun r (_ : Fin 1) => F r))) (V : List ℕ → ℝ)
    (hV : ∀ i, InShape i b → ∀ hr : ravel b i < b.prod, F ⟨ravel b i, hr⟩ = V i) :
    Returns (t.view (b ++ [1])) (fun t => HasRows t b (fun i (_ : Fin 1) => V i)) := by
  obtain ⟨u, hu, hI⟩ := h.view_col
  refine ⟨u, hu, HasRows.of_is hI fun i hi k => ?_⟩
  have hr := ravel_lt hi
  have := ix2_apply (fun r (_ : Fin 1) => F r) ⟨ravel b i, hr⟩ 0
  simp only [Fin.val_zero] at this
  simp only [List.dropLast_concat, this, hV i hi hr]

/-- **C22** A labelled wrapped loss evaluated on a batch of shape `b` (at least two batch dimensions) of inputs and labels
returns the loss of each point with its own label: nothing is mixed by flattening.  (`reduce_spatial_dims=True`.) -/
theorem C22_pointwise_labels (w : WLoss) (hl : w.hasLabels = true) (hr : w.reduceSpatial = true) {d k s : ℕ}
    (hs : 0 < s) {ell : (Fin d → ℝ) → (Fin k → ℝ) → Fin s → ℝ} (hf : RowWise w.flat ell)
    {b : List ℕ} (hb : 2 ≤ b.length) {xi y : Tensor ℝ} {X : List ℕ → Fin d → ℝ} {Y : List ℕ → Fin k → ℝ}
    (hx : HasRows xi b X) (hy : HasRows y b Y) :
    Returns (w.value xi (some y))
      (fun t => HasRows t b (fun i (_ : Fin 1) => avg (ell (X i) (Y i)) + ridge w.l2reg w.theta)) := by
  obtain ⟨t, ht, hI⟩ := hf _ _ _ _ _ hx.flatten hy.flatten
  have h2 := view_rows (b := b) (F := fun r => avg (ell (X (unravel b r)) (Y (unravel b r))) + ridge w.l2reg w.theta)
    (reduceFlat_mean w hr hs hI) (fun i => avg (ell (X i) (Y i)) + ridge w.l2reg w.theta)
    (fun i hi hr => by simp only [unravel_ravel hi])
  have hd : 2 < xi.dim := by simp [Tensor.dim, hx.1]; omega
  have hd' : 2 < y.dim := by simp [Tensor.dim, hy.1]; omega
  simpa [WLoss.value, hl, hd, hd', WLoss.flatValue, ht, hx.1] using h2

/-- **C22** Same when the labels are passed already flattened: label row `r` goes with the `r`-th input in row-major
order. -/
theorem C22_pointwise_flat_labels (w : WLoss) (hl : w.hasLabels = true) (hr : w.reduceSpatial = true) {d k s : ℕ}
    (hs : 0 < s) {ell : (Fin d → ℝ) → (Fin k → ℝ) → Fin s → ℝ} (hf : RowWise w.flat ell)
    {b : List ℕ} (hb : 2 ≤ b.length) {xi y : Tensor ℝ} {X : List ℕ → Fin d → ℝ} {Y : Fin b.prod → Fin k → ℝ}
    (hx : HasRows xi b X) (hy : IsMat y Y) :
    Returns (w.value xi (some y)) (fun t => t.shape = b ++ [1] ∧ ∀ i, InShape i b → ∀ h : ravel b i < b.prod,
      t.get (i ++ [0]) = avg (ell (X i) (Y ⟨ravel b i, h⟩)) + ridge w.l2reg w.theta) := by
  obtain ⟨t, ht, hI⟩ := hf _ _ _ _ _ hx.flatten hy
  have h2 := view_rows (b := b) (F := fun r => avg (ell (X (unravel b r)) (Y r)) + ridge w.l2reg w.theta)
    (reduceFlat_mean w hr hs hI)
    (fun i => if h : ravel b i < b.prod then avg (ell (X i) (Y ⟨ravel b i, h⟩)) + ridge w.l2reg w.theta else 0)
    (fun i hi hr => by simp only [unravel_ravel hi, hr, dif_pos])
  have hd : 2 < xi.dim := by simp [Tensor.dim, hx.1]; omega
  have hd' : y.dim = 2 := by simp [Tensor.dim, hy.1]
  obtain ⟨u, hu, hU⟩ := h2
  refine ⟨u, ?_, hU.1, fun i hi h => ?_⟩
  · simpa [WLoss.value, hl, hd, hd', WLoss.flatValue, ht, hx.1] using hu
  · have := hU.2 i hi 0
    simpa [h] using this

/-- **C22** Without labels. -/
theorem C22_pointwise_nolabels (w : WLoss) (hl : w.hasLabels = false) (hr : w.reduceSpatial = true) {d s : ℕ}
    (hs : 0 < s) {ell : (Fin d → ℝ) → Fin s → ℝ} (hf : RowWise0 w.flat ell)
    {b : List ℕ} (hb : 2 ≤ b.length) {xi : Tensor ℝ} {X : List ℕ → Fin d → ℝ} (hx : HasRows xi b X) :
    Returns (w.value xi none)
      (fun t => HasRows t b (fun i (_ : Fin 1) => avg (ell (X i)) + ridge w.l2reg w.theta)) := by
  obtain ⟨t, ht, hI⟩ := hf _ _ _ hx.flatten
  have h2 := view_rows (b := b) (F := fun r => avg (ell (X (unravel b r))) + ridge w.l2reg w.theta)
    (reduceFlat_mean w hr hs hI) (fun i => avg (ell (X i)) + ridge w.l2reg w.theta)
    (fun i hi hr => by simp only [unravel_ravel hi])
  have hd : 2 < xi.dim := by simp [Tensor.dim, hx.1]; omega
  simpa [WLoss.value, hl, hd, WLoss.flatValue, ht, hx.1] using h2

/-- **C22** With `reduce_spatial_dims=False` and a loss that already returns one number per row. -/
theorem C22_pointwise_unreduced (w : WLoss) (hl : w.hasLabels = true) (hr : w.reduceSpatial = false) {d k : ℕ}
    {ell : (Fin d → ℝ) → (Fin k → ℝ) → ℝ} (hf : RowWiseFlat w.flat ell)
    {b : List ℕ} (hb : 2 ≤ b.length) {xi y : Tensor ℝ} {X : List ℕ → Fin d → ℝ} {Y : List ℕ → Fin k → ℝ}
    (hx : HasRows xi b X) (hy : HasRows y b Y) :
    Returns (w.value xi (some y))
      (fun t => HasRows t b (fun i (_ : Fin 1) => ell (X i) (Y i) + ridge w.l2reg w.theta)) := by
  obtain ⟨t, ht, hI⟩ := hf _ _ _ _ _ hx.flatten hy.flatten
  have h2 := view_rows (b := b) (F := fun r => ell (X (unravel b r)) (Y (unravel b r)) + ridge w.l2reg w.theta)
    (reduceFlat_flat w hr hI) (fun i => ell (X i) (Y i) + ridge w.l2reg w.theta)
    (fun i hi hr => by simp only [unravel_ravel hi])
  have hd : 2 < xi.dim := by simp [Tensor.dim, hx.1]; omega
  have hd' : 2 < y.dim := by simp [Tensor.dim, hy.1]; omega
  simpa [WLoss.value, hl, hd, hd', WLoss.flatValue, ht, hx.1] using h2

/-- **C22** The same without labels. -/
theorem C22_pointwise_unreduced_nolabels (w : WLoss) (hl : w.hasLabels = false) (hr : w.reduceSpatial = false) {d : ℕ}
    {ell : (Fin d → ℝ) → ℝ} (hf : RowWiseFlat0 w.flat ell) {b : List ℕ} (hb : 2 ≤ b.length) {xi : Tensor ℝ}
    {X : List ℕ → Fin d → ℝ} (hx : HasRows xi b X) :
    Returns (w.value xi none) (fun t => HasRows t b (fun i (_ : Fin 1) => ell (X i) + ridge w.l2reg w.theta)) := by
  obtain ⟨t, ht, hI⟩ := hf _ _ _ hx.flatten
  have h2 := view_rows (b := b) (F := fun r => ell (X (unravel b r)) + ridge w.l2reg w.theta)
    (reduceFlat_flat w hr hI) (fun i => ell (X i) + ridge w.l2reg w.theta)
    (fun i hi hr => by simp only [unravel_ravel hi])
  have hd : 2 < xi.dim := by simp [Tensor.dim, hx.1]; omega
  simpa [WLoss.value, hl, hd, WLoss.flatValue, ht, hx.1] using h2

/-- squared error with one output, on flat tensors: the user loss used in the examples below -/
noncomputable def sqErr (x : Tensor ℝ) (y : Option (Tensor ℝ)) : Except PyErr (Tensor ℝ) :=
  match y with
  | some y => Tensor.zipWith (fun a b => (a - b) ^ 2) x y
  | none => .error .typeError

theorem sqErr_rowWise {d : ℕ} : RowWise (d := d) (k := d) sqErr (fun x y c => (x c - y c) ^ 2) := by
  intro N x y X Y hx hy
  obtain ⟨t, ht, hI⟩ := Is.zipWith_same (f := fun a b => (a - b) ^ 2) hx.is hy.is
  refine ⟨t, ht, ?_⟩
  have := isMat_iff.1 hI
  simpa only [ix2_apply] using this

/-- a user loss without labels and one without spatial reduction -/
noncomputable def sqNorm (x : Tensor ℝ) (_ : Option (Tensor ℝ)) : Except PyErr (Tensor ℝ) := .ok (x.map (· ^ 2))

theorem sqNorm_rowWise0 {d : ℕ} : RowWise0 (d := d) sqNorm (fun x c => x c ^ 2) := by
  intro N x X hx
  exact ⟨_, rfl, hx.1, fun i k => by simp only [Tensor.map, hx.2]⟩

noncomputable def sqFlat (x : Tensor ℝ) (_ : Option (Tensor ℝ)) : Except PyErr (Tensor ℝ) := .ok ⟨x.shape.dropLast, fun i => x.get (i ++ [0]) ^ 2⟩

theorem sqFlat_rowWise {k : ℕ} : RowWiseFlat (d := 1) (k := k) sqFlat (fun x _ => x 0 ^ 2) := by
  intro N x y X Y hx hy
  exact ⟨_, rfl, by simp [hx.1], fun i => by have := hx.2 i 0; simp only [List.cons_append, List.nil_append]; rw [← this]; rfl⟩

theorem sqFlat_rowWise0 : RowWiseFlat0 (d := 1) sqFlat (fun x => x 0 ^ 2) := by
  intro N x X hx
  exact ⟨_, rfl, by simp [hx.1], fun i => by have := hx.2 i 0; simp only [List.cons_append, List.nil_append]; rw [← this]; rfl⟩

/-- non-vacuity of C22: squared error on a (2,3,1) batch -/
example (X Y : Fin 2 → Fin 3 → Fin 1 → ℝ) :
    ∃ t, (WLoss.mk true true sqErr none []).value (ten X) (some (ten Y)) = .ok t ∧ t.shape = [2, 3, 1] := by
  have hX : HasRows (ten X) [2, 3] (fun i k => (ten X).get (i ++ [k.1])) := ⟨rfl, fun _ _ _ => rfl⟩
  have hY : HasRows (ten Y) [2, 3] (fun i k => (ten Y).get (i ++ [k.1])) := ⟨rfl, fun _ _ _ => rfl⟩
  obtain ⟨t, ht, h1, -⟩ := C22_pointwise_labels (WLoss.mk true true sqErr none []) rfl rfl (by norm_num)
    sqErr_rowWise (b := [2, 3]) (by simp) hX hY
  exact ⟨t, ht, h1⟩

/-! ## C23 -/

/-- **C23 is false**: on a flat labelled batch `(m,d)`, `(m,k)` the value returned is a single number (the average),
not one loss per sample, as soon as the user loss returns `(m,1)`.  Witness: squared error, two samples. -/
theorem C23_flat_batch_false :
    ∃ (w : WLoss) (xi y : Tensor ℝ), w.hasLabels = true ∧ w.reduceSpatial = true ∧
      RowWise (d := 1) (k := 1) w.flat (fun x y c => (x c - y c) ^ 2) ∧ xi.shape = [2, 1] ∧ y.shape = [2, 1] ∧
      ∃ t, w.value xi (some y) = .ok t ∧ t.shape = [1] := by
  refine ⟨⟨true, true, sqErr, none, []⟩, mat (fun _ _ => 0), mat (fun _ _ => 0), rfl, rfl, sqErr_rowWise, rfl, rfl, ?_⟩
  refine ⟨_, by simp [WLoss.value, Tensor.dim, mat, WLoss.flatValue, sqErr, Tensor.zipWith, bcastShape, bcastRev]; rfl, ?_⟩
  simp [WLoss.reduceFlat, meanLast, reduceLast, Tensor.squeeze, WLoss.regularize, WLoss.l2attr]

theorem squeeze_noop {t : Tensor ℝ} {s : List ℕ} {f : List ℕ → ℝ} (h : Is t s f) (h1 : ∀ n ∈ s, n ≠ 1) :
    Is t.squeeze s f := by
  have hr : ∀ (s i : List ℕ), (∀ n ∈ s, n ≠ 1) → InShape i s → reinsert s i = i := by
    intro s i h1 hi
    induction hi with
    | nil => rfl
    | cons h hi ih =>
      simp only [reinsert, h1 _ List.mem_cons_self, if_false, List.headD_cons, List.tail_cons,
        ih (fun n hn => h1 n (List.mem_cons_of_mem _ hn))]
  refine ⟨?_, fun i hi => ?_⟩
  · simp only [Tensor.squeeze, h.1]
    exact List.filter_eq_self.2 (fun n hn => by simpa using h1 n hn)
  · simp only [Tensor.squeeze, h.1, hr s i h1 hi, h.2 i hi]

/-- **C23** (partial: full statement fails, see `C23_flat_batch_false`) One loss per sample is returned when the batch
has at least two samples and the user loss returns at least two numbers per sample. -/
theorem C23_flat_batch_partial (w : WLoss) (hl : w.hasLabels = true) (hr : w.reduceSpatial = true) {d k s m : ℕ}
    (hs : 2 ≤ s) (hm : 2 ≤ m) {ell : (Fin d → ℝ) → (Fin k → ℝ) → Fin s → ℝ} (hf : RowWise w.flat ell)
    {xi y : Tensor ℝ} {X : Fin m → Fin d → ℝ} {Y : Fin m → Fin k → ℝ} (hx : IsMat xi X) (hy : IsMat y Y) :
    Returns (w.value xi (some y))
      (fun t => IsMat t (fun i (_ : Fin 1) => avg (ell (X i) (Y i)) + ridge w.l2reg w.theta)) := by
  obtain ⟨t, ht, hI⟩ := hf _ _ _ _ _ hx hy
  have h1 := squeeze_noop (regularize_is w hI.is) (by intro n hn; simp at hn; omega)
  have hd : xi.dim = 2 := by simp [Tensor.dim, hx.1]
  have hd' : y.dim = 2 := by simp [Tensor.dim, hy.1]
  refine ⟨w.reduceFlat (w.regularize t).squeeze, by simp [WLoss.value, hl, hd, hd', WLoss.flatValue, ht], ?_⟩
  have h2 : IsMat (w.regularize t) (fun (i : Fin m) (c : Fin s) => ell (X i) (Y i) c + ridge w.l2reg w.theta) := by
    have := isMat_iff.1 (regularize_is w hI.is); simpa using this
  have h3 := reduceFlat_mean ⟨w.hasLabels, w.reduceSpatial, w.flat, none, []⟩ hr (show 0 < s by omega)
    (t := (w.regularize t).squeeze)
    (A := fun (i : Fin m) (c : Fin s) => ell (X i) (Y i) c + ridge w.l2reg w.theta)
    (by have := isMat_iff.1 h1; simpa using this)
  have h4 : WLoss.reduceFlat ⟨w.hasLabels, w.reduceSpatial, w.flat, none, []⟩
      (WLoss.regularize ⟨w.hasLabels, w.reduceSpatial, w.flat, none, []⟩ (w.regularize t).squeeze) =
      w.reduceFlat (w.regularize t).squeeze := by
    simp [WLoss.reduceFlat, WLoss.regularize, WLoss.l2attr]
  rw [h4] at h3
  have h5 := isMat_iff.1 h3
  have hs' : (s : ℝ) ≠ 0 := by positivity
  refine ⟨h5.1, fun i c => ?_⟩
  rw [h5.2 i c]
  simp only [ix2_apply]
  have hz : ridge none [] = 0 := rfl
  simp only [avg, Finset.sum_add_distrib, Finset.sum_const, Finset.card_univ, Fintype.card_fin, nsmul_eq_mul, hz,
    add_zero]
  generalize ridge w.l2reg w.theta = R
  field_simp

/-! ## C24 -/

/-- **C24** A labelled wrapped loss without labels, or an unlabelled one with labels, fails with an assertion error on
every input. -/
theorem C24_label_contract (w : WLoss) (xi y : Tensor ℝ) :
    (w.hasLabels = true → w.value xi none = .error .assertionError) ∧
    (w.hasLabels = false → w.value xi (some y) = .error .assertionError) := by
  constructor <;> intro h <;> simp [WLoss.value, h]

/-! ## C25 -/

/-- **C25** Per-sample losses grow by exactly half the weight times the squared norm of the parameters; with no weight
or a weight `<= 0` nothing changes. -/
theorem C25_ridge_per_sample (w : WLoss) (hl : w.hasLabels = true) (hr : w.reduceSpatial = true) {d k s : ℕ}
    (hs : 0 < s) {ell : (Fin d → ℝ) → (Fin k → ℝ) → Fin s → ℝ} (hf : RowWise w.flat ell)
    {b : List ℕ} (hb : 2 ≤ b.length) {xi y : Tensor ℝ} {X : List ℕ → Fin d → ℝ} {Y : List ℕ → Fin k → ℝ}
    (hx : HasRows xi b X) (hy : HasRows y b Y) :
    ∃ t t0, w.value xi (some y) = .ok t ∧ { w with l2reg := none }.value xi (some y) = .ok t0 ∧
      t.shape = t0.shape ∧ ∀ i, InShape i b → t.get (i ++ [0]) = t0.get (i ++ [0]) +
        (match w.l2reg with
          | some r => if 0 < r then r / 2 * (w.theta.map (fun x => x ^ 2)).sum else 0
          | none => 0) := by
  obtain ⟨t, ht, h1⟩ := C22_pointwise_labels w hl hr hs hf hb hx hy
  obtain ⟨t0, ht0, h2⟩ := C22_pointwise_labels { w with l2reg := none } hl hr hs hf hb hx hy
  refine ⟨t, t0, ht, ht0, by rw [h1.1, h2.1], fun i hi => ?_⟩
  have e1 := h1.2 i hi 0
  have e2 := h2.2 i hi 0
  simp only [Fin.val_zero] at e1 e2
  rw [e1, e2]
  cases hw : w.l2reg with
  | none => simp [ridge]
  | some r =>
    by_cases h0 : r ≤ 0
    · simp [ridge, h0, not_lt.2 h0]
    · simp [ridge, h0, not_le.1 h0]

/-- **C25** The same for a loss without labels. -/
theorem C25_ridge_per_sample_nolabels (w : WLoss) (hl : w.hasLabels = false) (hr : w.reduceSpatial = true) {d s : ℕ}
    (hs : 0 < s) {ell : (Fin d → ℝ) → Fin s → ℝ} (hf : RowWise0 w.flat ell) {b : List ℕ} (hb : 2 ≤ b.length) {xi : Tensor ℝ}
    {X : List ℕ → Fin d → ℝ} (hx : HasRows xi b X) :
    ∃ t t0, w.value xi none = .ok t ∧ { w with l2reg := none }.value xi none = .ok t0 ∧
      t.shape = t0.shape ∧ ∀ i, InShape i b → t.get (i ++ [0]) = t0.get (i ++ [0]) +
        (match w.l2reg with
          | some r => if 0 < r then r / 2 * (w.theta.map (fun x => x ^ 2)).sum else 0
          | none => 0) := by
  obtain ⟨t, ht, h1⟩ := C22_pointwise_nolabels w hl hr hs hf hb hx
  obtain ⟨t0, ht0, h2⟩ := C22_pointwise_nolabels { w with l2reg := none } hl hr hs hf hb hx
  refine ⟨t, t0, ht, ht0, by rw [h1.1, h2.1], fun i hi => ?_⟩
  have e1 := h1.2 i hi 0
  have e2 := h2.2 i hi 0
  simp only [Fin.val_zero] at e1 e2
  rw [e1, e2]
  cases hw : w.l2reg with
  | none => simp [ridge]
  | some r =>
    by_cases h0 : r ≤ 0
    · simp [ridge, h0, not_lt.2 h0]
    · simp [ridge, h0, not_le.1 h0]

/-! Concrete losses meeting the hypotheses of the theorems: squared error on batches of shape (2, 3), with labels of the same shape or flat; squared
norm without labels; squares without reduction; a flat batch of two samples with two outputs. -/

section
variable (l2 : Option ℝ) (theta : List ℝ) (X Y : Fin 2 → Fin 3 → Fin 1 → ℝ)

example := C22_pointwise_labels ⟨true, true, sqErr, l2, theta⟩ rfl rfl one_pos sqErr_rowWise (b := [2, 3]) (xi := ten X) (y := ten Y) le_rfl
  (X := fun i k => (ten X).get (i ++ [k.1])) (Y := fun i k => (ten Y).get (i ++ [k.1])) ⟨rfl, fun _ _ _ => rfl⟩ ⟨rfl, fun _ _ _ => rfl⟩
example (Y : Fin 6 → Fin 1 → ℝ) := C22_pointwise_flat_labels ⟨true, true, sqErr, l2, theta⟩ rfl rfl one_pos sqErr_rowWise (b := [2, 3]) (xi := ten X) (y := mat Y)
  le_rfl (X := fun i k => (ten X).get (i ++ [k.1])) (Y := Y) ⟨rfl, fun _ _ _ => rfl⟩ (isMat_mat Y)
example := C22_pointwise_nolabels ⟨false, true, sqNorm, l2, theta⟩ rfl rfl one_pos sqNorm_rowWise0 (b := [2, 3]) (xi := ten X) le_rfl
  (X := fun i k => (ten X).get (i ++ [k.1])) ⟨rfl, fun _ _ _ => rfl⟩
example := C22_pointwise_unreduced ⟨true, false, sqFlat, l2, theta⟩ rfl rfl sqFlat_rowWise (b := [2, 3]) (xi := ten X) (y := ten Y) le_rfl
  (X := fun i k => (ten X).get (i ++ [k.1])) (Y := fun i k => (ten Y).get (i ++ [k.1])) ⟨rfl, fun _ _ _ => rfl⟩ ⟨rfl, fun _ _ _ => rfl⟩
example := C22_pointwise_unreduced_nolabels ⟨false, false, sqFlat, l2, theta⟩ rfl rfl sqFlat_rowWise0 (b := [2, 3]) (xi := ten X) le_rfl
  (X := fun i k => (ten X).get (i ++ [k.1])) ⟨rfl, fun _ _ _ => rfl⟩
example := C25_ridge_per_sample_nolabels ⟨false, true, sqNorm, some 3, [1, 2]⟩ rfl rfl one_pos sqNorm_rowWise0 (b := [2, 3]) (xi := ten X) le_rfl
  (X := fun i k => (ten X).get (i ++ [k.1])) ⟨rfl, fun _ _ _ => rfl⟩
example (X Y : Fin 2 → Fin 2 → ℝ) := C23_flat_batch_partial ⟨true, true, sqErr, l2, theta⟩ rfl rfl le_rfl le_rfl sqErr_rowWise (isMat_mat X) (isMat_mat Y)
example := C25_ridge_per_sample ⟨true, true, sqErr, some 3, [1, 2]⟩ rfl rfl one_pos sqErr_rowWise (b := [2, 3]) (xi := ten X) (y := ten Y) le_rfl
  (X := fun i k => (ten X).get (i ++ [k.1])) (Y := fun i k => (ten Y).get (i ++ [k.1])) ⟨rfl, fun _ _ _ => rfl⟩ ⟨rfl, fun _ _ _ => rfl⟩

end

end Skwdro
