import Verif.Lemmas.WrapProblem
import Verif.Lemmas.Estimators
import Verif.Model.InitialDual
import Verif.Model.Fit

/-! Evaluation of robust losses from shapes alone: which calls return, and with what shape. -/

namespace Skwdro
open Tensor

/-- the call returns a tensor of shape `s` -/
def Sized {α : Type} (r : Except PyErr (Tensor α)) (s : List ℕ) : Prop := ∃ t, r = .ok t ∧ t.shape = s

section basic
variable {α β γ : Type} {a : Tensor α} {b : Tensor β} {n m d : ℕ}

theorem sized_zip {f : α → β → γ} {s : List ℕ} (h : bcastShape a.shape b.shape = some s) : Sized (Tensor.zipWith f a b) s :=
  ⟨⟨s, fun i => f (a.get (proj a.shape i)) (b.get (proj b.shape i))⟩, by unfold Tensor.zipWith; rw [h], rfl⟩

theorem sized_zip_same {f : α → β → γ} {s : List ℕ} (ha : a.shape = s) (hb : b.shape = s) : Sized (Tensor.zipWith f a b) s :=
  sized_zip (by rw [ha, hb]; exact bcastShape_self s)

theorem reduceLast_shape (f : List α → β) {s : List ℕ} {k : ℕ} (h : a.shape = s ++ [k]) : (a.reduceLast f).shape = s ++ [1] := by
  unfold Tensor.reduceLast
  split
  · next h' => rw [h] at h'; simp at h'
  · show a.shape.dropLast ++ [1] = _
    rw [h]; simp

theorem reduceLast_shape3 (f : List α → β) (h : a.shape = [n, m, d]) : (a.reduceLast f).shape = [n, m, 1] :=
  reduceLast_shape f (s := [n, m]) h

theorem reduceLast_shape2 (f : List α → β) (h : a.shape = [n, d]) : (a.reduceLast f).shape = [n, 1] :=
  reduceLast_shape f (s := [n]) h

theorem squeeze0_shape {s : List ℕ} (h : a.shape = 1 :: s) : a.squeeze0.shape = s := by
  obtain ⟨sh, g⟩ := a
  subst h
  rfl

end basic

variable {n m d k : ℕ}

theorem penalty_sized {p : XNum ℝ} {a b : Tensor ℝ} {l : ℕ} (h : bcastShape a.shape b.shape = some [n, m, l]) :
    Sized (penalty p a b) [n, m, 1] := by
  obtain ⟨t, h1, h2⟩ := sized_zip (f := fun x y : ℝ => x - y) h
  exact ⟨_, by rw [penalty, h1, ok_bind], reduceLast_shape3 _ h2⟩

/-- optional tensors of matching shapes -/
def OptShape (t : Option (Tensor ℝ)) (s : List ℕ) : Prop := ∀ x, t = some x → x.shape = s

/-- a cost usable on a problem with or without labels -/
structure CostFits (c : CostR) (labels : Bool) : Prop where
  lab : c.kind = .normLabelCost → labels = true
  weight : c.kind = .normLabelCost → (∃ k, c.kappa = .fin k) ∨ c.kappa = .pinf

theorem cost_sized {c : CostR} {x z : Tensor ℝ} {y zl : Option (Tensor ℝ)} (hc : CostFits c y.isSome) (hl : zl.isSome = y.isSome)
    (hx : bcastShape x.shape z.shape = some [n, m, d])
    (hy : ∀ a b, y = some a → zl = some b → bcastShape a.shape b.shape = some [n, m, k]) : Sized (c.value x z y zl) [n, m, 1] := by
  obtain ⟨dx, hx1, hx2⟩ := penalty_sized (p := c.p) hx
  unfold CostR.value
  cases hk : c.kind with
  | normCost =>
    simp only [normCostValue, hx1, ok_bind]
    exact ⟨_, rfl, hx2⟩
  | normLabelCost =>
    have hyl := hc.lab hk
    obtain ⟨a, rfl⟩ := Option.isSome_iff_exists.1 hyl
    obtain ⟨b, rfl⟩ := Option.isSome_iff_exists.1 (hl.trans hyl)
    obtain ⟨dy, hy1, hy2⟩ := penalty_sized (p := c.p) (hy a b rfl rfl)
    rcases hc.weight hk with ⟨κ, hκ⟩ | hκ
    · simp only [normLabelCostValue, hκ]
      split
      · rw [hx1, ok_bind]
        exact ⟨_, rfl, hx2⟩
      · obtain ⟨e, he1, he2⟩ := sized_zip_same (f := fun p q => p + κ * q) hx2 hy2
        rw [hx1, hy1]
        simp only [ok_bind, he1]
        exact ⟨_, rfl, he2⟩
    · simp only [normLabelCostValue, hκ]
      rw [hy1, ok_bind]
      exact ⟨_, rfl, hy2⟩

/-! ## The pieces of an evaluation -/

/-- a law whose locations have a given shape, for which log-probabilities are available -/
def LawOn (l : Dist) (s : List ℕ) : Prop :=
  match l with
  | .laplace t _ => t.shape = s
  | .normal t _ => t.shape = s
  | .dirac t _ => t.shape = s
  | .mvn t _ => t.shape = s
  | .flip _ _ => False

theorem law_mean {l : Dist} {s : List ℕ} (h : LawOn l s) : l.mean.shape = s := by
  cases l <;> simp_all [LawOn, Dist.mean]

theorem rsample_shape {G : Type} (ext : TorchExt G) {l : Dist} {s : List ℕ} (h : LawOn l s) (g : G) (N : ℕ) :
    (l.rsample ext g N).1.shape = N :: s := by
  cases l <;> simp_all [LawOn, Dist.rsample]

theorem format_low {G : Type} {ext : TorchExt G} {l : Dist} {z : Tensor ℝ} {lp : Tensor (XNum ℝ)} (h : l.logProb ext z = .ok lp)
    (hd : lp.dim ≠ 3) : formatLogprobs ext l z = .ok lp.unsqueezeLast := by
  unfold formatLogprobs
  rw [h, ok_bind, if_neg hd]

/-- a law with a genuine density -/
def IsNoise (l : Dist) : Prop :=
  match l with
  | .dirac _ _ => False
  | _ => True

theorem format_noise {G : Type} (ext : TorchExt G) {l : Dist} (h : LawOn l [m, d]) (hl : IsNoise l) {z : Tensor ℝ} (hz : z.shape = [n, m, d]) :
    Sized (formatLogprobs ext l z) [n, m, 1] := by
  have hb : bcastShape z.shape [m, d] = some [n, m, d] := by
    rw [hz]; exact bcastShape_suffix' [m, d] [n]
  cases l with
  | laplace t s =>
    simp only [LawOn] at h
    obtain ⟨u, hu1, hu2⟩ := sized_zip (a := z) (b := t) (f := fun v m => XNum.fin (laplaceLP (scaleVal s) (v - m))) (by rw [h]; exact hb)
    exact ⟨u.reduceLast xsum, by simp [formatLogprobs, Dist.logProb, hu1, dim, hu2], reduceLast_shape3 _ hu2⟩
  | normal t s =>
    simp only [LawOn] at h
    obtain ⟨u, hu1, hu2⟩ := sized_zip (a := z) (b := t) (f := fun v m => XNum.fin (normalLP (scaleVal s) (v - m))) (by rw [h]; exact hb)
    exact ⟨u.reduceLast xsum, by simp [formatLogprobs, Dist.logProb, hu1, dim, hu2], reduceLast_shape3 _ hu2⟩
  | dirac t N => exact hl.elim
  | mvn t c =>
    simp only [LawOn] at h
    obtain ⟨u, hu1, hu2⟩ := sized_zip (a := z) (b := t) (f := fun v m : ℝ => v - m) (by rw [h]; exact hb)
    have e : (Dist.mvn t c).logProb ext z = .ok ⟨u.shape.dropLast, fun i => XNum.fin (ext.mvnLogDensity (ext.tril c) (u.lastRow i))⟩ := by
      simp only [Dist.logProb, hu1, ok_bind]
    exact ⟨_, format_low e (by simp [dim, hu2]), by simp [Tensor.unsqueezeLast, hu2]⟩
  | flip _ _ => exact h.elim

/-- a log-probability: one number per sample and point, or one number for all -/
theorem format_sized {G : Type} (ext : TorchExt G) {l : Dist} (h : LawOn l [m, d]) {z : Tensor ℝ} (hz : z.shape = [n, m, d]) :
    Sized (formatLogprobs ext l z) [n, m, 1] ∨ Sized (formatLogprobs ext l z) [1] := by
  cases l with
  | dirac t N =>
    simp only [LawOn] at h
    obtain ⟨u, hu1, hu2⟩ := sized_zip (a := z) (b := t) (f := fun v m => |v - m|) (by rw [h, hz]; exact bcastShape_suffix' [m, d] [n])
    have e : (Dist.dirac t N).logProb ext z = .ok (Tensor.scalar (if u.toList.sum = 0 then XNum.fin 0 else XNum.ninf)) := by
      simp only [Dist.logProb, hu1, ok_bind]
    exact Or.inr ⟨_, format_low e (by simp [dim, Tensor.scalar]), rfl⟩
  | _ => exact Or.inl (format_noise ext h trivial hz)

theorem bcast_col (s : List ℕ) : bcastShape (s ++ [1]) [1] = some (s ++ [1]) := bcastShape_suffix' [1] s

/-- a sampler adapted to data of shape `(m, d)` and labels of shape `(m, k)` -/
structure SamplerFits (s : Sampler) (m d k : ℕ) (labels : Bool) : Prop where
  data : LawOn s.data_s [m, d]
  noise : IsNoise s.data_s
  lab : s.labels_s.isSome = labels
  labels : ∀ l, s.labels_s = some l → LawOn l [m, k]

theorem sample_shapes {G : Type} (ext : TorchExt G) {s : Sampler} {labels : Bool} (h : SamplerFits s m d k labels) (g : G) (N : ℕ) :
    (s.sample ext N g).1.shape = [N, m, d] ∧ (s.sample ext N g).2.1.isSome = labels ∧ OptShape (s.sample ext N g).2.1 [N, m, k] := by
  have h1 := rsample_shape ext h.data g N
  unfold Sampler.sample
  cases hl : s.labels_s with
  | none =>
    have := h.lab
    rw [hl] at this
    exact ⟨h1, this, by intro x hx; cases hx⟩
  | some l =>
    have h2 := h.lab
    rw [hl] at h2
    refine ⟨h1, h2, ?_⟩
    intro x hx
    simp only [Option.some.injEq] at hx
    subst hx
    exact rsample_shape ext (h.labels l hl) _ N

theorem logProb_sized {G : Type} (ext : TorchExt G) {s : Sampler} {labels : Bool} (h : SamplerFits s m d k labels) {z : Tensor ℝ}
    {zl : Option (Tensor ℝ)} (hz : z.shape = [n, m, d]) (hl : zl.isSome = labels) (hzl : OptShape zl [n, m, k]) :
    Sized (s.logProb ext z zl) [n, m, 1] := by
  obtain ⟨a, ha1, ha2⟩ := format_noise ext h.data h.noise hz
  have hlab := h.lab
  unfold Sampler.logProb
  cases hs : s.labels_s with
  | none =>
    rw [hs] at hlab
    rw [← hlab] at hl
    have : zl = none := by simpa using hl
    subst this
    exact ⟨a, ha1, ha2⟩
  | some l =>
    rw [hs] at hlab
    rw [← hlab] at hl
    obtain ⟨w, rfl⟩ := Option.isSome_iff_exists.1 hl
    have hfmt := format_sized ext (h.labels l hs) (hzl w rfl)
    rcases hfmt with ⟨b, hb1, hb2⟩ | ⟨b, hb1, hb2⟩
    · obtain ⟨c, hc1, hc2⟩ := sized_zip_same (f := XNum.add) ha2 hb2
      exact ⟨c, by simp only [ha1, hb1, ok_bind, hc1], hc2⟩
    · obtain ⟨c, hc1, hc2⟩ := sized_zip (f := XNum.add) (a := a) (b := b) (by rw [ha2, hb2]; exact bcast_col [n, m])
      exact ⟨c, by simp only [ha1, hb1, ok_bind, hc1], hc2⟩

theorem recentered_sized {G : Type} (ext : TorchExt G) {s : Sampler} {labels : Bool} (h : SamplerFits s m d k labels) {x z : Tensor ℝ}
    {xl zl : Option (Tensor ℝ)} (hx : x.shape = [1, m, d]) (hz : z.shape = [n, m, d]) (hxl : xl.isSome = labels) (hl : zl.isSome = labels)
    (hzl : OptShape zl [n, m, k]) : Sized (s.logProbRecentered ext x xl z zl) [n, m, 1] := by
  have hlab := h.lab
  unfold Sampler.logProbRecentered
  cases hs : s.labels_s with
  | none =>
    rw [hs] at hlab
    rw [← hlab] at hl hxl
    have e1 : zl = none := by simpa using hl
    have e2 : xl = none := by simpa using hxl
    subst e1 e2
    obtain ⟨u, hu1, hu2⟩ := sized_zip (f := fun a b : ℝ => a - b) (a := z) (b := x) (by rw [hz, hx]; exact bcastShape_one_right _ _)
    obtain ⟨v, hv1, hv2⟩ := sized_zip (f := fun a b : ℝ => a + b) (a := u) (b := s.data_s.mean)
      (by rw [hu2, law_mean h.data]; exact bcastShape_suffix' [m, d] [n])
    obtain ⟨a, ha1, ha2⟩ := format_noise ext h.data h.noise hv2
    exact ⟨a, by simp only [hu1, hv1, ok_bind, ha1], ha2⟩
  | some l =>
    rw [hs] at hlab
    rw [← hlab] at hl hxl
    obtain ⟨w, rfl⟩ := Option.isSome_iff_exists.1 hl
    obtain ⟨w', rfl⟩ := Option.isSome_iff_exists.1 hxl
    have := logProb_sized ext h (zl := some w) hz (by rw [← hlab]; rfl) hzl
    simpa only [Sampler.logProb, hs] using this

/-- what an evaluation needs of the loss: values of shape `(n, m, 1)` on batches, gradients of the shapes of the inputs, a usable cost,
and a sampler of the right shapes; importance sampling only for the squared Euclidean cost -/
structure LossFits (D : DualLoss) (m d k : ℕ) (labels : Bool) : Prop where
  value : ∀ N z zl, z.shape = [N, m, d] → zl.isSome = labels → OptShape zl [N, m, k] → Sized (D.primal z zl) [N, m, 1]
  grads : ∀ x xl, x.shape = [1, m, d] → xl.isSome = labels → OptShape xl [1, m, k] → (D.grads x xl).1.shape = [1, m, d] ∧
    (D.grads x xl).2.isSome = labels ∧ OptShape (D.grads x xl).2 [1, m, k]
  cost : CostFits D.cost labels
  reduction : D.reduction = .mean ∨ D.reduction = .sum
  sampler : ∀ s, D.sampler = some s → SamplerFits s m d k labels
  imp : D.impSamp = true → isSquaredEuclid D.cost = true ∧ D.sampler.isSome = true

section eval
variable {D : DualLoss} {labels : Bool} {xi : Tensor ℝ} {y : Option (Tensor ℝ)}

/-- a robust loss is returned, and is a single number -/
def OneNumber (r : Except PyErr DualVal) : Prop := ∃ v x, r = .ok v ∧ v.item = .ok x

theorem one_val {t : Tensor ℝ} (h : t.shape = []) : OneNumber (.ok (.val t)) :=
  ⟨_, .fin (t.get []), rfl, by simp [DualVal.item, Tensor.toList, h, indices]⟩

theorem one_nan : OneNumber (.ok .nan) := ⟨_, .nan, rfl, rfl⟩

theorem reduce_sized {r : Reduction} (hr : r = .mean ∨ r = .sum) {t : Tensor ℝ} (h : t.shape = [m, 1]) : Sized (reduceLossBatch r t) [] := by
  unfold reduceLossBatch
  rw [if_pos (by simp [dim, h])]
  rcases hr with rfl | rfl <;> exact ⟨_, rfl, rfl⟩

theorem maybe_isSome (y : Option (Tensor ℝ)) : (maybeUnsqueeze y).isSome = y.isSome := by cases y <;> rfl

theorem maybe_shape {y : Option (Tensor ℝ)} {s : List ℕ} (h : OptShape y s) : OptShape (maybeUnsqueeze y) (1 :: s) := by
  intro x hx
  cases y with
  | none => cases hx
  | some t =>
    simp only [maybeUnsqueeze, Option.map_some, Option.some.injEq] at hx
    subst hx
    exact congrArg (1 :: ·) (h t rfl)

theorem unsqueeze0_shape (x : Tensor ℝ) : x.unsqueeze0.shape = 1 :: x.shape := rfl

theorem erm_one (h : LossFits D m d k labels) (rho : ℝ) (hx : xi.shape = [m, d]) (hl : y.isSome = labels) (hy : OptShape y [m, k]) :
    OneNumber (ermBranch D rho xi y) := by
  obtain ⟨t, h1, h2⟩ := h.value 1 xi.unsqueeze0 (maybeUnsqueeze y) (by rw [unsqueeze0_shape, hx]) ((maybe_isSome y).trans hl) (maybe_shape hy)
  obtain ⟨u, h3, h4⟩ := reduce_sized h.reduction (squeeze0_shape h2)
  unfold ermBranch
  simp only [h1, ok_bind, h3]
  exact one_val h4

theorem integrand_sized (h : LossFits D m d k labels) (hx : xi.shape = [m, d]) (hl : y.isSome = labels) (hy : OptShape y [m, k])
    {z : Tensor ℝ} {zl : Option (Tensor ℝ)} (hz : z.shape = [n, m, d]) (hzs : zl.isSome = labels) (hzl : OptShape zl [n, m, k]) :
    Sized (integrand D xi y z zl) [n, m, 1] := by
  obtain ⟨t, h1, h2⟩ := h.value n z zl hz hzs hzl
  obtain ⟨c, h3, h4⟩ := cost_sized (n := n) (m := m) (d := d) (k := k) (c := D.cost) (x := xi.unsqueeze0) (z := z) (y := maybeUnsqueeze y) (zl := zl)
    (by rw [maybe_isSome, hl]; exact h.cost) (by rw [maybe_isSome, hl, hzs]) (by rw [unsqueeze0_shape, hx, hz]; exact bcastShape_one_left _ _)
    (by
      intro a b ha hb
      rw [maybe_shape hy a ha, hzl b hb]
      exact bcastShape_one_left _ _)
  obtain ⟨v, h5, h6⟩ := sized_zip_same (f := fun l c => (l - D.lam * c) / D.epsilon) h2 h4
  unfold integrand
  simp only [h1, ok_bind, h3]
  exact ⟨v, h5, h6⟩

theorem finish_one (h : D.reduction = .mean ∨ D.reduction = .sum) (rho : ℝ) (N : ℕ) {t : Tensor ℝ} (ht : t.shape = [n, m, 1]) :
    OneNumber (finishDual D rho N t) := by
  obtain ⟨u, h3, h4⟩ := reduce_sized (m := m) h (t := t.logsumexp0) (by simp [Tensor.logsumexp0, ht])
  unfold finishDual
  simp only [h3, ok_bind]
  exact one_val h4

theorem normalize_shape (a b : ℝ) (t : Tensor ℝ) : (normalizeVects a b t).shape = t.shape := rfl

theorem solve_sized {c : CostR} (hsq : isSquaredEuclid c = true) {x r : Tensor ℝ} {y rl : Option (Tensor ℝ)} (hx : x.shape = [n, m, d])
    (hr : r.shape = [1, m, d]) (hl : rl.isSome = y.isSome) (hy : OptShape y [n, m, k]) (hrl : OptShape rl [1, m, k]) :
    ∃ x' y', solveMaxSeriesExp c x y r rl = .ok (x', y') ∧ x'.shape = [n, m, d] ∧ y'.isSome = y.isSome ∧
      ∀ t, y' = some t → t.shape = [n, m, k] := by
  obtain ⟨u, hu1, hu2⟩ := sized_zip (f := fun a b : ℝ => a + b / 2) (a := x) (b := r) (by rw [hx, hr]; exact bcastShape_one_right _ _)
  unfold solveMaxSeriesExp
  rw [if_pos hsq]
  have base : ∃ x' y', (halfStep x r >>= fun x => Except.ok (x, y.map fun t => t.map XNum.fin)) = .ok (x', y') ∧ x'.shape = [n, m, d] ∧
      y'.isSome = y.isSome ∧ ∀ t, y' = some t → t.shape = [n, m, k] := by
    refine ⟨u, _, by rw [halfStep, hu1, ok_bind], hu2, by simp, ?_⟩
    intro t ht
    cases y with
    | none => cases ht
    | some y =>
      simp only [Option.map_some, Option.some.injEq] at ht
      subst ht
      exact hy y rfl
  cases hk : c.kind with
  | normCost => simpa using base
  | normLabelCost =>
    cases y with
    | none => simpa using base
    | some y =>
      obtain ⟨rl, rfl⟩ := Option.isSome_iff_exists.1 hl
      obtain ⟨v, hv1, hv2⟩ := sized_zip (f := labelStep c.kappa) (a := y) (b := rl)
        (by rw [hy y rfl, hrl rl rfl]; exact bcastShape_one_right _ _)
      refine ⟨u, some v, ?_, hu2, rfl, ?_⟩
      · simp only [halfStep, hu1, hv1, ok_bind]
      · rintro t ht
        cases ht
        exact hv2

theorem displace_sized (h : LossFits D m d k labels) (hsq : isSquaredEuclid D.cost = true) (hx : xi.shape = [m, d]) (hl : y.isSome = labels)
    (hy : OptShape y [m, k]) {z : Tensor ℝ} {zl : Option (Tensor ℝ)} (hz : z.shape = [n, m, d]) (hzs : zl.isSome = labels)
    (hzl : OptShape zl [n, m, k]) :
    ∃ x' y' z' zl', displaceSamples D xi y z zl = .ok (x', y', z', zl') ∧ x'.shape = [1, m, d] ∧ y'.isSome = labels ∧
      z'.shape = [n, m, d] ∧ zl'.isSome = labels ∧ ∀ t, zl' = some t → t.shape = [n, m, k] := by
  have hx1 : xi.unsqueeze0.shape = [1, m, d] := by rw [unsqueeze0_shape, hx]
  obtain ⟨hg1, hg2, hg3⟩ := h.grads xi.unsqueeze0 (maybeUnsqueeze y) hx1 ((maybe_isSome y).trans hl) (maybe_shape hy)
  have fin : ∀ {y : Option (Tensor ℝ)} {s : List ℕ}, OptShape y s → ∀ t, (y.map fun t => t.map XNum.fin) = some t → t.shape = s := by
    intro y s hys t ht
    cases y with
    | none => cases ht
    | some y =>
      simp only [Option.map_some, Option.some.injEq] at ht
      subst ht
      exact hys y rfl
  unfold displaceSamples optimalDisplacement
  dsimp only
  split
  · exact ⟨_, _, _, _, rfl, hx1, by simp [maybe_isSome, hl], hz, by simpa using hzs, fin hzl⟩
  · have hr : ((normalizeVects (10 ^ 10) D.lam (D.grads xi.unsqueeze0 (maybeUnsqueeze y)).1).map XNum.toReal).shape = [1, m, d] := hg1
    have hrl : OptShape (((D.grads xi.unsqueeze0 (maybeUnsqueeze y)).2.map (normalizeVects (10 ^ 10) D.lam)).map fun d => d.map XNum.toReal)
        [1, m, k] := by
      intro x hx
      cases hgl : (D.grads xi.unsqueeze0 (maybeUnsqueeze y)).2 with
      | none => simp [hgl] at hx
      | some q =>
        simp only [hgl, Option.map_some, Option.some.injEq] at hx
        subst hx
        exact hg3 q hgl
    obtain ⟨x', y', e1, e2, e3, -⟩ := solve_sized (k := k) hsq (x := xi.unsqueeze0) (y := maybeUnsqueeze y) hx1 hr
      (by simp [hg2, maybe_isSome, hl]) (maybe_shape hy) hrl
    obtain ⟨z', zl', e4, e5, e6, e7⟩ := solve_sized (k := k) hsq (x := z) (y := zl) hz hr (by simp [hg2, hzs]) hzl hrl
    refine ⟨x', y', z', zl', ?_, e2, by rw [e3, maybe_isSome, hl], e5, by rw [e6, hzs], e7⟩
    simp only [e1, e4, ok_bind]

theorem imp_one {G : Type} (ext : TorchExt G) (h : LossFits D m d k labels) (hi : D.impSamp = true) (rho : ℝ) (hx : xi.shape = [m, d])
    (hl : y.isSome = labels) (hy : OptShape y [m, k]) {z : Tensor ℝ} {zl : Option (Tensor ℝ)} (hz : z.shape = [n, m, d])
    (hzs : zl.isSome = labels) (hzl : OptShape zl [n, m, k]) : OneNumber (impSampBranch ext D rho xi y z zl) := by
  obtain ⟨hsq, hsm⟩ := h.imp hi
  obtain ⟨s, hs⟩ := Option.isSome_iff_exists.1 hsm
  obtain ⟨x', y', z', zl', h1, h2, h3, h4, h5, h6⟩ := displace_sized h hsq hx hl hy hz hzs hzl
  have hfit := h.sampler s hs
  have hr : OptShape (realLabels zl') [n, m, k] := by
    intro x hx
    cases zl' with
    | none => cases hx
    | some w =>
      simp only [realLabels, Option.map_some, Option.some.injEq] at hx
      subst hx
      exact h6 w rfl
  have hrs : (realLabels zl').isSome = labels := by rw [← h5]; simp [realLabels]
  have hrx : (realLabels y').isSome = labels := by rw [← h3]; simp [realLabels]
  obtain ⟨i, hi1, hi2⟩ := integrand_sized h hx hl hy h4 hrs hr
  obtain ⟨a, ha1, ha2⟩ := logProb_sized ext hfit h4 hrs hr
  obtain ⟨b, hb1, hb2⟩ := recentered_sized ext hfit h2 h4 hrx hrs hr
  obtain ⟨c, hc1, hc2⟩ := sized_zip_same (f := XNum.sub) ha2 hb2
  unfold impSampBranch
  simp only [h1, ok_bind]
  split
  · exact one_nan
  · simp only [hi1, ok_bind, hs, ha1, hb1, hc1]
    split
    · exact one_nan
    · obtain ⟨e, he1, he2⟩ := sized_zip_same (f := fun p q : ℝ => p + q) (a := i) (b := c.map XNum.toReal) hi2 hc2
      simp only [he1, ok_bind]
      exact finish_one h.reduction rho _ he2

/-- every evaluation with a non-negative or NaN radius returns a number -/
theorem computeDual_one {G : Type} (ext : TorchExt G) (h : LossFits D m d k labels) (hrho : ∀ r, D.rho = .num r → 0 ≤ r)
    (hx : xi.shape = [m, d]) (hl : y.isSome = labels) (hy : OptShape y [m, k]) {z : Tensor ℝ} {zl : Option (Tensor ℝ)}
    (hz : z.shape = [n, m, d]) (hzs : zl.isSome = labels) (hzl : OptShape zl [n, m, k]) : OneNumber (computeDual ext D xi y z zl) := by
  unfold computeDual
  cases hr : D.rho with
  | nan =>
    dsimp only
    split
    · obtain ⟨v, x, hv, -⟩ := erm_one h 0 hx hl hy
      rw [hv, ok_bind]
      exact one_nan
    · exact one_nan
  | num rho =>
    dsimp only
    split
    · exact erm_one h rho hx hl hy
    · next h0 =>
      have hpos : 0 < rho := lt_of_le_of_ne (hrho rho hr) fun e => h0 (Or.inl e.symm)
      rw [if_pos hpos]
      split
      · next hi => exact imp_one ext h hi rho hx hl hy hz hzs hzl
      · obtain ⟨i, hi1, hi2⟩ := integrand_sized h hx hl hy hz hzs hzl
        rw [hi1, ok_bind]
        exact finish_one h.reduction rho _ hi2

/-- resetting the sampler of `D` on the data leaves it as it is, apart from seeding the generator -/
def Steady {G : Type} (ext : TorchExt G) (D : DualLoss) (xi : Tensor ℝ) (y : Option (Tensor ℝ)) : Prop :=
  ∀ s, D.sampler = some s → ∀ g, s.resetMean ext xi y g = .ok (s, seedGlobal ext s.seed g)

/-- so it is for the losses built on the data -/
theorem dualize_steady {G : Type} {ext : TorchExt G} {a : DualizeArgs} {g g' : G} (h : dualize ext a g = .ok (D, g')) : Steady ext D a.xi a.xi_labels := by
  obtain ⟨parsed, obj, c, s, -, -, -, hs, rfl⟩ := dualize_ok h
  intro s' hs' g₁
  cases hs'
  cases hy : a.xi_labels with
  | none =>
    simp only [dualizeSampler, hy, mkNoLabelsCost] at hs
    cases hd : samplerData c a.xi (some (expertSigma a.rho a.sigma SIGMA_FACTOR)) with
    | error e => simp [hd] at hs
    | ok d =>
      simp only [hd, ok_bind, Except.ok.injEq, Prod.mk.injEq] at hs
      rw [← hs.1]
      simp only [Sampler.resetMean, mkNoLabelsCost, hd, ok_bind]
  | some y =>
    simp only [dualizeSampler, hy, mkLabeledCost] at hs
    cases hd : samplerData c a.xi (some (expertSigma a.rho a.sigma SIGMA_FACTOR)) with
    | error e => simp [hd] at hs
    | ok d =>
      cases hl : samplerLabels c (some y) (some (expertSigma a.rho a.sigma SIGMA_FACTOR)) with
      | error e => simp [hd, hl] at hs
      | ok l =>
        cases l with
        | none => simp [hd, hl] at hs
        | some l =>
          simp only [hd, hl, ok_bind, Except.ok.injEq, Prod.mk.injEq] at hs
          rw [← hs.1]
          simp only [Sampler.resetMean, mkLabeledCost, hd, hl, ok_bind]

/-- then the reset only seeds the generator -/
theorem postForward_steady {G : Type} {ext : TorchExt G} (h : Steady ext D xi y) (g : G) :
    postForward ext D xi y true g = postForward ext D xi y false (D.seeded ext g) := by
  unfold postForward
  cases hs : D.sampler with
  | none => rfl
  | some s => simp only [if_true, h s hs g, Bool.false_eq_true, if_false, ok_bind, DualLoss.seeded, hs, Option.bind_some]

theorem postForward_one {G : Type} (ext : TorchExt G) (h : LossFits D m d k labels) (hrho : ∀ r, D.rho = .num r → 0 ≤ r)
    (hx : xi.shape = [m, d]) (hl : y.isSome = labels) (hy : OptShape y [m, k]) (hs : D.sampler.isSome = true) (g : G) :
    ∃ v g' x, postForward ext D xi y false g = .ok (v, D, g') ∧ v.item = .ok x := by
  obtain ⟨s, hs⟩ := Option.isSome_iff_exists.1 hs
  obtain ⟨h1, h2, h3⟩ := sample_shapes ext (h.sampler s hs) g D.nSamples
  obtain ⟨v, x, hv, hx'⟩ := computeDual_one ext h hrho hx hl hy h1 h2 h3
  have hD : { D with sampler := some s } = D := by rw [← hs]
  have hmain : ((let (z, zl, g) := s.sample ext D.nSamples g
          do
            let v ← computeDual ext D xi y z zl
            Except.ok (v, D, g)) : Except PyErr (DualVal × DualLoss × G)) = .ok (v, D, (s.sample ext D.nSamples g).2.2) := by
    show (computeDual ext D xi y (s.sample ext D.nSamples g).1 (s.sample ext D.nSamples g).2.1 >>= fun v =>
      Except.ok (v, D, (s.sample ext D.nSamples g).2.2)) = _
    rw [hv, ok_bind]
  unfold postForward
  rw [hs]
  simp only [Bool.false_eq_true, if_false, ok_bind, hD]
  cases hr : D.rho with
  | nan => exact ⟨v, _, x, hmain, hx'⟩
  | num rho =>
    dsimp only
    rw [if_neg (not_lt.2 (hrho rho hr))]
    split
    · obtain ⟨w, x', hw, hx'⟩ := erm_one h rho hx hl hy
      unfold ermBranch at hw
      obtain ⟨b, hb, hw⟩ := bind_ok hw
      obtain ⟨l, hl, hw⟩ := bind_ok hw
      cases hw
      refine ⟨_, g, x', ?_, hx'⟩
      simp only [hb, ok_bind, hl]
    · exact ⟨v, _, x, hmain, hx'⟩

/-- the initial multiplier is always found -/
theorem initialGuess_ok (h : LossFits D m d k labels) (hx : xi.shape = [m, d]) (hl : y.isSome = labels) (hy : OptShape y [m, k]) :
    ∃ D', initialGuess D xi y = .ok D' := by
  unfold initialGuess
  cases hr : D.rho with
  | nan => exact ⟨_, rfl⟩
  | num rho =>
    dsimp only
    split
    · obtain ⟨hg1, hg2, hg3⟩ := h.grads xi.unsqueeze0 (maybeUnsqueeze y) (by rw [unsqueeze0_shape, hx]) ((maybe_isSome y).trans hl) (maybe_shape hy)
      obtain ⟨c, hc1, -⟩ := cost_sized (n := 1) (m := m) (d := d) (k := k) (c := D.cost) (x := (D.grads xi.unsqueeze0 (maybeUnsqueeze y)).1)
        (z := zerosLike (D.grads xi.unsqueeze0 (maybeUnsqueeze y)).1) (y := (D.grads xi.unsqueeze0 (maybeUnsqueeze y)).2)
        (zl := (D.grads xi.unsqueeze0 (maybeUnsqueeze y)).2.map zerosLike) (by rw [hg2]; exact h.cost) (by simp)
        (by
          have : (zerosLike (D.grads xi.unsqueeze0 (maybeUnsqueeze y)).1).shape = [1, m, d] := hg1
          rw [hg1, this]; exact bcastShape_self _)
        (by
          intro a b ha hb
          have hb' : b.shape = [1, m, k] := by
            rw [ha] at hb
            simp only [Option.map_some, Option.some.injEq] at hb
            subst hb
            exact hg3 a ha
          rw [hg3 a ha, hb']; exact bcastShape_self _)
      exact ⟨_, by rw [hc1, ok_bind]⟩
    · exact ⟨_, rfl⟩

end eval

end Skwdro
