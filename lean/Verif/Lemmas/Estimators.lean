import Verif.Spec.Estimators
import Verif.Lemmas.Tensor

/-! Helper lemmas on the estimators. -/

namespace Skwdro
open Spec Tensor

/-! ## Classes -/

theorem mem_npUnique {L : Type} [LinearOrder L] {n : ℕ} (y : Fin n → L) (l : L) : l ∈ npUnique y ↔ ∃ i, y i = l := by
  simp [npUnique]

theorem npUnique_nodup {L : Type} [LinearOrder L] {n : ℕ} (y : Fin n → L) : (npUnique y).Nodup := Finset.sort_nodup _ _

theorem npUnique_sorted {L : Type} [LinearOrder L] {n : ℕ} (y : Fin n → L) : (npUnique y).Pairwise (· < ·) :=
  (Finset.sortedLT_sort _).pairwise

theorem npUnique_two {L : Type} [LinearOrder L] {n : ℕ} {y : Fin n → L} (h : (npUnique y).length = 2) :
    ∃ c0 c1, c0 < c1 ∧ npUnique y = [c0, c1] ∧ ∀ i, y i = c0 ∨ y i = c1 := by
  obtain ⟨c0, c1, hc⟩ := List.length_eq_two.1 h
  have hs := npUnique_sorted y
  rw [hc] at hs
  refine ⟨c0, c1, by simpa using hs, hc, fun i => ?_⟩
  have := (mem_npUnique y (y i)).2 ⟨i, rfl⟩
  rw [hc] at this
  simpa using this

/-! ## Unpacking -/

theorem unpack4_tuple {a b c e : Option SVal} {r : SolverResult SVal} (h : wrapResult (.tuple [a, b, c, e]) = .ok r) :
    unpack4 r = .ok (a, b, c, e) := by
  simp only [wrapResult, List.length_cons, List.length_nil] at h
  norm_num at h
  simp only [SolverResult.init, tupleDict, dictGet, descriptors] at h
  simp at h
  subst h
  simp [unpack4, SolverResult.toList, List.mapM_cons, List.mapM_nil, pure, Except.pure]

theorem unpack3_tuple {a b c : Option SVal} {r : SolverResult SVal} (h : wrapResult (.tuple [a, b, c]) = .ok r) :
    unpack3 r = .ok (a, b, c) := by
  simp only [wrapResult, List.length_cons, List.length_nil] at h
  norm_num at h
  simp only [SolverResult.init, tupleDict, dictGet, descriptors] at h
  simp at h
  subst h
  simp [unpack3, SolverResult.toList, List.mapM_cons, List.mapM_nil, pure, Except.pure]

theorem unpack2_tuple {a b : Option SVal} {r : SolverResult SVal} (h : wrapResult (.tuple [a, b]) = .ok r) :
    unpack2 r = .ok (a, b) := by
  simp only [wrapResult, List.length_cons, List.length_nil] at h
  norm_num at h
  simp only [SolverResult.init, tupleDict, dictGet, descriptors] at h
  simp at h
  subst h
  simp [unpack2, SolverResult.toList, List.mapM_cons, List.mapM_nil, pure, Except.pure]


theorem wrap4 (a b c e : Option SVal) : ∃ r, wrapResult (.tuple [a, b, c, e]) = .ok r ∧ unpack4 r = .ok (a, b, c, e) := by
  have h : ∃ r, wrapResult (.tuple [a, b, c, e]) = .ok r := by
    simp [wrapResult, SolverResult.init, tupleDict, dictGet, descriptors]
  obtain ⟨r, hr⟩ := h
  exact ⟨r, hr, unpack4_tuple hr⟩

theorem wrap3 (a b c : Option SVal) : ∃ r, wrapResult (.tuple [a, b, c]) = .ok r ∧ unpack3 r = .ok (a, b, c) := by
  have h : ∃ r, wrapResult (.tuple [a, b, c]) = .ok r := by
    simp [wrapResult, SolverResult.init, tupleDict, dictGet, descriptors]
  obtain ⟨r, hr⟩ := h
  exact ⟨r, hr, unpack3_tuple hr⟩

theorem wrap2 (a b : Option SVal) : ∃ r, wrapResult (.tuple [a, b]) = .ok r ∧ unpack2 r = .ok (a, b) := by
  have h : ∃ r, wrapResult (.tuple [a, b]) = .ok r := by
    simp [wrapResult, SolverResult.init, tupleDict, dictGet, descriptors]
  obtain ⟨r, hr⟩ := h
  exact ⟨r, hr, unpack2_tuple hr⟩

/-- what the dedicated logistic solver returns -/
theorem logisticDedicated_ok {n d : ℕ} {solve : Oracle} {rho kappa : ℝ} {X : Fin n → Fin d → ℝ} {y : Fin n → ℝ} {fi : Bool}
    {r : SolverResult SVal} (h : logisticDedicated solve rho kappa X y fi = .ok r) :
    ∃ (w : Fin d → ℝ) (b lam obj : ℝ), unpack4 r = .ok (some (.vec (List.ofFn w)), some (.num b), some (.num lam), some (.num obj)) ∧
      (fi = false → b = 0) := by
  unfold logisticDedicated at h
  split at h
  · simp at h
  · split at h
    · next hfi =>
      split at h
      · exact ⟨_, _, _, _, unpack4_tuple h, fun hf => by rw [hfi] at hf; cases hf⟩
      · simp at h
    · split at h
      · exact ⟨_, _, _, _, unpack4_tuple h, fun _ => rfl⟩
      · simp at h

theorem fitTorch_ok {G : Type} {d : ℕ} {ext : TorchExt G} {grads : Autograd d} {train : Trainer d} (ht : GoodTrainer train) {e : EstKind}
    {P : EstParams} {post multi : Bool} {X : Tensor ℝ} {y : Option (Tensor ℝ)} {M0 M : Module d} {g : G}
    (h : fitTorch ext grads train e P post multi X y M0 g = .ok M) : SameShape M0 M := by
  unfold fitTorch at h
  obtain ⟨_, -, h⟩ := bind_ok h
  exact ht _ _ _ _ h

/-- attributes of a trained layer -/
structure ReadFrom {d K : ℕ} (l : LinMap d K) (fi : Bool) (f : Fitted d) : Prop where
  bias : l.bias.isSome = fi
  coef : f.coef = some l.weightArray
  intercept : f.intercept = l.bias.map fun b => (listT (List.ofFn b)).squeeze

theorem biasArray_map {d K : ℕ} (l : LinMap d K) (fi : Bool) (hb : l.bias.isSome = fi)
    {t : Option (Tensor ℝ) × Option (Tensor ℝ)}
    (h : (if fi = true then l.biasArray.map fun b => (some l.weightArray, some b) else .ok (some l.weightArray, none)) = .ok t) :
    t = (some l.weightArray, l.bias.map fun b => (listT (List.ofFn b)).squeeze) := by
  cases hl : l.bias with
  | none =>
    rw [hl] at hb; simp at hb; subst hb
    simp at h; rw [← h]; rfl
  | some b =>
    rw [hl] at hb; simp at hb; subst hb
    simp [LinMap.biasArray, hl, Except.map] at h
    rw [← h]; rfl

/-- the three outcomes of a successful fit of the logistic regression -/
theorem logisticFit_ok {G L : Type} [LinearOrder L] {n d : ℕ} {ext : TorchExt G} {grads : Autograd d} {solve : Oracle}
    {train : Trainer d} (ht : GoodTrainer train) {init : LinInit d} (hi : GoodInit init) {P : EstParams} {X : Fin n → Fin d → ℝ}
    {y : Fin n → L} {g : G} {f : LogFitted L d} (h : logisticFit ext grads solve train init P X y g = .ok f) :
    0 < n ∧ 0 < d ∧ f.classes = npUnique y ∧ 2 ≤ (npUnique y).length ∧
    ((route .logistic P.solver = .ok .dedicated ∧ (npUnique y).length = 2 ∧ f.torch = none ∧ ∃ (w : Fin d → ℝ) (b : ℝ),
        f.coef = some (listT (List.ofFn w)) ∧ f.intercept = some (Tensor.scalar b) ∧ (P.fit_intercept = false → b = 0)) ∨
     (∃ post, route .logistic P.solver = .ok (.torch post) ∧ (npUnique y).length = 2 ∧ ∃ (l : LinMap d 1) (a : DualizeArgs),
        f.torch = some (.softMargin l, a) ∧ ReadFrom l P.fit_intercept f.toFitted) ∨
     (∃ post, route .logistic P.solver = .ok (.torch post) ∧ 2 < (npUnique y).length ∧
        ∃ (l : LinMap d (npUnique y).length) (a : DualizeArgs),
        f.torch = some (.crossEnt l, a) ∧ ReadFrom l P.fit_intercept f.toFitted)) := by
  unfold logisticFit at h
  split at h
  · simp at h
  next h0 =>
  dsimp only at h
  split at h
  · simp at h
  next h1 =>
  obtain ⟨c, -, h⟩ := bind_ok h
  obtain ⟨r, hr, h⟩ := bind_ok h
  have hn : 0 < n := by omega
  have hd : 0 < d := by omega
  cases r with
  | dedicated =>
    simp only at h
    split at h
    · simp at h
    next h2 =>
    obtain ⟨rho, -, h⟩ := bind_ok h
    obtain ⟨res, hres, h⟩ := bind_ok h
    obtain ⟨t, ht, h⟩ := bind_ok h
    obtain ⟨w, b, lam, obj, hu, hb⟩ := logisticDedicated_ok hres
    rw [hu] at ht
    simp only [Except.ok.injEq] at ht h
    subst ht h
    exact ⟨hn, hd, rfl, by omega, Or.inl ⟨hr, by omega, rfl, w, b, rfl, rfl, hb⟩⟩
  | torch post =>
    simp only at h
    split at h
    · next h2 =>
      obtain ⟨M, hM, h⟩ := bind_ok h
      obtain ⟨t, htt, h⟩ := bind_ok h
      have hs := fitTorch_ok ht hM
      cases M with
      | softMargin l =>
        simp only [SameShape] at hs
        rw [hi 1 P.fit_intercept] at hs
        simp only [logisticRead] at htt
        have := biasArray_map l P.fit_intercept hs.symm htt
        subst this
        simp only [Except.ok.injEq] at h
        subst h
        exact ⟨hn, hd, rfl, by omega, Or.inr (Or.inl ⟨post, hr, h2, l, _, rfl, hs.symm, rfl, rfl⟩)⟩
      | crossEnt l => exact hs.elim
      | mse l => exact hs.elim
      | weber p => exact hs.elim
      | portfolio p => exact hs.elim
      | newsvendor a b c => exact hs.elim
    · next h2 =>
      obtain ⟨M, hM, h⟩ := bind_ok h
      obtain ⟨t, htt, h⟩ := bind_ok h
      have hs := fitTorch_ok ht hM
      cases M with
      | crossEnt l =>
        simp only [SameShape] at hs
        obtain ⟨hK, hs⟩ := hs
        subst hK
        rw [hi _ P.fit_intercept] at hs
        simp only [logisticRead] at htt
        have := biasArray_map l P.fit_intercept hs.symm htt
        subst this
        simp only [Except.ok.injEq] at h
        subst h
        exact ⟨hn, hd, rfl, by omega, Or.inr (Or.inr ⟨post, hr, by omega, l, _, rfl, hs.symm, rfl, rfl⟩)⟩
      | softMargin l => exact hs.elim
      | mse l => exact hs.elim
      | weber p => exact hs.elim
      | portfolio p => exact hs.elim
      | newsvendor a b c => exact hs.elim

/-! ## Arrays -/

theorem matT_is {n d : ℕ} (X : Fin n → Fin d → ℝ) : IsMat (matT X) X := by
  refine ⟨rfl, fun i k => ?_⟩; simp [matT]

theorem matT_eq {n d : ℕ} (X : Fin n → Fin d → ℝ) : matT X = mat X := rfl

theorem listT_ofFn {d : ℕ} (w : Fin d → ℝ) : IsVec (listT (List.ofFn w)) w := by
  refine ⟨by simp [listT], fun k => ?_⟩; simp [listT, List.getD]

/-- an array usable as coefficients `w`: a vector, or a 0-dimensional array in dimension one -/
def IsCoef {d : ℕ} (c : Tensor ℝ) (w : Fin d → ℝ) : Prop :=
  IsVec c w ∨ (d = 1 ∧ c.shape = [] ∧ ∀ j : Fin d, c.get [] = w j)

theorem weightArray_coef {d : ℕ} (l : LinMap d 1) : IsCoef l.weightArray (l.weight 0) := by
  by_cases hd : d = 1
  · subst hd
    refine Or.inr ⟨rfl, rfl, fun j => ?_⟩
    have hj : j = 0 := Subsingleton.elim _ _
    subst hj
    simp [LinMap.weightArray, Tensor.squeeze, matT, reinsert]
  · refine Or.inl ⟨by simp [LinMap.weightArray, Tensor.squeeze, matT, hd], fun k => ?_⟩
    simp [LinMap.weightArray, Tensor.squeeze, matT, reinsert, hd]

theorem biasArray_scalar (b : Fin 1 → ℝ) : IsScalar (listT (List.ofFn b)).squeeze (b 0) := by
  constructor <;> simp [listT, Tensor.squeeze, reinsert]

/-- the array of scores: `(n,)`, or `(n, 1)` with 0-dimensional coefficients -/
def IsScores {n : ℕ} (t : Tensor ℝ) (s : Fin n → ℝ) : Prop := IsVec t s ∨ IsMat t (fun i (_ : Fin 1) => s i)

theorem npDot_coef {n d : ℕ} (X : Fin n → Fin d → ℝ) {c : Tensor ℝ} {w : Fin d → ℝ} (h : IsCoef c w) :
    ∃ t, npDot X c = .ok t ∧ IsScores t (fun i => ∑ j, X i j * w j) ∧ (IsVec c w → IsVec t (fun i => ∑ j, X i j * w j)) ∧
      (c.shape = [] → IsMat t (fun i (_ : Fin 1) => ∑ j, X i j * w j)) := by
  rcases h with h | ⟨hd, hs, hw⟩
  · have e : npDot X c = .ok ⟨[n], fun i => if h : i.headD 0 < n then ∑ j : Fin d, X ⟨i.headD 0, h⟩ j * c.get [j.1] else 0⟩ := by
      simp [npDot, h.1]
    have hv : IsVec (⟨[n], fun i => if h : i.headD 0 < n then ∑ j : Fin d, X ⟨i.headD 0, h⟩ j * c.get [j.1] else 0⟩ : Tensor ℝ)
        (fun i => ∑ j, X i j * w j) := by
      refine ⟨rfl, fun k => ?_⟩
      simp [h.2]
    exact ⟨_, e, Or.inl hv, fun _ => hv, fun h' => by rw [h.1] at h'; cases h'⟩
  · subst hd
    have e : npDot X c = .ok ((matT X).map fun x => x * c.get []) := by simp [npDot, hs]
    have hv : IsMat ((matT X).map fun x => x * c.get []) (fun i (_ : Fin 1) => ∑ j, X i j * w j) := by
      refine ⟨rfl, fun i k => ?_⟩
      have hk : k = 0 := Subsingleton.elim _ _
      subst hk
      simp only [Tensor.map, (matT_is X).2 i 0, Fin.sum_univ_one, hw 0]
    exact ⟨_, e, Or.inr hv, fun h' => (by have := h'.1; rw [hs] at this; cases this), fun _ => hv⟩

theorem npZip_scalar {n : ℕ} {t b : Tensor ℝ} {s : Fin n → ℝ} {x : ℝ} (f : ℝ → ℝ → ℝ) (hb : IsScalar b x) :
    (IsVec t s → ∃ r, npZip f t b = .ok r ∧ IsVec r (fun i => f (s i) x)) ∧
    (IsMat t (fun i (_ : Fin 1) => s i) → ∃ r, npZip f t b = .ok r ∧ IsMat r (fun i (_ : Fin 1) => f (s i) x)) := by
  refine ⟨fun h => ?_, fun h => ?_⟩
  · refine ⟨⟨[n], fun i => f (t.get (proj [n] i)) (b.get (proj [] i))⟩, ?_, rfl, fun k => ?_⟩
    · simp [npZip, Tensor.zipWith, h.1, hb.1, bcastShape, bcastRev]
    · simp only [proj, projRev, List.reverse_cons, List.reverse_nil, List.nil_append, hb.2]
      have := h.2 k
      by_cases hn : n = 1
      · subst hn
        have hk : k = 0 := Subsingleton.elim _ _
        subst hk
        simpa using congrArg (fun z => f z x) this
      · simp [hn, this]
  · refine ⟨⟨[n, 1], fun i => f (t.get (proj [n, 1] i)) (b.get (proj [] i))⟩, ?_, rfl, fun k c => ?_⟩
    · simp [npZip, Tensor.zipWith, h.1, hb.1, bcastShape, bcastRev]
    · have hc : c = 0 := Subsingleton.elim _ _
      subst hc
      simp only [proj, projRev, List.reverse_cons, List.reverse_nil, List.nil_append, List.cons_append, hb.2]
      have := h.2 k 0
      by_cases hn : n = 1
      · subst hn
        have hk : k = 0 := Subsingleton.elim _ _
        subst hk
        simpa using congrArg (fun z => f z x) this
      · simpa [hn] using congrArg (fun z => f z x) this

theorem column1d_scores {n : ℕ} {t : Tensor ℝ} {s : Fin n → ℝ} (h : IsScores t s) {α : Type} (f : ℝ → α) :
    column1d (t.map f) = .ok (List.ofFn fun i => f (s i)) := by
  rcases h with h | h
  · simp only [column1d, Tensor.map, h.1, Except.ok.injEq]
    apply List.ext_getElem
    · simp
    · intro k h1 h2
      simp only [List.length_ofFn] at h2
      simp [← h.2 ⟨k, h2⟩]
  · simp only [column1d, Tensor.map, h.1, Except.ok.injEq]
    apply List.ext_getElem
    · simp
    · intro k h1 h2
      simp only [List.length_ofFn] at h2
      simp [← h.2 ⟨k, h2⟩ 0]

theorem decodeLabels_ok {L : Type} {classes : List L} {codes : List ℕ} {out : ℕ → L}
    (h : ∀ c ∈ codes, classes[c]? = some (out c)) : decodeLabels classes codes = .ok (codes.map out) := by
  induction codes with
  | nil => rfl
  | cons c r ih =>
    have h1 := h c (by simp)
    have h2 := ih (fun c' hc => h c' (by simp [hc]))
    unfold decodeLabels at h2 ⊢
    rw [List.mapM_cons, h1, h2]
    rfl

end Skwdro
