import Verif.Lemmas.Estimators
import Verif.Props.CostDecoder
import Verif.Props.Routes
import Verif.Props.WrapProblem
import Verif.Props.Newsvendor
import Mathlib.Analysis.SpecialFunctions.Exp

/-! # Properties of the logistic regression estimator: C64 (labels), C65 (probabilities) -/

namespace Skwdro
open Spec Tensor

/-! ## C64 -/

/-- **C64** For two classes the encoded labels are exactly −1 (first class in sorted order) and +1 (second one), and decoding the sign of
the encoded label gives the label back. -/
theorem C64_encoding {L : Type} [LinearOrder L] {n : ℕ} (y : Fin n → L) (h : (npUnique y).length = 2) :
    ∃ c0 c1, c0 < c1 ∧ npUnique y = [c0, c1] ∧ ∀ i, (y i = c0 ∨ y i = c1) ∧
      (y i = c0 → encodeBinary (npUnique y) (y i) = -1) ∧ (y i = c1 → encodeBinary (npUnique y) (y i) = 1) ∧
      (npUnique y)[if 0 ≤ encodeBinary (npUnique y) (y i) then 1 else 0]? = some (y i) := by
  obtain ⟨c0, c1, hlt, hc, hy⟩ := npUnique_two h
  have e0 : encodeBinary [c0, c1] c0 = -1 := by simp [encodeBinary]
  have e1 : encodeBinary [c0, c1] c1 = 1 := by
    simp [encodeBinary, hlt.ne]
  refine ⟨c0, c1, hlt, hc, fun i => ⟨hy i, fun h => by rw [hc, h, e0], fun h => by rw [hc, h, e1], ?_⟩⟩
  rw [hc]
  rcases hy i with h | h
  · rw [h, e0]; norm_num
  · rw [h, e1]; norm_num

example : ∃ y : Fin 3 → ℕ, (npUnique y).length = 2 := ⟨![4, 7, 4], by rw [npUnique, Finset.length_sort]; decide⟩

/-- the binary rule a fitted classifier applies -/
structure BinaryRule {L : Type} {d : ℕ} (f : LogFitted L d) (w : Fin d → ℝ) (b : ℝ) : Prop where
  coef : ∃ c, f.coef = some c ∧ IsCoef c w
  intercept : (∃ t, f.intercept = some t ∧ IsScalar t b) ∨ (f.intercept = none ∧ b = 0)

theorem binary_rule {G L : Type} [LinearOrder L] {n d : ℕ} {ext : TorchExt G} {grads : Autograd d} {solve : Oracle}
    {train : Trainer d} (ht : GoodTrainer train) {init : LinInit d} (hi : GoodInit init) {P : EstParams} {X : Fin n → Fin d → ℝ}
    {y : Fin n → L} {g : G} {f : LogFitted L d} (h : logisticFit ext grads solve train init P X y g = .ok f)
    (h2 : (npUnique y).length = 2) : ∃ w b, BinaryRule f w b ∧ (P.fit_intercept = false → b = 0) := by
  obtain ⟨-, -, -, -, h | h | h⟩ := logisticFit_ok ht hi h
  · obtain ⟨-, -, -, w, b, hc, hb, hz⟩ := h
    exact ⟨w, b, ⟨⟨_, hc, Or.inl (listT_ofFn w)⟩, Or.inl ⟨_, hb, rfl, rfl⟩⟩, hz⟩
  · obtain ⟨-, -, -, l, a, -, hr⟩ := h
    cases hb : l.bias with
    | none =>
      exact ⟨l.weight 0, 0, ⟨⟨_, hr.coef, weightArray_coef l⟩, Or.inr ⟨by rw [hr.intercept, hb]; rfl, rfl⟩⟩, fun _ => rfl⟩
    | some b =>
      refine ⟨l.weight 0, b 0, ⟨⟨_, hr.coef, weightArray_coef l⟩, Or.inl ⟨_, by rw [hr.intercept, hb]; rfl, biasArray_scalar b⟩⟩, ?_⟩
      intro hf
      have := hr.bias
      rw [hb, hf] at this
      simp at this
  · obtain ⟨-, -, h3, -⟩ := h
    omega

theorem expit_half (x : ℝ) : expit x ≥ 1 / 2 ↔ 0 ≤ x := by
  unfold expit
  have hp : 0 < 1 + Real.exp (-x) := by positivity
  rw [ge_iff_le, div_le_div_iff₀ (by norm_num) hp]
  constructor
  · intro h
    have : Real.exp (-x) ≤ 1 := by linarith
    have := Real.exp_le_one_iff.1 this
    linarith
  · intro h
    have := Real.exp_le_one_iff.2 (show -x ≤ 0 by linarith)
    linarith

theorem proba2_rule {L : Type} {n d : ℕ} {f : LogFitted L d} {w : Fin d → ℝ} {b : ℝ} (h : BinaryRule f w b) (X : Fin n → Fin d → ℝ) :
    ∃ t, f.proba2 X = .ok (t.map expit) ∧ IsScores t (fun i => affine w b (X i)) := by
  obtain ⟨⟨c, hc, hcoef⟩, hint⟩ := h
  obtain ⟨s, hs, hsc, -, -⟩ := npDot_coef X hcoef
  rcases hint with ⟨t, ht, hb⟩ | ⟨ht, hb⟩
  · obtain hz := npZip_scalar (t := s) (s := fun i => ∑ j, X i j * w j) (· + ·) hb
    rcases hsc with hsc | hsc
    · obtain ⟨r, hr, hv⟩ := hz.1 hsc
      exact ⟨r, by simp [LogFitted.proba2, dotCoef, hc, hs, ht, addIntercept, hr], Or.inl hv⟩
    · obtain ⟨r, hr, hv⟩ := hz.2 hsc
      exact ⟨r, by simp [LogFitted.proba2, dotCoef, hc, hs, ht, addIntercept, hr], Or.inr hv⟩
  · subst hb
    exact ⟨s, by simp [LogFitted.proba2, dotCoef, hc, hs, ht], by simpa [affine] using hsc⟩

theorem predict_of_rule {L : Type} [LinearOrder L] {n d N : ℕ} {y : Fin n → L} {f : LogFitted L d} {w : Fin d → ℝ} {b : ℝ} {c0 c1 : L}
    (hcl : f.classes = npUnique y) (hc : npUnique y = [c0, c1]) (hrule : BinaryRule f w b) (X' : Fin N → Fin d → ℝ) :
    f.predict X' = .ok (.flat (List.ofFn fun i => if 0 ≤ affine w b (X' i) then c1 else c0)) := by
  obtain ⟨t, hp, hs⟩ := proba2_rule hrule X'
  have hcol := column1d_scores hs fun x => halfCode (expit x)
  have hdec := decodeLabels_ok (classes := [c0, c1]) (codes := List.ofFn fun i => halfCode (expit (affine w b (X' i))))
    (out := fun c => if c = 1 then c1 else c0) (by
      intro c hcm
      rw [List.mem_ofFn] at hcm
      obtain ⟨i, rfl⟩ := hcm
      unfold halfCode
      split_ifs <;> simp_all)
  have hfl : f.classes = [c0, c1] := hcl.trans hc
  have : f.predict X' = .ok (.flat ((List.ofFn fun i => halfCode (expit (affine w b (X' i)))).map fun c => if c = 1 then c1 else c0)) := by
    unfold LogFitted.predict
    rw [if_pos (by rw [hcl, hc]; rfl), hp, ok_bind]
    change (column1d (t.map fun x => halfCode (expit x)) >>= _) = _
    rw [hcol, ok_bind, hfl, hdec, ok_bind]
  rw [this]
  congr 2
  rw [List.map_ofFn]
  congr 1
  funext i
  simp only [Function.comp, halfCode]
  by_cases h0 : 0 ≤ affine w b (X' i)
  · simp only [(expit_half _).2 h0, h0, if_true]
  · simp only [mt (expit_half _).1 h0, h0, if_false]; norm_num

/-- **C64** Binary prediction: whatever the route (dedicated or torch), the dimension and the intercept setting, a fitted classifier is an
affine score, and `predict` returns, for every sample of any new data set, the second class exactly when its score is `>= 0` and the first
one otherwise — in particular always one of the two training classes.  Without intercept the score has no offset. -/
theorem C64_binary_predict {G L : Type} [LinearOrder L] {n d : ℕ} {ext : TorchExt G} {grads : Autograd d} {solve : Oracle}
    {train : Trainer d} (ht : GoodTrainer train) {init : LinInit d} (hi : GoodInit init) {P : EstParams} {X : Fin n → Fin d → ℝ}
    {y : Fin n → L} {g : G} {f : LogFitted L d} (h : logisticFit ext grads solve train init P X y g = .ok f)
    (h2 : (npUnique y).length = 2) :
    ∃ (w : Fin d → ℝ) (b : ℝ) (c0 c1 : L), c0 < c1 ∧ npUnique y = [c0, c1] ∧ (P.fit_intercept = false → b = 0) ∧
      ∀ (N : ℕ) (X' : Fin N → Fin d → ℝ),
        f.predict X' = .ok (.flat (List.ofFn fun i => if 0 ≤ affine w b (X' i) then c1 else c0)) := by
  obtain ⟨w, b, hrule, hb⟩ := binary_rule ht hi h h2
  obtain ⟨c0, c1, hlt, hc, -⟩ := npUnique_two h2
  have hcl := (logisticFit_ok ht hi h).2.2.1
  exact ⟨w, b, c0, c1, hlt, hc, hb, fun N X' => predict_of_rule hcl hc hrule X'⟩

/-- **C64** Data with a single class is refused, whatever the settings. -/
theorem C64_single_class {G L : Type} [LinearOrder L] {n d : ℕ} (ext : TorchExt G) (grads : Autograd d) (solve : Oracle)
    (train : Trainer d) (init : LinInit d) (P : EstParams) (X : Fin n → Fin d → ℝ) (y : Fin n → L) (g : G) (h : ∀ i j, y i = y j) :
    logisticFit ext grads solve train init P X y g = .error .valueError := by
  have hl : (npUnique y).length < 2 := by
    rw [npUnique, Finset.length_sort]
    have : (Finset.univ.image y).card ≤ 1 := by
      rw [Finset.card_le_one]
      intro a ha b hb
      simp only [Finset.mem_image, Finset.mem_univ, true_and] at ha hb
      obtain ⟨i, rfl⟩ := ha
      obtain ⟨j, rfl⟩ := hb
      exact h i j
    omega
  unfold logisticFit
  dsimp only
  rw [if_pos hl, ite_self]

/-- first column holding the largest value of a row -/
theorem rowArgmax_spec {t : Tensor ℝ} {K i : ℕ} (hK : 0 < K) :
    rowArgmax t K i < K ∧ (∀ c < K, t.get [i, c] ≤ t.get [i, rowArgmax t K i]) ∧
    ∀ c < rowArgmax t K i, t.get [i, c] < t.get [i, rowArgmax t K i] := by
  classical
  have hex : ∃ c ∈ List.range K, (fun c => decide (∀ c' < K, t.get [i, c'] ≤ t.get [i, c])) c = true := by
    obtain ⟨c, hc, hm⟩ := Finset.exists_max_image (Finset.range K) (fun c => t.get [i, c]) ⟨0, by simpa using hK⟩
    refine ⟨c, by simpa using hc, ?_⟩
    simp only [decide_eq_true_eq]
    intro c' hc'
    exact hm c' (by simpa using hc')
  have hlt : rowArgmax t K i < (List.range K).length := List.findIdx_lt_length_of_exists (by simpa [rowArgmax] using hex)
  have h1 := List.findIdx_getElem (w := hlt)
  rw [decide_eq_true_eq] at h1
  replace h1 : ∀ c < K, t.get [i, c] ≤ t.get [i, rowArgmax t K i] := by
    intro c hc
    have h3 : (List.range K)[rowArgmax t K i]'hlt = rowArgmax t K i := List.getElem_range _
    have := h1 c hc
    exact h3 ▸ this
  have hK' : rowArgmax t K i < K := by simpa using hlt
  refine ⟨hK', h1, fun c hc => ?_⟩
  have h2 := List.not_of_lt_findIdx (xs := List.range K) hc
  simp only [List.getElem_range, decide_eq_false_iff_not, not_forall, not_le] at h2
  obtain ⟨c', hc', hlt'⟩ := h2
  exact lt_of_lt_of_le hlt' (h1 c' hc')

theorem apply_mat {N d K : ℕ} (l : LinMap d K) (X : Fin N → Fin d → ℝ) :
    ∃ t, l.apply (matT X) = .ok t ∧ IsMat t (fun i c => l.out (X i) c) := by
  refine ⟨_, if_pos (by simp [matT]), rfl, fun i c => ?_⟩
  simp [matT]

/-- classification with one layer output per class -/
theorem multiclass_of_layer {L : Type} {d : ℕ} {f : LogFitted L d} {cl : List L} (hcl : f.classes = cl) (h2 : 2 < cl.length)
    (l : LinMap d cl.length) {a : DualizeArgs} (htorch : f.torch = some (.crossEnt l, a)) (N : ℕ) (X' : Fin N → Fin d → ℝ) :
    ∃ best : Fin N → Fin cl.length,
      f.predict X' = .ok (.column (List.ofFn fun i => cl[best i])) ∧
      ∀ i c, l.out (X' i) c ≤ l.out (X' i) (best i) ∧ (c < best i → l.out (X' i) c < l.out (X' i) (best i)) := by
  obtain ⟨t, ht', hm⟩ := apply_mat l X'
  have hp : f.proba X' = .ok t := by
    unfold LogFitted.proba
    rw [if_neg (by rw [htorch, hcl]; simp; omega), htorch]
    exact ht'
  have hspec := fun i : Fin N => rowArgmax_spec (t := t) (i := i.1) (K := cl.length) (by omega)
  refine ⟨fun i => ⟨rowArgmax t cl.length i.1, (hspec i).1⟩, ?_, fun i c => ⟨?_, fun hc => ?_⟩⟩
  · unfold LogFitted.predict
    rw [if_neg (by rw [hcl]; omega), hp, ok_bind]
    simp only [hm.1]
    rw [if_pos (by rw [hcl])]
    have hdec : decodeLabels f.classes ((List.range N).map fun i => rowArgmax t cl.length i)
        = .ok (List.ofFn fun i : Fin N => cl[rowArgmax t cl.length i.1]'(hspec i).1) := by
      have hd : Nonempty L := ⟨cl[0]⟩
      rw [decodeLabels_ok (out := fun c => (cl[c]?).getD hd.some)]
      · congr 1
        apply List.ext_getElem
        · simp
        · intro k h1 h2
          have hk : k < N := by simpa using h1
          have := (hspec ⟨k, hk⟩).1
          simp only at this
          simp [this]
      · intro c hc
        simp only [List.mem_map, List.mem_range] at hc
        obtain ⟨i, hi', rfl⟩ := hc
        rw [hcl]
        have := (hspec ⟨i, hi'⟩).1
        simp only at this
        simp [this]
    rw [hdec, ok_bind]
    rfl
  · have e1 := hm.2 i c
    have e2 := hm.2 i ⟨_, (hspec i).1⟩
    beta_reduce at e1 e2 ⊢
    rw [← e1, ← e2]
    exact (hspec i).2.1 c.1 c.2
  · have e1 := hm.2 i c
    have e2 := hm.2 i ⟨_, (hspec i).1⟩
    beta_reduce at e1 e2 ⊢
    rw [← e1, ← e2]
    exact (hspec i).2.2 c.1 hc

/-- **C64** More than two classes: a fitted classifier has one affine score per class, and `predict` returns for every sample of any new
data set the class of the largest score, the first one in sorted order on ties — in particular always a training class. -/
theorem C64_multiclass_predict {G L : Type} [LinearOrder L] {n d : ℕ} {ext : TorchExt G} {grads : Autograd d} {solve : Oracle}
    {train : Trainer d} (ht : GoodTrainer train) {init : LinInit d} (hi : GoodInit init) {P : EstParams} {X : Fin n → Fin d → ℝ}
    {y : Fin n → L} {g : G} {f : LogFitted L d} (h : logisticFit ext grads solve train init P X y g = .ok f)
    (h2 : 2 < (npUnique y).length) :
    ∃ (w : Fin (npUnique y).length → Fin d → ℝ) (b : Fin (npUnique y).length → ℝ), (P.fit_intercept = false → ∀ c, b c = 0) ∧
      ∀ (N : ℕ) (X' : Fin N → Fin d → ℝ), ∃ best : Fin N → Fin (npUnique y).length,
        f.predict X' = .ok (.column (List.ofFn fun i => (npUnique y)[best i])) ∧
        ∀ i c, affine (w c) (b c) (X' i) ≤ affine (w (best i)) (b (best i)) (X' i) ∧
          (c < best i → affine (w c) (b c) (X' i) < affine (w (best i)) (b (best i)) (X' i)) := by
  obtain ⟨-, -, hcl, -, h | h | h⟩ := logisticFit_ok ht hi h
  · omega
  · obtain ⟨_, _, h3, -⟩ := h; omega
  · obtain ⟨-, -, -, l, a, htorch, hr⟩ := h
    let b : Fin (npUnique y).length → ℝ := fun c => match l.bias with | some b => b c | none => 0
    have hout : ∀ x c, l.out x c = affine (l.weight c) (b c) x := by
      intro x c
      simp only [LinMap.out, affine, b]
      congr 1
      · exact Finset.sum_congr rfl fun k _ => mul_comm _ _
      · cases l.bias <;> rfl
    refine ⟨l.weight, b, fun hf c => ?_, fun N X' => ?_⟩
    · have := hr.bias
      rw [hf] at this
      simp only [b]
      cases hl : l.bias with
      | none => rfl
      | some _ => rw [hl] at this; simp at this
    · obtain ⟨best, h3, h4⟩ := multiclass_of_layer hcl h2 l htorch N X'
      exact ⟨best, h3, fun i c => by rw [← hout, ← hout]; exact h4 i c⟩

/-! ## Fitting succeeds -/

/-- training always returns -/
def TotalTrainer {d : ℕ} (train : Trainer d) : Prop := ∀ args M s, ∃ M', train args M s = .ok M'

theorem fitTorch_total {G : Type} {d : ℕ} {ext : TorchExt G} {grads : Autograd d} {train : Trainer d} (htot : TotalTrainer train)
    {e : EstKind} {P : EstParams} {post multi : Bool} {X : Tensor ℝ} {y : Option (Tensor ℝ)} (M0 : Module d) (g : G)
    {parsed : ParsedCost} {obj : CostObj} (hp : parse_code_torch (some P.cost) y.isSome = .ok parsed)
    (ho : cost_from_parse_torch parsed = .ok obj) (hsup : Supported obj.power obj.p) (hsig : ∀ s, P.sampler_reg = some s → 0 < s) :
    ∃ M, fitTorch ext grads train e P post multi X y M0 g = .ok M := by
  obtain ⟨D, g', s, hd, -⟩ := (C08_supported_costs (ext := ext) (torchArgs grads e P post multi X y M0) g hp ho (by
    intro s hs
    cases e <;> first | exact hsig s hs | exact absurd (show (none : Option ℝ) = some s from hs) (by simp))).1 hsup
  obtain ⟨M, hM⟩ := htot (torchArgs grads e P post multi X y) M0 (trainSteps e P post)
  exact ⟨M, by simp only [fitTorch, hd, ok_bind, hM]⟩

/-- settings of a logistic regression fitted with torch: decodable cost accepted by the samplers -/
structure TorchReady (P : EstParams) : Prop where
  torch : ∃ post, route .logistic P.solver = .ok (.torch post)
  code : ∃ c, cost_from_str P.cost = .ok c
  cost : ∃ parsed obj, parse_code_torch (some P.cost) true = .ok parsed ∧ cost_from_parse_torch parsed = .ok obj ∧ Supported obj.power obj.p
  sigma : ∀ s, P.sampler_reg = some s → 0 < s

/-- codes written with decimal numbers -/
theorem code_parse (id : PyStr) (w t : ℕ) (h : '-' ∉ id) (lab : Bool) :
    parse_code_torch (some (joinDash ["t".toList, id, decimal w, decimal t])) lab = .ok ⟨"t".toList, id, .fin w, .fin t, .fin 100000000⟩ :=
  (C01_fields_roundtrip "t".toList id (decimal w) (decimal t) (decimal 1) _ _ _ lab
    (by simp [h, decimal_nodash, -String.reduceToList]; decide) (pyFloat_decimal w) (pyFloat_decimal t) (pyFloat_decimal 1)).2.1

theorem default_cost : ∃ c, cost_from_str "t-NLC-2-2".toList = .ok c := ⟨_, (C01_decimal_roundtrip 2 2 5).2.1⟩

theorem default_parse : ∃ parsed obj, parse_code_torch (some "t-NLC-2-2".toList) true = .ok parsed ∧
    cost_from_parse_torch parsed = .ok obj ∧ Supported obj.power obj.p :=
  ⟨_, _, code_parse "NLC".toList 2 2 (by decide) true, rfl, Or.inr ⟨rfl, rfl⟩⟩

theorem default_ready : TorchReady EstKind.logistic.defaults :=
  ⟨⟨_, C66_bare_name_false .logistic⟩, default_cost, default_parse, by simp [EstKind.defaults]⟩

/-- with such settings the fit returns on all data with at least two classes -/
theorem logisticFit_total {G L : Type} [LinearOrder L] {n d : ℕ} {ext : TorchExt G} {grads : Autograd d} {solve : Oracle}
    {train : Trainer d} (htot : TotalTrainer train) (ht : GoodTrainer train) {init : LinInit d} (hi : GoodInit init) {P : EstParams}
    (hP : TorchReady P) (hn : 0 < n) (hd : 0 < d) (X : Fin n → Fin d → ℝ) {y : Fin n → L} (hy : 2 ≤ (npUnique y).length) (g : G) :
    ∃ f, logisticFit ext grads solve train init P X y g = .ok f := by
  obtain ⟨post, hr⟩ := hP.torch
  obtain ⟨c, hc⟩ := hP.code
  obtain ⟨parsed, obj, h1, h2, h3⟩ := hP.cost
  unfold logisticFit
  rw [if_neg (by omega)]
  dsimp only
  rw [if_neg (by omega), hc, ok_bind, hr, ok_bind]
  simp only
  split_ifs with h
  · obtain ⟨M, hM⟩ := fitTorch_total (ext := ext) (grads := grads) htot (e := .logistic) (post := post) (multi := false) (X := matT X)
      (y := some (matT fun i (_ : Fin 1) => encodeBinary (npUnique y) (y i))) (.softMargin (init 1 P.fit_intercept)) g h1 h2 h3 hP.sigma
    rw [hM, ok_bind]
    have hs := fitTorch_ok ht hM
    cases M with
    | softMargin l =>
      simp only [SameShape] at hs
      rw [hi 1 P.fit_intercept] at hs
      cases hl : l.bias with
      | none => rw [hl] at hs; simp at hs; simp [logisticRead, hs]
      | some b => rw [hl] at hs; simp at hs; simp [logisticRead, hs, LinMap.biasArray, hl, Except.map]
    | crossEnt l => exact hs.elim
    | mse l => exact hs.elim
    | weber p => exact hs.elim
    | portfolio p => exact hs.elim
    | newsvendor a b c => exact hs.elim
  · obtain ⟨M, hM⟩ := fitTorch_total (ext := ext) (grads := grads) htot (e := .logistic) (post := post) (multi := true) (X := matT X)
      (y := some (matT fun i => encodeOneHot (npUnique y) (y i))) (.crossEnt (init (npUnique y).length P.fit_intercept)) g h1 h2 h3 hP.sigma
    rw [hM, ok_bind]
    have hs := fitTorch_ok ht hM
    cases M with
    | crossEnt l =>
      simp only [SameShape] at hs
      obtain ⟨hK, hs⟩ := hs
      subst hK
      rw [hi _ P.fit_intercept] at hs
      cases hl : l.bias with
      | none => rw [hl] at hs; simp at hs; simp [logisticRead, hs]
      | some b => rw [hl] at hs; simp at hs; simp [logisticRead, hs, LinMap.biasArray, hl, Except.map]
    | softMargin l => exact hs.elim
    | mse l => exact hs.elim
    | weber p => exact hs.elim
    | portfolio p => exact hs.elim
    | newsvendor a b c => exact hs.elim

/-- a trainer that does nothing, and a layer of zeros, meet the assumptions -/
theorem idTrainer_good {d : ℕ} : GoodTrainer (fun _ M _ => .ok M : Trainer d) ∧ TotalTrainer (fun _ M _ => .ok M : Trainer d) := by
  refine ⟨fun args M0 s M h => ?_, fun _ M _ => ⟨M, rfl⟩⟩
  simp only [Except.ok.injEq] at h
  subst h
  cases M0 <;> simp [SameShape]

theorem zeroInit_good {d : ℕ} : GoodInit (fun _ b => ⟨fun _ _ => 0, if b then some fun _ => 0 else none⟩ : LinInit d) := by
  intro K b
  cases b <;> rfl

/-- non-vacuity of C64: data sets with two and three classes that can be fitted -/
example (ext : TorchExt Unit) : ∃ f, logisticFit (L := ℕ) (n := 2) (d := 3) ext
    (fun _ x _ => (x, none)) (fun _ _ => none) (fun _ M _ => .ok M)
    (fun _ b => ⟨fun _ _ => 0, if b then some fun _ => 0 else none⟩) EstKind.logistic.defaults (fun _ _ => 1) ![0, 1] () = .ok f :=
  logisticFit_total idTrainer_good.2 idTrainer_good.1 zeroInit_good default_ready (by norm_num) (by norm_num) _
    (by rw [npUnique, Finset.length_sort]; decide) _

/-! ## C65 -/

/-- rows of two non-negative numbers summing to one, the second being the logistic function of the score -/
def IsProbTable {N : ℕ} (t : Tensor ℝ) (s : Fin N → ℝ) : Prop :=
  t.shape = [N, 2] ∧ ∀ i : Fin N, t.get [i.1, 1] = 1 / (1 + Real.exp (-s i)) ∧ 0 ≤ t.get [i.1, 0] ∧ 0 ≤ t.get [i.1, 1] ∧
    t.get [i.1, 0] + t.get [i.1, 1] = 1

theorem expit_mem (x : ℝ) : 0 < expit x ∧ expit x < 1 := by
  unfold expit
  have := Real.exp_pos (-x)
  refine ⟨by positivity, ?_⟩
  rw [div_lt_one (by positivity)]
  linarith

theorem table_of_vec {N : ℕ} {t : Tensor ℝ} {s : Fin N → ℝ} (h : IsVec t s) :
    IsProbTable (npT (vstack2 ((t.map expit).map fun x => 1 - x) (t.map expit))) s := by
  have hsh : ∀ f : ℝ → ℝ, (atleast2d (t.map f)) = ⟨[1, N], fun i => f (t.get i.tail)⟩ := by
    intro f
    simp [atleast2d, Tensor.map, h.1, Tensor.unsqueeze0]
  have h2 : ((t.map expit).map fun x => 1 - x) = t.map fun x => 1 - expit x := rfl
  rw [h2]
  refine ⟨by simp [npT, vstack2, hsh, Tensor.size0], fun i => ?_⟩
  have e0 : (npT (vstack2 (t.map fun x => 1 - expit x) (t.map expit))).get [i.1, 0] = 1 - expit (s i) := by
    simp [npT, vstack2, hsh, Tensor.size0, h.2]
  have e1 : (npT (vstack2 (t.map fun x => 1 - expit x) (t.map expit))).get [i.1, 1] = expit (s i) := by
    simp [npT, vstack2, hsh, Tensor.size0, h.2]
  rw [e0, e1]
  obtain ⟨h3, h4⟩ := expit_mem (s i)
  exact ⟨rfl, by linarith, by linarith, by ring⟩

theorem proba_binary {L : Type} {n d : ℕ} {f : LogFitted L d} (hc : f.classes.length = 2) (X : Fin n → Fin d → ℝ) :
    f.proba X = (dotCoef X f.coef >>= fun s => addIntercept s f.intercept >>= fun s =>
      .ok (npT (vstack2 ((s.map expit).map fun x => 1 - x) (s.map expit)))) := by
  unfold LogFitted.proba
  rw [if_pos (Or.inr (by omega))]

/-- **C65** (partial: see the violations below) Two classes, dedicated solver, or torch solver with an intercept in dimension at least two:
`predict_proba` returns on every data set one row per sample, of two non-negative numbers summing to one; the second is the logistic function
of the score that `predict` thresholds. -/
theorem C65_binary_partial {G L : Type} [LinearOrder L] {n d : ℕ} {ext : TorchExt G} {grads : Autograd d} {solve : Oracle}
    {train : Trainer d} (ht : GoodTrainer train) {init : LinInit d} (hi : GoodInit init) {P : EstParams} {X : Fin n → Fin d → ℝ}
    {y : Fin n → L} {g : G} {f : LogFitted L d} (h : logisticFit ext grads solve train init P X y g = .ok f)
    (h2 : (npUnique y).length = 2) (hok : route .logistic P.solver = .ok .dedicated ∨ (P.fit_intercept = true ∧ 2 ≤ d)) :
    ∃ (w : Fin d → ℝ) (b : ℝ) (c0 c1 : L), npUnique y = [c0, c1] ∧ ∀ (N : ℕ) (X' : Fin N → Fin d → ℝ),
      (∃ t, f.proba X' = .ok t ∧ IsProbTable t (fun i => affine w b (X' i))) ∧
      f.predict X' = .ok (.flat (List.ofFn fun i => if 0 ≤ affine w b (X' i) then c1 else c0)) := by
  have hcl := (logisticFit_ok ht hi h).2.2.1
  have hc2 : f.classes.length = 2 := by rw [hcl, h2]
  obtain ⟨c0, c1, hlt, hc, -⟩ := npUnique_two h2
  have key : ∃ (w : Fin d → ℝ) (b : ℝ), BinaryRule f w b ∧ ∃ c t, f.coef = some c ∧ IsVec c w ∧ f.intercept = some t ∧ IsScalar t b := by
    obtain ⟨-, -, -, -, h | h | h⟩ := logisticFit_ok ht hi h
    · obtain ⟨-, -, -, w, b, hc, hb, hz⟩ := h
      exact ⟨w, b, ⟨⟨_, hc, Or.inl (listT_ofFn w)⟩, Or.inl ⟨_, hb, rfl, rfl⟩⟩, _, _, hc, listT_ofFn w, hb, rfl, rfl⟩
    · obtain ⟨post, hr', -, l, a, -, hr⟩ := h
      obtain ⟨hfi, hd⟩ : P.fit_intercept = true ∧ 2 ≤ d := by
        rcases hok with h | h
        · rw [h] at hr'; cases hr'
        · exact h
      have hw : IsVec l.weightArray (l.weight 0) := by
        rcases weightArray_coef l with h | h
        · exact h
        · omega
      cases hb : l.bias with
      | none => have := hr.bias; rw [hb, hfi] at this; cases this
      | some b =>
        have hi' : f.intercept = some (listT (List.ofFn b)).squeeze := by rw [hr.intercept, hb]; rfl
        exact ⟨l.weight 0, b 0, ⟨⟨_, hr.coef, Or.inl hw⟩, Or.inl ⟨_, hi', biasArray_scalar b⟩⟩, _, _, hr.coef, hw, hi', biasArray_scalar b⟩
    · obtain ⟨-, -, h3, -⟩ := h
      omega
  obtain ⟨w, b, hrule, c, t, hcoef, hcv, hint, htb⟩ := key
  refine ⟨w, b, c0, c1, hc, fun N X' => ⟨?_, predict_of_rule hcl hc hrule X'⟩⟩
  obtain ⟨s, hs, -, hv, -⟩ := npDot_coef X' (Or.inl hcv)
  obtain ⟨r, hr, hrv⟩ := (npZip_scalar (s := fun i => ∑ j, X' i j * w j) (· + ·) htb).1 (hv hcv)
  refine ⟨_, ?_, table_of_vec hrv⟩
  rw [proba_binary hc2, hcoef, hint]
  simp only [dotCoef, addIntercept, hs, ok_bind, hr]

/-- **C65** (violated) Without an intercept, after a fit with the torch solver on two classes, `predict_proba` raises `TypeError` on every
data set. -/
theorem C65_no_intercept_false {G L : Type} [LinearOrder L] {n d : ℕ} {ext : TorchExt G} {grads : Autograd d} {solve : Oracle}
    {train : Trainer d} (ht : GoodTrainer train) {init : LinInit d} (hi : GoodInit init) {P : EstParams} {X : Fin n → Fin d → ℝ}
    {y : Fin n → L} {g : G} {f : LogFitted L d} (h : logisticFit ext grads solve train init P X y g = .ok f)
    (h2 : (npUnique y).length = 2) {post : Bool} (hr : route .logistic P.solver = .ok (.torch post)) (hfi : P.fit_intercept = false)
    (N : ℕ) (X' : Fin N → Fin d → ℝ) : f.proba X' = .error .typeError := by
  have hcl := (logisticFit_ok ht hi h).2.2.1
  rw [proba_binary (by rw [hcl, h2])]
  obtain ⟨-, -, -, -, h | h | h⟩ := logisticFit_ok ht hi h
  · rw [h.1] at hr; cases hr
  · obtain ⟨_, -, -, l, a, -, hrd⟩ := h
    have hb : l.bias = none := by
      have := hrd.bias
      rw [hfi] at this
      simpa using this
    have hint : f.intercept = none := by rw [hrd.intercept, hb]; rfl
    obtain ⟨s, hs, -⟩ := npDot_coef X' (weightArray_coef l)
    rw [hrd.coef, hint]
    simp only [dotCoef, hs, ok_bind, addIntercept, error_bind]
  · obtain ⟨_, _, h3, -⟩ := h; omega

/-- **C65** (violated) In dimension one, after a fit with the torch solver on two classes with an intercept, `predict_proba` returns a single
row of `2 N` numbers instead of `N` rows of two. -/
theorem C65_dimension_one_false {G L : Type} [LinearOrder L] {n : ℕ} {ext : TorchExt G} {grads : Autograd 1} {solve : Oracle}
    {train : Trainer 1} (ht : GoodTrainer train) {init : LinInit 1} (hi : GoodInit init) {P : EstParams} {X : Fin n → Fin 1 → ℝ}
    {y : Fin n → L} {g : G} {f : LogFitted L 1} (h : logisticFit ext grads solve train init P X y g = .ok f)
    (h2 : (npUnique y).length = 2) {post : Bool} (hr : route .logistic P.solver = .ok (.torch post)) (hfi : P.fit_intercept = true)
    (N : ℕ) (X' : Fin N → Fin 1 → ℝ) : ∃ t, f.proba X' = .ok t ∧ t.shape = [1, N + N] := by
  have hcl := (logisticFit_ok ht hi h).2.2.1
  rw [proba_binary (by rw [hcl, h2])]
  obtain ⟨-, -, -, -, h | h | h⟩ := logisticFit_ok ht hi h
  · rw [h.1] at hr; cases hr
  · obtain ⟨_, -, -, l, a, -, hrd⟩ := h
    cases hb : l.bias with
    | none => have := hrd.bias; rw [hb, hfi] at this; cases this
    | some b =>
      have hint : f.intercept = some (listT (List.ofFn b)).squeeze := by rw [hrd.intercept, hb]; rfl
      obtain ⟨s, hs, -, -, hm⟩ := npDot_coef X' (weightArray_coef l)
      obtain ⟨r, hr', hrm⟩ := (npZip_scalar (s := fun i => ∑ j, X' i j * l.weight 0 j) (· + ·) (biasArray_scalar b)).2 (hm rfl)
      rw [hrd.coef, hint]
      simp only [dotCoef, hs, ok_bind, addIntercept, hr']
      refine ⟨_, rfl, ?_⟩
      simp [npT, vstack2, atleast2d, Tensor.map, hrm.1, Tensor.size0]
  · obtain ⟨_, _, h3, -⟩ := h; omega

/-- **C65** (violated) With more than two classes `predict_proba` returns the raw affine scores, not probabilities: for a model without
intercept the row of the origin is made of zeros, for every fit. -/
theorem C65_multiclass_false {G L : Type} [LinearOrder L] {n d : ℕ} {ext : TorchExt G} {grads : Autograd d} {solve : Oracle}
    {train : Trainer d} (ht : GoodTrainer train) {init : LinInit d} (hi : GoodInit init) {P : EstParams} {X : Fin n → Fin d → ℝ}
    {y : Fin n → L} {g : G} {f : LogFitted L d} (h : logisticFit ext grads solve train init P X y g = .ok f)
    (h2 : 2 < (npUnique y).length) (hfi : P.fit_intercept = false) :
    ∃ t, f.proba (fun (_ : Fin 1) _ => 0) = .ok t ∧ t.shape = [1, (npUnique y).length] ∧
      ∑ c ∈ Finset.range (npUnique y).length, t.get [0, c] = 0 := by
  obtain ⟨-, -, hcl, -, h | h | h⟩ := logisticFit_ok ht hi h
  · omega
  · obtain ⟨_, _, h3, -⟩ := h; omega
  · obtain ⟨-, -, -, l, a, htorch, hr⟩ := h
    obtain ⟨t, ht', hm⟩ := apply_mat l (fun (_ : Fin 1) (_ : Fin d) => (0 : ℝ))
    refine ⟨t, ?_, hm.1, Finset.sum_eq_zero fun c hc => ?_⟩
    · unfold LogFitted.proba
      rw [if_neg (by rw [htorch, hcl]; simp; omega), htorch]
      exact ht'
    · have hb : l.bias = none := by
        have := hr.bias
        rw [hfi] at this
        simpa using this
      have := hm.2 0 ⟨c, by simpa using hc⟩
      simpa [LinMap.out, hb] using this

/-- non-vacuity of the C65 statements: without intercept the default settings still fit -/
example : TorchReady { EstKind.logistic.defaults with fit_intercept := false } :=
  ⟨⟨_, C66_bare_name_false .logistic⟩, default_cost, default_parse, by simp [EstKind.defaults]⟩

end Skwdro
