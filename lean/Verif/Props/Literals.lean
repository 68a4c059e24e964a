import Verif.Lemmas.Tensor
import Verif.Lemmas.Literals
import Verif.Props.CostDecoder

/-! # C105, C106: which cost codes are accepted (`/repo/skwdro/base/cost_decoder.py`) -/

namespace Skwdro
open Spec

/-- **C105** A string is read as a number exactly when it is a literal of the grammar (blanks, sign, digits with
single underscores, point, exponent, or the words for the infinity and for "not a number"), with the value written;
anything else raises `ValueError`. -/
theorem C105_literals (s : PyStr) :
    (∀ x, pyFloat s = .ok x ↔ FloatLiteral s x) ∧
    (pyFloat s = .error .valueError ↔ ∀ x, ¬ FloatLiteral s x) ∧
    (∀ x y, FloatLiteral s x → FloatLiteral s y → x = y) := by
  refine ⟨pyFloat_iff s, pyFloat_refuses s, fun x y hx hy => ?_⟩
  have h1 := (pyFloat_iff s x).2 hx
  rw [(pyFloat_iff s y).2 hy] at h1
  exact (Except.ok.inj h1).symm

/-- `1_0.5e2` -/
theorem literal_example : FloatLiteral " 1_0.5e2\n".toList (.fin 1050) := by
  have d1 : IsDigit '1' 1 := by unfold IsDigit; decide
  have d0 : IsDigit '0' 0 := by unfold IsDigit; decide
  have d5 : IsDigit '5' 5 := by unfold IsDigit; decide
  have d2 : IsDigit '2' 2 := by unfold IsDigit; decide
  have h := Unsigned.point (.some ((Digits.one d1).under d0)) (.some (.one d5)) (by decide)
    (.plain (.inl rfl) (.one d2))
  have hq : (((10 * 1 + 0 : ℕ) : ℚ) + ((5 : ℕ) : ℚ) / 10 ^ 1) * 10 ^ ((2 : ℕ) : ℤ) = 1050 := by norm_num
  rw [hq] at h
  exact ⟨[' '], "1_0.5e2".toList, ['\n'], by decide, by intro c hc; simp at hc; simp [hc],
    by intro c hc; simp at hc; simp [hc], .bare (.number h)⟩

/-- The literal `1e-3` for one thousandth. -/
theorem literal_small : FloatLiteral "1e-3".toList (.fin (1 / 1000)) := by
  have d1 : IsDigit '1' 1 := by unfold IsDigit; decide
  have d3 : IsDigit '3' 3 := by unfold IsDigit; decide
  have h := Unsigned.whole (.one d1) (.minus (c := 'e') (.inl rfl) (.one d3))
  have hq : ((1 : ℕ) : ℚ) * 10 ^ (-((3 : ℕ) : ℤ)) = 1 / 1000 := by norm_num
  rw [hq] at h
  exact ⟨[], "1e-3".toList, [], by decide, by simp [Blanks], by simp [Blanks], .bare (.number h)⟩

example := ((C105_literals " 1_0.5e2\n".toList).1 _).2 literal_example

/-- `1e` is not a literal -/
theorem not_literal_1e (x : XNum ℚ) : ¬ FloatLiteral "1e".toList x := by
  have h : pyFloat "1e".toList = .error .valueError := by
    have e : stripBlanks "1e".toList = "1e".toList := by decide
    rw [pyFloat_eq, e]
    have : readSigned "1e".toList = none := by
      show scanUnsigned "1e".toList = none
      unfold scanUnsigned
      rw [if_neg (by decide), if_neg (by decide)]
      have : scanDecimal "1e".toList = none := by
        unfold scanDecimal
        have e1 : scanDigits "1e".toList = (1, 1, ['e']) := by decide
        have e2 : scanFrac ['e'] = (0, 0, ['e']) := by decide
        have e3 : scanExp ['e'] = none := by decide
        simp only [e1, e2, e3]
        simp
      rw [this]
      rfl
    rw [this]
  exact (pyFloat_refuses _).1 h x

/-- **C105** (negation of: every number literal may be written in a code) The literal `1e-3`, which python itself
prints for small powers, cannot be used as the power of a cost code: both decoders raise `ValueError`. -/
theorem C105_any_literal_false :
    FloatLiteral "1e-3".toList (.fin (1 / 1000)) ∧ FloatLiteral "2".toList (.fin 2) ∧
    cost_from_str (joinDash ["t".toList, "NC".toList, "1e-3".toList, "2".toList]) = .error .valueError ∧
    ∀ lab, parse_code_torch (some (joinDash ["t".toList, "NC".toList, "1e-3".toList, "2".toList])) lab
      = .error .valueError := by
  have h1e : pyFloat "1e".toList = .error .valueError := (pyFloat_refuses _).2 not_literal_1e
  have h2 : pyFloat "2".toList = .ok (.fin ((2 : ℕ) : ℚ)) := pyFloat_decimal 2
  have h3 : pyFloat "3".toList = .ok (.fin ((3 : ℕ) : ℚ)) := pyFloat_decimal 3
  have hs : splitDash (joinDash ["t".toList, "NC".toList, "1e-3".toList, "2".toList]) =
      ["t".toList, "NC".toList, "1e".toList, "3".toList, "2".toList] := by decide
  refine ⟨literal_small, ?_, ?_, fun lab => ?_⟩
  · have := (pyFloat_iff _ _).1 (pyFloat_decimal 2)
    exact_mod_cast this
  · simp only [cost_from_str, hs, kappaField, h2]
    simp only [ok_bind, if_true, h3, h1e]
    rfl
  · simp only [parse_code_torch, hs, h2, h1e]
    rfl

/-- **C105** (partial: literals without a minus sign) Any literals without a minus sign can be used for the power, the
norm order and the label weight, and are read with the values they denote. -/
theorem C105_fields_partial (w t k : PyStr) (W T K : XNum ℚ) (lab : Bool)
    (hw : FloatLiteral w W) (ht : FloatLiteral t T) (hk : FloatLiteral k K)
    (hd : ∀ f ∈ [w, t, k], '-' ∉ f) :
    parse_code_torch (some (joinDash ["t".toList, "NLC".toList, w, t, k])) lab
      = .ok ⟨"t".toList, "NLC".toList, W, T, K⟩ ∧
    parse_code_torch (some (joinDash ["NC".toList, w, t])) lab
      = .ok ⟨"t".toList, "NC".toList, W, T, .fin 100000000⟩ := by
  have hd' : ∀ i : PyStr, '-' ∉ i → ∀ f ∈ ["t".toList, i, w, t, k], '-' ∉ f := by
    intro i hi f hf
    simp only [List.mem_cons, List.not_mem_nil, or_false] at hf
    rcases hf with rfl | rfl | rfl | rfl | rfl
    · decide
    · exact hi
    all_goals exact hd _ (by simp)
  refine ⟨(C01_fields_roundtrip _ _ _ _ _ W T K lab (hd' "NLC".toList (by decide)) ((pyFloat_iff _ _).2 hw)
    ((pyFloat_iff _ _).2 ht) ((pyFloat_iff _ _).2 hk)).1,
    (C01_fields_roundtrip "t".toList _ _ _ k W T K lab (hd' "NC".toList (by decide)) ((pyFloat_iff _ _).2 hw)
    ((pyFloat_iff _ _).2 ht) ((pyFloat_iff _ _).2 hk)).2.2⟩

example (lab : Bool) := C105_fields_partial " 1_0.5e2\n".toList "INF".toList "+.5".toList (.fin 1050) .pinf
  (.fin (1 / 2)) lab literal_example
  ⟨[], "INF".toList, [], by simp, by simp [Blanks], by simp [Blanks], .bare (.inf (by decide))⟩
  ⟨[], "+.5".toList, [], by simp, by simp [Blanks], by simp [Blanks], .plus (.number (by
    have h := Unsigned.point .none (.some (.one (show IsDigit '5' 5 by unfold IsDigit; decide))) (by decide) .none
    have hq : (((0 : ℕ) : ℚ) + ((5 : ℕ) : ℚ) / 10 ^ 1) * 10 ^ (0 : ℤ) = 1 / 2 := by norm_num
    rw [hq] at h
    exact h))⟩ (by decide)

theorem ge0_iff (K : XNum ℚ) : K.ge0 = true ↔ K = .pinf ∨ ∃ q : ℚ, 0 ≤ q ∧ K = .fin q := by
  cases K <;> simp [XNum.ge0]

theorem mkNormLabelCost_iff (T W K : XNum ℚ) (name) (c : CostObj) : mkNormLabelCost T W K name = .ok c ↔
    (K = .pinf ∨ ∃ q : ℚ, 0 ≤ q ∧ K = .fin q) ∧ c = ⟨.normLabelCost, T, W, some K, name⟩ := by
  rw [← ge0_iff]
  unfold mkNormLabelCost
  split
  · rename_i h
    simp only [h, true_and, Except.ok.injEq, eq_comm]
  · rename_i h
    simp [h]

theorem kappaField_iff (rest : List PyStr) (K : XNum ℚ) : kappaField rest = .ok K ↔ LabelWeight rest K := by
  unfold LabelWeight
  cases rest with
  | nil =>
      simp only [kappaField, DEFAULT_KAPPA, Except.ok.injEq]
      have e : (100000000 : ℚ) = 10 ^ 8 := by norm_num
      rw [e]
      simp [eq_comm]
  | cons k r =>
      simp only [kappaField, pyFloat_iff]
      simp

theorem bind_ok_iff {α β : Type} (a : Except PyErr α) (f : α → Except PyErr β) (b : β) :
    (a >>= f) = .ok b ↔ ∃ x, a = .ok x ∧ f x = .ok b := by
  cases a with
  | error e =>
      simp only [error_bind, reduceCtorEq, false_and, exists_false]
  | ok x => simp only [ok_bind, Except.ok.injEq, exists_eq_left']

/-- **C106** The one-step decoder accepts exactly the codes `t-NC-power-norm…` and `t-NLC-power-norm…` whose numeric
fields are literals, the fifth field being the label weight; it gives the cost these fields describe, named by the
code. -/
theorem C106_one_step (code : PyStr) (c : CostObj) :
    cost_from_str code = .ok c ↔ ∃ i w t rest W T K,
      code = joinDash ("t".toList :: i :: w :: t :: rest) ∧ (∀ f ∈ i :: w :: t :: rest, '-' ∉ f) ∧
      FloatLiteral w W ∧ FloatLiteral t T ∧ LabelWeight rest K ∧ Denotes i W T K (some code) c := by
  constructor
  · intro h
    have hj := joinDash_splitDash code
    have hn := splitDash_fields_nodash code
    unfold cost_from_str at h
    dsimp only at h
    split at h
    · rename_i e i w t rest heq
      rw [heq] at hj hn
      rw [bind_ok_iff] at h
      obtain ⟨K, hK, h⟩ := h
      split at h
      · rename_i he
        subst he
        have hn' : ∀ f ∈ i :: w :: t :: rest, '-' ∉ f := fun f hf => hn f (List.mem_cons_of_mem _ hf)
        split at h
        · rename_i hi
          rw [bind_ok_iff] at h
          obtain ⟨T, hT, h⟩ := h
          rw [bind_ok_iff] at h
          obtain ⟨W, hW, h⟩ := h
          exact ⟨i, w, t, rest, W, T, K, hj.symm, hn', (pyFloat_iff _ _).1 hW, (pyFloat_iff _ _).1 hT,
            (kappaField_iff _ _).1 hK, .inl ⟨hi, (Except.ok.inj h).symm⟩⟩
        · split at h
          · rename_i hi
            rw [bind_ok_iff] at h
            obtain ⟨T, hT, h⟩ := h
            rw [bind_ok_iff] at h
            obtain ⟨W, hW, h⟩ := h
            exact ⟨i, w, t, rest, W, T, K, hj.symm, hn', (pyFloat_iff _ _).1 hW, (pyFloat_iff _ _).1 hT,
              (kappaField_iff _ _).1 hK, .inr ⟨hi, (mkNormLabelCost_iff _ _ _ _ _).1 h⟩⟩
          · cases h
      · cases h
    · cases h
  · rintro ⟨i, w, t, rest, W, T, K, hj, hn, hW, hT, hK, hc⟩
    have hs : splitDash code = "t".toList :: i :: w :: t :: rest := by
      rw [hj]
      refine splitDash_join _ (by simp) fun f hf => ?_
      rcases List.mem_cons.1 hf with rfl | hf
      · decide
      · exact hn f hf
    simp only [cost_from_str, hs, (kappaField_iff _ _).2 hK, ok_bind, if_true, (pyFloat_iff _ _).2 hW,
      (pyFloat_iff _ _).2 hT]
    rcases hc with ⟨rfl, rfl⟩ | ⟨rfl, hK, rfl⟩
    · simp [mkNormCost]
    · rw [if_neg (by decide), if_pos rfl]
      exact (mkNormLabelCost_iff _ _ _ _ _).2 ⟨hK, rfl⟩

/-- **C106** The two-step decoder accepts exactly the codes `identifier-power-norm`, `t-identifier-power-norm` and
`engine-identifier-power-norm-weight` (whatever the engine) whose numeric fields are literals, and gives the cost
these fields describe. -/
theorem C106_two_step (code : PyStr) (lab : Bool) (c : CostObj) :
    (parse_code_torch (some code) lab >>= cost_from_parse_torch) = .ok c ↔ ∃ i w t rest W T K,
      Shape code i w t rest ∧ (∀ f ∈ i :: w :: t :: rest, '-' ∉ f) ∧
      FloatLiteral w W ∧ FloatLiteral t T ∧ LabelWeight rest K ∧ Denotes i W T K none c := by
  have build : ∀ e i W T K, cost_from_parse_torch ⟨e, i, W, T, K⟩ = .ok c ↔ Denotes i W T K none c := by
    intro e i W T K
    unfold cost_from_parse_torch Denotes
    dsimp only
    split
    · rename_i h
      subst h
      simp [mkNormCost, eq_comm]
    · rename_i h
      split
      · rename_i h'
        rw [mkNormLabelCost_iff]
        simp [h']
      · rename_i h'
        simp only [h, h', false_and, or_false, reduceCtorEq]
  have hk0 : ∀ K, K = DEFAULT_KAPPA → LabelWeight [] K := by
    intro K hK
    exact (kappaField_iff _ _).1 (by rw [hK]; rfl)
  rw [bind_ok_iff]
  constructor
  · rintro ⟨q, hq, hc⟩
    have hj := joinDash_splitDash code
    have hn := splitDash_fields_nodash code
    unfold parse_code_torch at hq
    dsimp only at hq
    split at hq
    · rename_i e i w t heq
      rw [heq] at hj hn
      split at hq
      · rename_i he
        subst he
        rw [bind_ok_iff] at hq
        obtain ⟨W, hW, hq⟩ := hq
        rw [bind_ok_iff] at hq
        obtain ⟨T, hT, hq⟩ := hq
        cases hq
        exact ⟨i, w, t, [], W, T, _, .inr (.inl ⟨hj.symm, rfl⟩), fun f hf => hn f (List.mem_cons_of_mem _ hf),
          (pyFloat_iff _ _).1 hW, (pyFloat_iff _ _).1 hT, hk0 _ rfl, (build _ _ _ _ _).1 hc⟩
      · cases hq
    · rename_i i w t heq
      rw [heq] at hj hn
      rw [bind_ok_iff] at hq
      obtain ⟨W, hW, hq⟩ := hq
      rw [bind_ok_iff] at hq
      obtain ⟨T, hT, hq⟩ := hq
      cases hq
      exact ⟨i, w, t, [], W, T, _, .inl ⟨hj.symm, rfl⟩, hn,
        (pyFloat_iff _ _).1 hW, (pyFloat_iff _ _).1 hT, hk0 _ rfl, (build _ _ _ _ _).1 hc⟩
    · rename_i e i w t k heq
      rw [heq] at hj hn
      rw [bind_ok_iff] at hq
      obtain ⟨K, hK, hq⟩ := hq
      rw [bind_ok_iff] at hq
      obtain ⟨W, hW, hq⟩ := hq
      rw [bind_ok_iff] at hq
      obtain ⟨T, hT, hq⟩ := hq
      cases hq
      exact ⟨i, w, t, [k], W, T, K, .inr (.inr ⟨e, k, hn e (by simp), hj.symm, rfl⟩),
        fun f hf => hn f (List.mem_cons_of_mem _ hf), (pyFloat_iff _ _).1 hW, (pyFloat_iff _ _).1 hT,
        .inr ⟨k, [], rfl, (pyFloat_iff _ _).1 hK⟩, (build _ _ _ _ _).1 hc⟩
    · cases hq
  · rintro ⟨i, w, t, rest, W, T, K, hs, hn, hW, hT, hK, hc⟩
    have hW' := (pyFloat_iff _ _).2 hW
    have hT' := (pyFloat_iff _ _).2 hT
    rcases hs with ⟨rfl, rfl⟩ | ⟨rfl, rfl⟩ | ⟨e, k, he, rfl, rfl⟩
    · have hs := splitDash_join [i, w, t] (by simp) hn
      have hK' : K = DEFAULT_KAPPA := (Except.ok.inj ((kappaField_iff _ _).2 hK)).symm
      refine ⟨⟨"t".toList, i, W, T, DEFAULT_KAPPA⟩, ?_, ?_⟩
      · simp only [parse_code_torch, hs, hW', hT', ok_bind]
      · rw [build, ← hK']
        exact hc
    · have hs := splitDash_join ["t".toList, i, w, t] (by simp) (fun f hf => by
        rcases List.mem_cons.1 hf with rfl | hf
        · decide
        · exact hn f hf)
      have hK' : K = DEFAULT_KAPPA := (Except.ok.inj ((kappaField_iff _ _).2 hK)).symm
      refine ⟨⟨"t".toList, i, W, T, DEFAULT_KAPPA⟩, ?_, ?_⟩
      · simp only [parse_code_torch, hs, hW', hT', ok_bind, if_true]
      · rw [build, ← hK']
        exact hc
    · have hs := splitDash_join [e, i, w, t, k] (by simp) (fun f hf => by
        rcases List.mem_cons.1 hf with rfl | hf
        · exact he
        · exact hn f hf)
      have hK' : pyFloat k = .ok K := (kappaField_iff [k] _).2 hK
      refine ⟨⟨e, i, W, T, K⟩, ?_, (build _ _ _ _ _).2 hc⟩
      simp only [parse_code_torch, hs, hW', hT', hK', ok_bind]

/-- **C106** (negation of: only the documented formats are accepted) The one-step decoder accepts a label weight
followed by anything at all, and both accept a label weight for a cost without labels, which then ignores it. -/
theorem C106_documented_false (garbage : PyStr) (h : '-' ∉ garbage) :
    (∃ c, cost_from_str (joinDash ["t".toList, "NLC".toList, "2".toList, "2".toList, "1".toList, garbage]) = .ok c) ∧
    (∃ c, cost_from_str (joinDash ["t".toList, "NC".toList, "2".toList, "2".toList, "1".toList]) = .ok c ∧
      c.kappa = none) := by
  have h2 : FloatLiteral "2".toList (.fin ((2 : ℕ) : ℚ)) := (pyFloat_iff _ _).1 (pyFloat_decimal 2)
  have h1 : FloatLiteral "1".toList (.fin ((1 : ℕ) : ℚ)) := (pyFloat_iff _ _).1 (pyFloat_decimal 1)
  refine ⟨⟨_, (C106_one_step _ _).2 ⟨_, _, _, _, _, _, _, rfl, ?_, h2, h2, .inr ⟨_, _, rfl, h1⟩,
    .inr ⟨rfl, .inr ⟨_, by norm_num, rfl⟩, rfl⟩⟩⟩,
    ⟨_, (C106_one_step _ _).2 ⟨_, _, _, _, _, _, _, rfl, ?_, h2, h2, .inr ⟨_, _, rfl, h1⟩, .inl ⟨rfl, rfl⟩⟩, rfl⟩⟩
  · intro f hf
    simp only [List.mem_cons, List.not_mem_nil, or_false] at hf
    rcases hf with rfl | rfl | rfl | rfl | rfl
    · decide
    · decide
    · decide
    · decide
    · exact h
  · decide

example := C106_documented_false "anything".toList (by decide)

end Skwdro
