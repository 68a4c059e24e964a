import Verif.Lemmas.CostDecoder
import Mathlib.Tactic.FinCases

/-! # C01–C03, C71: cost codes (`/repo/skwdro/base/cost_decoder.py`) -/

namespace Skwdro
open Spec

/-- **C01** A code written field by field is decoded field by field: the third field (second when the engine is
omitted) is the power, the next one the norm order, the last one the label weight. -/
theorem C01_fields_roundtrip (e i w t k : PyStr) (W T K : XNum ℚ) (lab : Bool)
    (hd : ∀ f ∈ [e, i, w, t, k], '-' ∉ f)
    (hw : pyFloat w = .ok W) (ht : pyFloat t = .ok T) (hk : pyFloat k = .ok K) :
    parse_code_torch (some (joinDash [e, i, w, t, k])) lab = .ok ⟨e, i, W, T, K⟩ ∧
    parse_code_torch (some (joinDash ["t".toList, i, w, t])) lab = .ok ⟨"t".toList, i, W, T, .fin 100000000⟩ ∧
    parse_code_torch (some (joinDash [i, w, t])) lab = .ok ⟨"t".toList, i, W, T, .fin 100000000⟩ := by
  have hi : ∀ f ∈ ["t".toList, i, w, t], '-' ∉ f := by
    intro f hf
    rcases List.mem_cons.1 hf with rfl | hf
    · decide
    · exact hd f (by simp_all; tauto)
  have h3 : ∀ f ∈ [i, w, t], '-' ∉ f := fun f hf => hi f (by simp_all)
  refine ⟨?_, ?_, ?_⟩
  · simp [parse_code_torch, splitDash_join _ _ hd, hw, ht, hk, bind, Except.bind]
  · simp only [parse_code_torch, splitDash_join _ (by simp) hi]
    simp [hw, ht, bind, Except.bind, DEFAULT_KAPPA]
  · simp [parse_code_torch, splitDash_join _ _ h3, hw, ht, bind, Except.bind, DEFAULT_KAPPA]

/-- **C01** (one-step decoder) The code `t-NLC-<power>-<order>-<kappa>` with decimal integers decodes to the label
cost with exactly these parameters; `t-NC-<power>-<order>` to the plain norm cost. -/
theorem C01_decimal_roundtrip (w t k : ℕ) :
    cost_from_str (joinDash ["t".toList, "NLC".toList, decimal w, decimal t, decimal k]) =
      .ok ⟨.normLabelCost, .fin t, .fin w, some (.fin k),
        some (joinDash ["t".toList, "NLC".toList, decimal w, decimal t, decimal k])⟩ ∧
    cost_from_str (joinDash ["t".toList, "NLC".toList, decimal w, decimal t]) =
      .ok ⟨.normLabelCost, .fin t, .fin w, some (.fin 100000000),
        some (joinDash ["t".toList, "NLC".toList, decimal w, decimal t])⟩ ∧
    cost_from_str (joinDash ["t".toList, "NC".toList, decimal w, decimal t]) =
      .ok ⟨.normCost, .fin t, .fin w, none,
        some (joinDash ["t".toList, "NC".toList, decimal w, decimal t])⟩ := by
  have h1 := decimal_nodash w
  have h2 := decimal_nodash t
  have h3 := decimal_nodash k
  have a : splitDash (joinDash ["t".toList, "NLC".toList, decimal w, decimal t, decimal k]) = _ :=
    splitDash_join _ (by simp) (by intro f hf; fin_cases hf <;> first | decide | assumption)
  have b : splitDash (joinDash ["t".toList, "NLC".toList, decimal w, decimal t]) = _ :=
    splitDash_join _ (by simp) (by intro f hf; fin_cases hf <;> first | decide | assumption)
  have c : splitDash (joinDash ["t".toList, "NC".toList, decimal w, decimal t]) = _ :=
    splitDash_join _ (by simp) (by intro f hf; fin_cases hf <;> first | decide | assumption)
  refine ⟨?_, ?_, ?_⟩
  · simp only [cost_from_str, a, kappaField]
    simp [pyFloat_decimal, bind, Except.bind, mkNormLabelCost, XNum.ge0]
  · simp only [cost_from_str, b, kappaField]
    simp [pyFloat_decimal, bind, Except.bind, mkNormLabelCost, XNum.ge0, DEFAULT_KAPPA]
  · simp only [cost_from_str, c, kappaField]
    simp [pyFloat_decimal, bind, Except.bind, mkNormCost]

/-- **C01** (literals) A literal `digits.digits` denotes the expected rational number. -/
theorem C01_decimal_literals (n : ℕ) (fs : List ℕ) (hf : ∀ x ∈ fs, x < 10) :
    pyFloat (decimal n ++ '.' :: digitChars fs) = .ok (.fin (n + ((Nat.ofDigits 10 fs : ℕ) : ℚ) / 10 ^ fs.length)) := by
  obtain ⟨d, ds, he, h, hv⟩ := decimal_digits n
  rw [he, digitChars, pyFloat_digits d ds fs.reverse h (by simpa using hf), hv, foldl_ofDigits]
  simp

example : ∃ e i w t k : PyStr, ∃ W T K : XNum ℚ, (∀ f ∈ [e, i, w, t, k], '-' ∉ f) ∧
    pyFloat w = .ok W ∧ pyFloat t = .ok T ∧ pyFloat k = .ok K :=
  ⟨"t".toList, "NLC".toList, "1".toList, "2".toList, "inf".toList, .fin 1, .fin 2, .pinf,
    by decide, pyFloat_decimal 1, pyFloat_decimal 2, by decide⟩

/-- the fields of `t-NLC-2-1.5-inf` -/
example := C01_fields_roundtrip "t".toList "NLC".toList "2".toList "1.5".toList "inf".toList (.fin 2) (.fin (3 / 2)) .pinf true (by decide)
  (pyFloat_decimal 2)
  (by have h := C01_decimal_literals 1 [5] (by simp); have e : decimal 1 ++ '.' :: digitChars [5] = "1.5".toList := by decide
      rw [e] at h; rw [h]; norm_num [Nat.ofDigits])
  rfl

/-- **C02** On codes with four fields (three dashes), or five fields starting with the engine `t`, the two decoders
accept the same codes and build the same cost, up to its display name. -/
theorem C02_decoders_agree (code : PyStr) (lab : Bool)
    (h : code.count '-' = 3 ∨ (code.count '-' = 4 ∧ ∃ r, code = "t-".toList ++ r)) (c : CostObj) :
    (∃ nm, cost_from_str code = .ok { c with name := nm }) ↔
      ∃ nm, (parse_code_torch (some code) lab >>= cost_from_parse_torch) = .ok { c with name := nm } := by
  have hl := splitDash_length code
  obtain ⟨k, p, pw, kp, nm0⟩ := c
  rcases h with h | ⟨h, r, hr⟩
  · rw [h] at hl
    obtain ⟨e, i, w, t, hs⟩ : ∃ e i w t, splitDash code = [e, i, w, t] := by
      match hsc : splitDash code, hl with
      | [e, i, w, t], _ => exact ⟨e, i, w, t, rfl⟩
    simp only [cost_from_str, parse_code_torch, hs, kappaField]
    by_cases he : e = "t".toList
    · simp only [he, if_true, cost_from_parse_torch, mkNormLabelCost, mkNormCost, bind, Except.bind]
      cases hw : pyFloat w <;> cases ht : pyFloat t <;>
        by_cases h1 : i = "NC".toList <;> by_cases h2 : i = "NLC".toList <;>
        simp_all [DEFAULT_KAPPA, XNum.ge0]
    · simp only [he, if_false, bind, Except.bind]
      simp
  · rw [h] at hl
    have hs0 : splitDash code = "t".toList :: splitDash r := by
      rw [hr]; exact splitDash_append (f := "t".toList) (by decide)
    obtain ⟨i, w, t, kk, hs⟩ : ∃ i w t kk, splitDash code = ["t".toList, i, w, t, kk] := by
      rw [hs0] at hl
      match hsc : splitDash r, hl with
      | [i, w, t, kk], _ => exact ⟨i, w, t, kk, by rw [hs0, hsc]⟩
    simp only [cost_from_str, parse_code_torch, hs, kappaField]
    simp only [if_true, cost_from_parse_torch, mkNormLabelCost, mkNormCost, bind, Except.bind]
    cases hw : pyFloat w <;> cases ht : pyFloat t <;> cases hk : pyFloat kk <;>
      by_cases h1 : i = "NC".toList <;> by_cases h2 : i = "NLC".toList <;>
      simp_all
    rename_i x
    cases x.ge0 <;> simp

/-- **C02** Codes with the wrong number of fields are refused with a `ValueError`: fewer than three or more than five
fields for the two-step decoder, fewer than four for the one-step decoder; and whatever is accepted has a known id. -/
theorem C02_rejections (code : PyStr) (lab : Bool) :
    (code.count '-' < 2 ∨ 4 < code.count '-' → parse_code_torch (some code) lab = .error .valueError) ∧
    (code.count '-' < 3 → cost_from_str code = .error .valueError) ∧
    (∀ q, q.id ≠ "NC".toList → q.id ≠ "NLC".toList → cost_from_parse_torch q = .error .valueError) := by
  have hl := splitDash_length code
  refine ⟨fun h => ?_, fun h => ?_, fun q h1 h2 => by simp only [cost_from_parse_torch, h1, h2, if_false]⟩
  · simp only [parse_code_torch]
    split <;> rename_i heq <;> first | rfl | (rw [heq] at hl; simp at hl; omega)
  · simp only [cost_from_str]
    split
    · rename_i heq; rw [heq] at hl; simp at hl; omega
    · rfl

/-- **C02** Without a code the default is the squared Euclidean cost, with labels exactly when there are labels. -/
theorem C02_default (lab : Bool) :
    (parse_code_torch none lab >>= cost_from_parse_torch) =
      .ok (if lab then ⟨.normLabelCost, .fin 2, .fin 2, some (.fin 100000000), none⟩
           else ⟨.normCost, .fin 2, .fin 2, none, none⟩) := by
  cases lab <;>
    simp [parse_code_torch, cost_from_parse_torch, bind, Except.bind, mkNormLabelCost, mkNormCost, DEFAULT_KAPPA,
      XNum.ge0]

example := C02_decoders_agree "t-NLC-2-2".toList true (Or.inl (by decide))
example := C02_decoders_agree "t-NLC-2-2-5".toList true (Or.inr ⟨by decide, "NLC-2-2-5".toList, rfl⟩)

example : ("t-NLC-2-2".toList.count '-' = 3) ∧
    ("t-NLC-2-2-5".toList.count '-' = 4 ∧ ∃ r, "t-NLC-2-2-5".toList = "t-".toList ++ r) :=
  ⟨by decide, by decide, "NLC-2-2-5".toList, by decide⟩

/-- **C03** Whatever the code, a label cost obtained from it has label weight `+inf` or a finite number `>= 0`; and all
numeric fields of any decoded cost are NaN, `+inf` or finite and `>= 0` (a sign cannot be written in a code). -/
theorem C03_kappa_nonneg (code : PyStr) (lab : Bool) (c : CostObj)
    (h : cost_from_str code = .ok c ∨ (parse_code_torch (some code) lab >>= cost_from_parse_torch) = .ok c) :
    (∀ k, c.kappa = some k → k = .pinf ∨ ∃ q : ℚ, 0 ≤ q ∧ k = .fin q) ∧
    (c.kind = .normLabelCost ↔ c.kappa ≠ none) ∧
    (∀ x ∈ [c.p, c.power], x = .nan ∨ x = .pinf ∨ ∃ q : ℚ, 0 ≤ q ∧ x = .fin q) := by
  have hnd := splitDash_fields_nodash code
  have hge : ∀ k : XNum ℚ, k.ge0 = true → k = .pinf ∨ ∃ q : ℚ, 0 ≤ q ∧ k = .fin q := by
    intro k hk
    cases k <;> simp_all [XNum.ge0]
  rcases h with h | h
  · unfold cost_from_str at h
    simp only at h
    split at h
    · rename_i e i w t r hs
      rw [hs] at hnd
      simp only [bind, Except.bind] at h
      cases hkf : kappaField r with
      | error _ => rw [hkf] at h; cases h
      | ok K =>
        rw [hkf] at h
        simp only at h
        split at h
        · cases ht : pyFloat t with
          | error _ => rw [ht] at h; simp only at h; split at h <;> (try split at h) <;> cases h
          | ok T =>
            cases hw : pyFloat w with
            | error _ => rw [ht, hw] at h; simp only at h; split at h <;> (try split at h) <;> cases h
            | ok W =>
              have hT := pyFloat_nodash (hnd t (by simp)) ht
              have hW := pyFloat_nodash (hnd w (by simp)) hw
              simp only [ht, hw] at h
              split at h
              · cases h
                refine ⟨by simp [mkNormCost], by simp [mkNormCost], ?_⟩
                intro x hx
                fin_cases hx <;> assumption
              · split at h
                · unfold mkNormLabelCost at h
                  split at h
                  · cases h
                    rename_i hk
                    refine ⟨?_, by simp, ?_⟩
                    · intro k hk'; cases hk'; exact hge _ hk
                    · intro x hx
                      fin_cases hx <;> assumption
                  · cases h
                · cases h
        · cases h
    · cases h
  · cases hp : parse_code_torch (some code) lab with
    | error e => rw [hp] at h; cases h
    | ok q =>
      have hq : ∀ x ∈ [q.type, q.power], x = .nan ∨ x = .pinf ∨ ∃ q : ℚ, 0 ≤ q ∧ x = .fin q := by
        unfold parse_code_torch at hp
        simp only [bind, Except.bind] at hp
        have aux : ∀ w t : PyStr, w ∈ splitDash code → t ∈ splitDash code → ∀ W T, pyFloat w = .ok W →
            pyFloat t = .ok T → ∀ x ∈ [T, W], x = .nan ∨ x = .pinf ∨ ∃ q : ℚ, 0 ≤ q ∧ x = .fin q := by
          intro w t hw ht W T hW hT x hx
          have h1 := pyFloat_nodash (hnd w hw) hW
          have h2 := pyFloat_nodash (hnd t ht) hT
          fin_cases hx <;> assumption
        split at hp
        · rename_i e i w t hs
          split at hp
          · cases hw : pyFloat w with
            | error _ => simp_all
            | ok W =>
              cases ht : pyFloat t with
              | error _ => simp_all
              | ok T =>
                simp only [hw, ht] at hp
                cases hp
                exact aux w t (by simp [hs]) (by simp [hs]) W T hw ht
          · cases hp
        · rename_i i w t hs
          cases hw : pyFloat w with
          | error _ => simp_all
          | ok W =>
            cases ht : pyFloat t with
            | error _ => simp_all
            | ok T =>
              simp only [hw, ht] at hp
              cases hp
              exact aux w t (by simp [hs]) (by simp [hs]) W T hw ht
        · rename_i e i w t k hs
          cases hk : pyFloat k with
          | error _ => simp_all
          | ok K =>
            cases hw : pyFloat w with
            | error _ => simp_all
            | ok W =>
              cases ht : pyFloat t with
              | error _ => simp_all
              | ok T =>
                simp only [hk, hw, ht] at hp
                cases hp
                exact aux w t (by simp [hs]) (by simp [hs]) W T hw ht
        · cases hp
      rw [hp] at h
      simp only [bind, Except.bind, cost_from_parse_torch] at h
      split at h
      · cases h
        exact ⟨by simp [mkNormCost], by simp [mkNormCost], hq⟩
      · split at h
        · unfold mkNormLabelCost at h
          split at h
          · cases h
            rename_i hk
            refine ⟨?_, by simp, hq⟩
            intro k hk'; cases hk'; exact hge _ hk
          · cases h
        · cases h

example := C03_kappa_nonneg "t-NLC-2-2-5".toList true _ (Or.inl (C01_decimal_roundtrip 2 2 5).1)
example (n : ℕ) := C01_decimal_literals n [5, 2] (by simp)

example : ∃ c, cost_from_str "t-NLC-2-2-5".toList = .ok c ∧ c.kappa = some (.fin 5) := by
  have := (C01_decimal_roundtrip 2 2 5).1
  exact ⟨_, this, rfl⟩

/-- **C71** (negation) The two-step decoder accepts a five-field code of a foreign engine, which the one-step decoder
refuses. -/
theorem C71_engine_check_false :
    (∃ c, (parse_code_torch (some "jax-NC-2-2-1".toList) false >>= cost_from_parse_torch) = .ok c) ∧
    cost_from_str "jax-NC-2-2-1".toList = .error .valueError := by
  constructor
  · refine ⟨mkNormCost (.fin 2) (.fin 2) none, ?_⟩
    have h := (C01_fields_roundtrip "jax".toList "NC".toList "2".toList "2".toList "1".toList (.fin 2) (.fin 2)
      (.fin 1) false (by decide) (pyFloat_decimal 2) (pyFloat_decimal 2) (pyFloat_decimal 1)).1
    have e : joinDash ["jax".toList, "NC".toList, "2".toList, "2".toList, "1".toList]
      = "jax-NC-2-2-1".toList := by decide
    rw [e] at h
    rw [h]
    rfl
  · have hs : splitDash "jax-NC-2-2-1".toList
        = ["jax".toList, "NC".toList, "2".toList, "2".toList, "1".toList] := by decide
    simp only [cost_from_str, hs, kappaField]
    have : pyFloat "1".toList = .ok (.fin ((1 : ℕ) : ℚ)) := pyFloat_decimal 1
    rw [this]
    rfl

/-- **C71** (partial: all codes except five-field ones in the two-step decoder) A code whose first field is not the
engine `t` is refused by the one-step decoder, and by the two-step decoder when it has four fields. -/
theorem C71_engine_check_partial (e r : PyStr) (he : '-' ∉ e) (hne : e ≠ "t".toList) (lab : Bool) :
    (∃ err, cost_from_str (e ++ '-' :: r) = .error err) ∧
    (r.count '-' = 2 → parse_code_torch (some (e ++ '-' :: r)) lab = .error .assertionError) := by
  have hs : splitDash (e ++ '-' :: r) = e :: splitDash r := splitDash_append he
  constructor
  · simp only [cost_from_str, hs]
    split
    · rename_i e' i' w' t' rest heq
      obtain ⟨h1, h2⟩ := List.cons.inj heq
      subst h1
      simp only [hne, if_false, bind, Except.bind]
      cases kappaField rest <;> exact ⟨_, rfl⟩
    · exact ⟨_, rfl⟩
  · intro hc
    have hl := splitDash_length r
    rw [hc] at hl
    match hsc : splitDash r, hl with
    | [i, w, t], _ =>
      simp only [parse_code_torch, hs, hsc, hne, if_false]

example := C71_engine_check_partial "jax".toList "NC-2-2".toList (by decide) (by decide) false

example : '-' ∉ "jax".toList ∧ "jax".toList ≠ "t".toList ∧ "NC-2-2".toList.count '-' = 2 := by decide

end Skwdro
