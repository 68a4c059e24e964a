import Verif.Model.CostDecoder
import Verif.Spec.Strings
import Mathlib.Tactic.Ring
import Mathlib.Tactic.Linarith
import Mathlib.Tactic.Positivity
import Mathlib.Tactic.IntervalCases
import Mathlib.Algebra.Order.Field.Rat
import Mathlib.Algebra.Order.Field.Power

namespace Skwdro
open Spec

theorem splitDash_ne_nil (s : PyStr) : splitDash s ≠ [] := by
  induction s with
  | nil => simp [splitDash]
  | cons c r ih =>
    unfold splitDash
    split
    · simp
    · split <;> simp

theorem splitDash_nodash {f : PyStr} (h : '-' ∉ f) : splitDash f = [f] := by
  induction f with
  | nil => rfl
  | cons c r ih =>
    simp only [List.mem_cons, not_or] at h
    simp [splitDash, ih h.2, Ne.symm h.1]

theorem splitDash_append {f s : PyStr} (h : '-' ∉ f) :
    splitDash (f ++ '-' :: s) = f :: splitDash s := by
  induction f with
  | nil => simp [splitDash]
  | cons c r ih =>
    simp only [List.mem_cons, not_or] at h
    simp [splitDash, ih h.2, Ne.symm h.1]

theorem splitDash_join : ∀ (fs : List PyStr), fs ≠ [] → (∀ f ∈ fs, '-' ∉ f) → splitDash (joinDash fs) = fs
  | [], h, _ => absurd rfl h
  | [f], _, h => splitDash_nodash (h f (by simp))
  | f :: g :: r, _, h => by
      rw [joinDash, splitDash_append (h f (by simp)), splitDash_join (g :: r) (by simp)]
      intro x hx
      exact h x (by simp_all)

theorem splitDash_length (s : PyStr) : (splitDash s).length = s.count '-' + 1 := by
  induction s with
  | nil => rfl
  | cons c r ih =>
    unfold splitDash
    split
    · rename_i h
      simp [h, ih]
    · rename_i h
      split
      · rename_i heq
        rw [heq] at ih
        simpa [List.count_cons, h] using ih
      · rename_i heq
        exact absurd heq (splitDash_ne_nil r)

theorem splitDash_fields_nodash (s : PyStr) : ∀ f ∈ splitDash s, '-' ∉ f := by
  induction s with
  | nil => simp [splitDash]
  | cons c r ih =>
    unfold splitDash
    split
    · simpa using ih
    · rename_i h
      split
      · rename_i heq
        rw [heq] at ih
        intro f hf
        rcases List.mem_cons.1 hf with rfl | hf
        · simp only [List.mem_cons, not_or]
          exact ⟨fun e => h e.symm, ih _ (by simp)⟩
        · exact ih f (by simp [hf])
      · rename_i heq
        exact absurd heq (splitDash_ne_nil r)

theorem joinDash_splitDash (s : PyStr) : joinDash (splitDash s) = s := by
  induction s with
  | nil => rfl
  | cons c r ih =>
    unfold splitDash
    split
    · rename_i h
      subst h
      cases hs : splitDash r with
      | nil => exact absurd hs (splitDash_ne_nil r)
      | cons g t => rw [hs] at ih; simp [joinDash, ih]
    · split
      · rename_i h t heq
        rw [heq] at ih
        cases t with
        | nil => simpa [joinDash] using ih
        | cons g t => simp [joinDash] at ih ⊢; exact ih
      · rename_i heq
        exact absurd heq (splitDash_ne_nil r)

/-! ### decimal literals -/

theorem digitChar_isDigit {d : ℕ} (h : d < 10) : (Nat.digitChar d).isDigit = true := by
  interval_cases d <;> rfl

theorem digitChar_val {d : ℕ} (h : d < 10) : digitVal (Nat.digitChar d) = d := by
  interval_cases d <;> rfl

theorem scanMore_digits (ds : List ℕ) (h : ∀ d ∈ ds, d < 10) (acc len : ℕ) (r : PyStr)
    (hr : ∀ c ∈ r.head?, c.isDigit = false ∧ c ≠ '_') :
    scanMore acc len (ds.map Nat.digitChar ++ r)
      = (ds.foldl (fun a d => 10 * a + d) acc, len + ds.length, r) := by
  induction ds generalizing acc len with
  | nil =>
    match r with
    | [] => simp [scanMore]
    | [c] => have := hr c (by simp); simp [scanMore, this.1]
    | c :: d :: r => have := hr c (by simp); simp [scanMore, this.1, this.2]
  | cons d ds ih =>
    have hd : d < 10 := h d (by simp)
    have h1 := digitChar_isDigit hd
    have h2 := digitChar_val hd
    have ih' := ih (fun x hx => h x (by simp [hx])) (10 * acc + d) (len + 1)
    simp only [List.map_cons, List.cons_append, List.foldl_cons, List.length_cons]
    rw [show len + (ds.length + 1) = len + 1 + ds.length by ring, ← ih']
    generalize ds.map Nat.digitChar ++ r = s
    match s with
    | [] => simp [scanMore, h1, h2]
    | c :: s => rw [scanMore]; simp [h1, h2]

theorem scanDigits_digits (d : ℕ) (ds : List ℕ) (h : ∀ x ∈ d :: ds, x < 10) (r : PyStr)
    (hr : ∀ c ∈ r.head?, c.isDigit = false ∧ c ≠ '_') :
    scanDigits ((d :: ds).map Nat.digitChar ++ r)
      = ((d :: ds).foldl (fun a d => 10 * a + d) 0, (d :: ds).length, r) := by
  have hd : d < 10 := h d (by simp)
  simp only [List.map_cons, List.cons_append, scanDigits, digitChar_isDigit hd, digitChar_val hd, if_true]
  rw [scanMore_digits ds (fun x hx => h x (by simp [hx])) _ _ _ hr]
  simp [add_comm]

theorem foldl_ofDigits (ds : List ℕ) :
    ds.reverse.foldl (fun a d => 10 * a + d) 0 = Nat.ofDigits 10 ds := by
  rw [List.foldl_reverse]
  induction ds with
  | nil => simp
  | cons d ds ih =>
    rw [List.foldr_cons, ih, Nat.ofDigits_cons]
    simp [add_comm]

theorem decimal_digits (n : ℕ) : ∃ d ds, decimal n = (d :: ds).map Nat.digitChar ∧
    (∀ x ∈ d :: ds, x < 10) ∧ (d :: ds).foldl (fun a d => 10 * a + d) 0 = n := by
  unfold decimal
  split
  · rename_i h
    exact ⟨0, [], by simp, by simp, by simp [h]⟩
  · rename_i h
    have h0 : (Nat.digits 10 n).reverse ≠ [] := by
      rw [ne_eq, List.reverse_eq_nil_iff, Nat.digits_eq_nil_iff_eq_zero]
      exact h
    obtain ⟨d, ds, hds⟩ := List.exists_cons_of_ne_nil h0
    refine ⟨d, ds, by simp [digitChars, hds], ?_, ?_⟩
    · intro x hx
      rw [← hds] at hx
      exact Nat.digits_lt_base (by norm_num) (List.mem_reverse.1 hx)
    · rw [← hds, foldl_ofDigits, Nat.ofDigits_digits]

theorem digitChar_notBlank {d : ℕ} (h : d < 10) : isBlank (Nat.digitChar d) = false := by
  interval_cases d <;> rfl

theorem digitChar_ne {d : ℕ} (h : d < 10) :
    Nat.digitChar d ≠ '-' ∧ Nat.digitChar d ≠ '+' ∧ (Nat.digitChar d).toLower ≠ 'i' ∧
    (Nat.digitChar d).toLower ≠ 'n' := by
  interval_cases d <;> decide

theorem stripBlanks_of_notBlank {s : PyStr} (h : ∀ c ∈ s, isBlank c = false) : stripBlanks s = s := by
  have aux : ∀ l : PyStr, (∀ c ∈ l, isBlank c = false) → l.dropWhile isBlank = l := by
    intro l hl
    cases l with
    | nil => rfl
    | cons c r => simp [List.dropWhile, hl c (by simp)]
  unfold stripBlanks
  rw [aux s h, aux s.reverse (by simpa using h), List.reverse_reverse]

/-- a literal made of digits, possibly followed by a dot and digits, is read as the number it denotes -/
theorem pyFloat_digits (d : ℕ) (ds fs : List ℕ) (h : ∀ x ∈ d :: ds, x < 10) (hf : ∀ x ∈ fs, x < 10) :
    pyFloat ((d :: ds).map Nat.digitChar ++ '.' :: fs.map Nat.digitChar)
      = .ok (.fin (((d :: ds).foldl (fun a d => 10 * a + d) 0 : ℕ)
          + ((fs.foldl (fun a d => 10 * a + d) 0 : ℕ) : ℚ) / 10 ^ fs.length)) := by
  have hd : d < 10 := h d (by simp)
  obtain ⟨n1, n2, n3, n4⟩ := digitChar_ne hd
  have hs : stripBlanks ((d :: ds).map Nat.digitChar ++ '.' :: fs.map Nat.digitChar)
      = (d :: ds).map Nat.digitChar ++ '.' :: fs.map Nat.digitChar := by
    apply stripBlanks_of_notBlank
    intro c hc
    simp only [List.mem_append, List.mem_map, List.mem_cons] at hc
    rcases hc with ⟨x, hx, rfl⟩ | rfl | ⟨x, hx, rfl⟩
    · exact digitChar_notBlank (h x (by simpa using hx))
    · rfl
    · exact digitChar_notBlank (hf x hx)
  have hdec : scanDecimal ((d :: ds).map Nat.digitChar ++ '.' :: fs.map Nat.digitChar)
      = some (((d :: ds).foldl (fun a d => 10 * a + d) 0 : ℕ)
          + ((fs.foldl (fun a d => 10 * a + d) 0 : ℕ) : ℚ) / 10 ^ fs.length) := by
    unfold scanDecimal
    rw [scanDigits_digits d ds h ('.' :: _) (by simp)]
    have hfs : scanDigits (fs.map Nat.digitChar)
        = (fs.foldl (fun a d => 10 * a + d) 0, fs.length, []) := by
      cases fs with
      | nil => rfl
      | cons f fs => simpa using scanDigits_digits f fs hf [] (by simp)
    simp [scanFrac, hfs, scanExp]
  have hu : scanUnsigned ((d :: ds).map Nat.digitChar ++ '.' :: fs.map Nat.digitChar)
      = some (.fin (((d :: ds).foldl (fun a d => 10 * a + d) 0 : ℕ)
          + ((fs.foldl (fun a d => 10 * a + d) 0 : ℕ) : ℚ) / 10 ^ fs.length)) := by
    unfold scanUnsigned
    rw [hdec]
    simp [lowerStr, n3, n4]
  unfold pyFloat
  rw [hs]
  simp only [List.map_cons, List.cons_append] at hu ⊢
  split <;> rename_i heq
  · split at heq
    · rename_i h1; exact absurd (List.cons.inj h1).1 n1
    · rename_i h1; exact absurd (List.cons.inj h1).1 n2
    · rw [hu] at heq; cases heq; rfl
  · split at heq
    · rename_i h1; exact absurd (List.cons.inj h1).1 n1
    · rename_i h1; exact absurd (List.cons.inj h1).1 n2
    · rw [hu] at heq; cases heq

theorem pyFloat_decimal (n : ℕ) : pyFloat (decimal n) = .ok (.fin (n : ℚ)) := by
  obtain ⟨d, ds, he, h, hv⟩ := decimal_digits n
  have hd : d < 10 := h d (by simp)
  obtain ⟨n1, n2, n3, n4⟩ := digitChar_ne hd
  have hs : stripBlanks ((d :: ds).map Nat.digitChar) = (d :: ds).map Nat.digitChar := by
    apply stripBlanks_of_notBlank
    intro c hc
    obtain ⟨x, hx, rfl⟩ := List.mem_map.1 hc
    exact digitChar_notBlank (h x hx)
  have hu : scanUnsigned ((d :: ds).map Nat.digitChar) = some (.fin (n : ℚ)) := by
    unfold scanUnsigned scanDecimal
    have := scanDigits_digits d ds h [] (by simp)
    rw [List.append_nil] at this
    rw [this, hv]
    simp [lowerStr, n3, n4, scanFrac, scanExp]
  unfold pyFloat
  rw [he, hs]
  simp only [List.map_cons] at hu ⊢
  split <;> rename_i heq
  · split at heq
    · rename_i h1; exact absurd (List.cons.inj h1).1 n1
    · rename_i h1; exact absurd (List.cons.inj h1).1 n2
    · rw [hu] at heq; cases heq; rfl
  · split at heq
    · rename_i h1; exact absurd (List.cons.inj h1).1 n1
    · rename_i h1; exact absurd (List.cons.inj h1).1 n2
    · rw [hu] at heq; cases heq

theorem decimal_nodash (n : ℕ) : '-' ∉ decimal n := by
  obtain ⟨d, ds, he, h, -⟩ := decimal_digits n
  rw [he]
  intro hc
  obtain ⟨x, hx, hx'⟩ := List.mem_map.1 hc
  exact (digitChar_ne (h x hx)).1 hx'

/-! ### literals without a minus sign are not negative -/

theorem scanUnsigned_nonneg {s : PyStr} {x : XNum ℚ} (h : scanUnsigned s = some x) :
    x = .nan ∨ x = .pinf ∨ ∃ q : ℚ, 0 ≤ q ∧ x = .fin q := by
  unfold scanUnsigned at h
  split at h
  · right; left; simpa using h.symm
  · split at h
    · left; simpa using h.symm
    · right; right
      obtain ⟨q, hq, rfl⟩ := Option.map_eq_some_iff.1 h
      refine ⟨q, ?_, rfl⟩
      unfold scanDecimal at hq
      simp only at hq
      split at hq
      · simp at hq
      · split at hq
        · simp at hq
        · simp only [Option.some.injEq] at hq
          rw [← hq]
          positivity

theorem pyFloat_nodash {s : PyStr} (hs : '-' ∉ s) {x : XNum ℚ} (h : pyFloat s = .ok x) :
    x = .nan ∨ x = .pinf ∨ ∃ q : ℚ, 0 ≤ q ∧ x = .fin q := by
  have hsub : ∀ c ∈ stripBlanks s, c ∈ s := by
    intro c hc
    unfold stripBlanks at hc
    have h1 := List.mem_reverse.1 hc
    have h2 := (List.dropWhile_sublist _).subset h1
    exact (List.dropWhile_sublist _).subset (List.mem_reverse.1 h2)
  unfold pyFloat at h
  simp only at h
  split at h
  · rename_i y heq
    cases h
    split at heq
    · rename_i h1
      exact absurd (hsub '-' (by rw [h1]; simp)) hs
    · exact scanUnsigned_nonneg heq
    · exact scanUnsigned_nonneg heq
  · cases h

end Skwdro
