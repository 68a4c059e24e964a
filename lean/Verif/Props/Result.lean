import Verif.Model.Result
import Verif.Lemmas.Tensor

/-! # C57: legacy solver results -/

namespace Skwdro

variable {V : Type}

theorem dictGet_of_mem {d : List (AName × Option V)} (hn : (d.map Prod.fst).Nodup) {k v} (h : (k, v) ∈ d) : dictGet d k = some v := by
  induction d with
  | nil => simp at h
  | cons e d ih =>
    simp only [List.map_cons, List.nodup_cons] at hn
    simp only [dictGet, List.find?_cons]
    rcases List.mem_cons.1 h with rfl | h
    · simp
    · have : e.1 ≠ k := fun he => hn.1 (he ▸ List.mem_map_of_mem (f := Prod.fst) h)
      simp only [this, decide_false]
      exact ih hn.2 h

theorem dictGet_isSome {d : List (AName × Option V)} {k} : (dictGet d k).isSome ↔ k ∈ d.map Prod.fst := by
  simp only [dictGet, Option.isSome_map, List.find?_isSome, List.mem_map, decide_eq_true_eq]

/-- names that cannot be keys of a result -/
def reservedNames : List AName := [.self, .iterAttrs, .cls, .dict, .weakref]

theorem init_ok {d : List (AName × Option V)} {it} (h : ∀ k ∈ d.map Prod.fst, k ∉ reservedNames) : ∃ r, SolverResult.init d it = .ok r ∧
    r.iterAttrs = it ∧ (∀ k v, dictGet d k = some v → r.attrs k = some v) ∧
    (∀ k, dictGet d k = none → k ∈ [AName.coef, .intercept, .dualVar, .robustLoss] → r.attrs k = some none) := by
  have h1 : ¬ ((dictGet d .self).isSome ∨ (dictGet d .iterAttrs).isSome) := by
    rw [dictGet_isSome, dictGet_isSome]
    rintro (hc | hc)
    · exact h _ hc (by simp [reservedNames])
    · exact h _ hc (by simp [reservedNames])
  have h2 : ¬ ∃ e ∈ d, e.1 ∈ descriptors := by
    rintro ⟨e, he, hc⟩
    refine h _ (List.mem_map_of_mem he) ?_
    simp only [descriptors, List.mem_cons, List.not_mem_nil, or_false] at hc
    simp only [reservedNames, List.mem_cons, List.not_mem_nil, or_false]
    tauto
  unfold SolverResult.init
  rw [if_neg h1, if_neg h2]
  refine ⟨_, rfl, rfl, fun k v hk => by simp [hk], fun k hk hm => ?_⟩
  simp only [hk]
  rw [if_pos hm]

theorem toList_of {r : SolverResult V} {d : List (AName × Option V)} (hn : (d.map Prod.fst).Nodup) (hi : r.iterAttrs = d.map Prod.fst)
    (ha : ∀ k v, dictGet d k = some v → r.attrs k = some v) : r.toList = .ok (d.map Prod.snd) := by
  have key : ∀ l : List (AName × Option V), (∀ e ∈ l, r.attrs e.1 = some e.2) →
      (l.map Prod.fst).mapM (m := Except PyErr) (fun a => match r.attrs a with
        | some v => .ok v
        | none => .error .attributeError) = .ok (l.map Prod.snd) := by
    intro l
    induction l with
    | nil => intro _; rfl
    | cons e l ih =>
      intro h
      simp only [List.map_cons, List.mapM_cons, h e List.mem_cons_self, ih fun e he => h e (List.mem_cons_of_mem _ he), ok_bind]
      rfl
  unfold SolverResult.toList
  rw [hi]
  exact key d fun e he => ha _ _ (dictGet_of_mem hn he)

/-- **C57** Every tuple of one to four results is wrapped into an object that iterates back to that tuple, with the documented
names. -/
theorem C57_tuple (t : List (Option V)) (h1 : 1 ≤ t.length) (h4 : t.length ≤ 4) :
    ∃ r, wrapResult (.tuple t) = .ok r ∧ r.toList = .ok t ∧
      r.attrs .coef = some (t.headD none) ∧
      r.attrs .dualVar = some (if t.length = 2 then t.getD 1 none else t.getD 2 none) ∧
      r.attrs .intercept = some (if t.length = 2 then none else t.getD 1 none) ∧
      r.attrs .robustLoss = some (t.getD 3 none) := by
  match t, h1, h4 with
  | [a], _, _ =>
    obtain ⟨r, k1, k2, k3, k4⟩ := init_ok (d := tupleDict [a]) (it := (tupleDict [a]).map Prod.fst)
      (by intro k hk; simp [tupleDict, reservedNames] at hk ⊢; subst hk; decide)
    refine ⟨r, by simpa [wrapResult] using k1, ?_, ?_, ?_, ?_, ?_⟩
    · exact toList_of (d := tupleDict [a]) (by simp [tupleDict]) k2 k3
    · exact k3 _ _ (by simp [dictGet, tupleDict])
    · exact k4 _ (by simp [dictGet, tupleDict]) (by simp)
    · exact k4 _ (by simp [dictGet, tupleDict]) (by simp)
    · exact k4 _ (by simp [dictGet, tupleDict]) (by simp)
  | [a, b], _, _ =>
    obtain ⟨r, k1, k2, k3, k4⟩ := init_ok (d := tupleDict [a, b]) (it := (tupleDict [a, b]).map Prod.fst)
      (by intro k hk; simp [tupleDict, reservedNames] at hk ⊢; rcases hk with rfl | rfl <;> decide)
    refine ⟨r, by simpa [wrapResult] using k1, ?_, ?_, ?_, ?_, ?_⟩
    · exact toList_of (d := tupleDict [a, b]) (by simp [tupleDict]) k2 k3
    · exact k3 _ _ (by simp [dictGet, tupleDict])
    · exact k3 _ _ (by simp [dictGet, tupleDict])
    · exact k4 _ (by simp [dictGet, tupleDict]) (by simp)
    · exact k4 _ (by simp [dictGet, tupleDict]) (by simp)
  | [a, b, c], _, _ =>
    obtain ⟨r, k1, k2, k3, k4⟩ := init_ok (d := tupleDict [a, b, c]) (it := (tupleDict [a, b, c]).map Prod.fst)
      (by intro k hk; simp [tupleDict, reservedNames] at hk ⊢; rcases hk with rfl | rfl | rfl <;> decide)
    refine ⟨r, by simpa [wrapResult] using k1, ?_, ?_, ?_, ?_, ?_⟩
    · exact toList_of (d := tupleDict [a, b, c]) (by simp [tupleDict]) k2 k3
    · exact k3 _ _ (by simp [dictGet, tupleDict])
    · exact k3 _ _ (by simp [dictGet, tupleDict])
    · exact k3 _ _ (by simp [dictGet, tupleDict])
    · exact k4 _ (by simp [dictGet, tupleDict]) (by simp)
  | [a, b, c, e], _, _ =>
    obtain ⟨r, k1, k2, k3, k4⟩ := init_ok (d := tupleDict [a, b, c, e]) (it := (tupleDict [a, b, c, e]).map Prod.fst)
      (by intro k hk; simp [tupleDict, reservedNames] at hk ⊢; rcases hk with rfl | rfl | rfl | rfl <;> decide)
    refine ⟨r, by simpa [wrapResult] using k1, ?_, ?_, ?_, ?_, ?_⟩
    · exact toList_of (d := tupleDict [a, b, c, e]) (by simp [tupleDict]) k2 k3
    · exact k3 _ _ (by simp [dictGet, tupleDict])
    · exact k3 _ _ (by simp [dictGet, tupleDict])
    · exact k3 _ _ (by simp [dictGet, tupleDict])
    · exact k3 _ _ (by simp [dictGet, tupleDict])

theorem strKeys_ok (d : List (AName × Option V)) : strKeys (d.map fun e => (PyKey.str e.1, e.2)) = .ok d := by
  induction d with
  | nil => rfl
  | cons e d ih => simp only [List.map_cons, strKeys, ih, Except.map]

/-- **C57** Every dictionary with string keys (none of them reserved) is wrapped into an object that has every item as attribute
and iterates over its values in order; the usual names default to `None`. -/
theorem C57_dict (d : List (AName × Option V)) (hn : (d.map Prod.fst).Nodup) (hk : ∀ k ∈ d.map Prod.fst, k ∉ reservedNames) :
    ∃ r, wrapResult (.dict (d.map fun e => (PyKey.str e.1, e.2))) = .ok r ∧ r.toList = .ok (d.map Prod.snd) ∧
      (∀ e ∈ d, r.attrs e.1 = some e.2) ∧
      ∀ k ∈ [AName.coef, .intercept, .dualVar, .robustLoss], k ∉ d.map Prod.fst → r.attrs k = some none := by
  obtain ⟨r, k1, k2, k3, k4⟩ := init_ok (it := d.map Prod.fst) hk
  refine ⟨r, ?_, toList_of hn k2 k3, fun e he => k3 _ _ (dictGet_of_mem hn he), fun k hm hnot => k4 k ?_ hm⟩
  · simp only [wrapResult, strKeys_ok, ok_bind, k1]
  · rw [← dictGet_isSome] at hnot
    simpa using hnot

/-- **C57** A dictionary with a key that is not a string is refused, and so is one with a reserved name. -/
theorem C57_dict_refused :
    (∀ (d : List (PyKey × Option V)) (n : Nat) (v : Option V), (PyKey.other n, v) ∈ d → wrapResult (.dict d) = .error .typeError) ∧
    (∀ (d : List (AName × Option V)) (k : AName), k ∈ d.map Prod.fst → k ∈ reservedNames →
      wrapResult (.dict (d.map fun e => (PyKey.str e.1, e.2))) = .error .typeError) := by
  constructor
  · intro d n v h
    have : strKeys d = .error .typeError := by
      induction d with
      | nil => simp at h
      | cons e d ih =>
        rcases e with ⟨k | k, w⟩
        · simp only [List.mem_cons, Prod.mk.injEq, reduceCtorEq, false_and, false_or] at h
          simp only [strKeys, ih h, Except.map]
        · rfl
    simp only [wrapResult, this, error_bind]
  · intro d k h hr
    simp only [wrapResult, strKeys_ok, ok_bind, SolverResult.init]
    by_cases h1 : (dictGet d .self).isSome ∨ (dictGet d .iterAttrs).isSome
    · rw [if_pos h1]
    · rw [if_neg h1, if_pos]
      rw [dictGet_isSome, dictGet_isSome] at h1
      obtain ⟨e, he, rfl⟩ := List.mem_map.1 h
      refine ⟨e, he, ?_⟩
      simp only [reservedNames, List.mem_cons, List.not_mem_nil, or_false] at hr
      simp only [descriptors, List.mem_cons, List.not_mem_nil, or_false]
      rcases hr with hr | hr | hr
      · exact absurd (Or.inl (hr ▸ h)) h1
      · exact absurd (Or.inr (hr ▸ h)) h1
      · exact hr

/-- **C57** A wrapped result is left unchanged; a tuple of another length fails an assertion; anything else is refused. -/
theorem C57_others (r : SolverResult V) (t : List (Option V)) (ht : t.length = 0 ∨ 4 < t.length) :
    wrapResult (.result r) = .ok r ∧ wrapResult (.tuple t) = .error .assertionError ∧ wrapResult (.other : Legacy V) = .error .runtimeError := by
  refine ⟨rfl, ?_, rfl⟩
  simp only [wrapResult]
  rcases ht with ht | ht
  · rw [if_neg (by omega)]
  · rw [if_pos (by omega), if_neg (by omega)]

/-- **C57** Wrapping twice is wrapping once. -/
theorem C57_idempotent (x : Legacy V) {r : SolverResult V} (h : wrapResult x = .ok r) : wrapResult (.result r) = .ok r := by
  cases x <;> rfl

/-- non-vacuity: a dictionary with an extra key meets the hypotheses -/
example : ((([(AName.coef, some 1), (AName.other "extra".toList, some 2)] : List (AName × Option Nat))).map Prod.fst).Nodup ∧
    ∀ k ∈ ([(AName.coef, some 1), (AName.other "extra".toList, some 2)] : List (AName × Option Nat)).map Prod.fst, k ∉ reservedNames := by
  decide

end Skwdro
