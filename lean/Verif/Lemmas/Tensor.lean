import Verif.Spec.Tensors
import Mathlib.Algebra.BigOperators.Fin
import Mathlib.Data.List.OfFn
import Mathlib.Tactic.Ring
import Mathlib.Tactic.Linarith

/-! Helper lemmas on tensors: broadcasting, views, reductions. -/

namespace Skwdro

@[simp] theorem ok_bind {α β : Type} (a : α) (f : α → Except PyErr β) : (Except.ok a >>= f) = f a := rfl
@[simp] theorem error_bind {α β : Type} (e : PyErr) (f : α → Except PyErr β) : (Except.error e >>= f) = .error e := rfl

/-- monadic inversion -/
theorem bind_ok {α β : Type} {x : Except PyErr α} {f : α → Except PyErr β} {b : β} (h : (x >>= f) = .ok b) :
    ∃ a, x = .ok a ∧ f a = .ok b := by
  cases x with
  | error e => simp at h
  | ok a => exact ⟨a, rfl, by simpa using h⟩

namespace Tensor
variable {α β γ : Type}

/-- `t` has shape `s` and, inside it, entries `f`. -/
def Is (t : Tensor α) (s : List ℕ) (f : List ℕ → α) : Prop := t.shape = s ∧ ∀ i, InShape i s → t.get i = f i

theorem mem_indices {s i : List ℕ} : i ∈ indices s ↔ InShape i s := by
  induction s generalizing i with
  | nil => simp [indices, InShape]
  | cons n s ih =>
    simp only [indices, List.mem_flatMap, List.mem_range, List.mem_map]
    constructor
    · rintro ⟨a, ha, b, hb, rfl⟩
      exact List.Forall₂.cons ha (ih.1 hb)
    · intro h
      cases h with
      | cons h1 h2 => exact ⟨_, h1, _, ih.2 h2, rfl⟩

theorem Is.self (t : Tensor α) : Is t t.shape t.get := ⟨rfl, fun _ _ => rfl⟩

theorem inShape_reverse {i s : List ℕ} (h : InShape i s) : List.Forall₂ (· < ·) i.reverse s.reverse :=
  List.rel_reverse h

theorem projRev_self {i s : List ℕ} (h : List.Forall₂ (· < ·) i s) : projRev s i = i := by
  induction h with
  | nil => rfl
  | cons h _ ih =>
    simp only [projRev, ih]
    split
    · next h1 => subst h1; simp; omega
    · rfl

theorem proj_self {i s : List ℕ} (h : InShape i s) : proj s i = i := by
  simp [proj, projRev_self (inShape_reverse h)]

theorem bcastRev_self (s : List ℕ) : bcastRev s s = some s := by
  induction s with
  | nil => rfl
  | cons n s ih => simp [bcastRev, ih]

theorem bcastShape_self (s : List ℕ) : bcastShape s s = some s := by simp [bcastShape, bcastRev_self]

theorem bcastRev_append {s a b : List ℕ} {r : List ℕ} (h : bcastRev a b = some r) :
    bcastRev (s ++ a) (s ++ b) = some (s ++ r) := by
  induction s with
  | nil => simpa using h
  | cons n s ih => simp [bcastRev, ih]

theorem projRev_append {s i a b : List ℕ} (h : List.Forall₂ (· < ·) i s) :
    projRev (s ++ a) (i ++ b) = i ++ projRev a b := by
  induction h with
  | nil => rfl
  | cons h _ ih =>
    simp only [projRev, ih, List.cons_append]
    split
    · next h1 => subst h1; simp; omega
    · rfl

theorem proj_cons_one {s i : List ℕ} (j : ℕ) (h : InShape i s) : proj (1 :: s) (j :: i) = 0 :: i := by
  simp [proj, projRev_append (inShape_reverse h), projRev]

theorem proj_cons_ne {s i : List ℕ} (j n : ℕ) (hj : j < n) (h : InShape i s) : proj (n :: s) (j :: i) = j :: i :=
  proj_self (List.Forall₂.cons hj h)

theorem bcastShape_one_left (s : List ℕ) (n : ℕ) : bcastShape (1 :: s) (n :: s) = some (n :: s) := by
  have : bcastRev [1] [n] = some [n] := by
    by_cases h : n = 1 <;> simp [bcastRev, h, eq_comm]
  simp [bcastShape, bcastRev_append this]

theorem bcastShape_one_right (s : List ℕ) (n : ℕ) : bcastShape (n :: s) (1 :: s) = some (n :: s) := by
  have : bcastRev [n] [1] = some [n] := by simp [bcastRev]
  simp [bcastShape, bcastRev_append this]

theorem Is.zipWith_same {f : α → β → γ} {a : Tensor α} {b : Tensor β} {s : List ℕ} {fa : List ℕ → α}
    {fb : List ℕ → β} (ha : Is a s fa) (hb : Is b s fb) :
    ∃ c, zipWith f a b = .ok c ∧ Is c s (fun i => f (fa i) (fb i)) := by
  refine ⟨?_, ?_, ?_⟩
  · exact ⟨s, fun i => f (a.get (proj s i)) (b.get (proj s i))⟩
  · simp [zipWith, ha.1, hb.1, bcastShape_self]
  · refine ⟨rfl, fun i hi => ?_⟩
    simp only [proj_self hi, ha.2 i hi, hb.2 i hi]

theorem Is.zipWith_left {f : α → β → γ} {a : Tensor α} {b : Tensor β} {s : List ℕ} {n : ℕ} {fa : List ℕ → α}
    {fb : List ℕ → β} (ha : Is a (1 :: s) fa) (hb : Is b (n :: s) fb) :
    ∃ c, zipWith f a b = .ok c ∧ Is c (n :: s) (fun i => f (fa (0 :: i.tail)) (fb i)) := by
  refine ⟨?_, ?_, ?_⟩
  · exact ⟨n :: s, fun i => f (a.get (proj (1 :: s) i)) (b.get (proj (n :: s) i))⟩
  · simp [zipWith, ha.1, hb.1, bcastShape_one_left]
  · refine ⟨rfl, fun i hi => ?_⟩
    cases hi with
    | cons hj hi =>
      simp only [proj_cons_one _ hi, proj_cons_ne _ _ hj hi, List.tail_cons]
      rw [ha.2 _ (List.Forall₂.cons (by omega) hi), hb.2 _ (List.Forall₂.cons hj hi)]

theorem Is.zipWith_right {f : α → β → γ} {a : Tensor α} {b : Tensor β} {s : List ℕ} {n : ℕ} {fa : List ℕ → α}
    {fb : List ℕ → β} (ha : Is a (n :: s) fa) (hb : Is b (1 :: s) fb) :
    ∃ c, zipWith f a b = .ok c ∧ Is c (n :: s) (fun i => f (fa i) (fb (0 :: i.tail))) := by
  refine ⟨?_, ?_, ?_⟩
  · exact ⟨n :: s, fun i => f (a.get (proj (n :: s) i)) (b.get (proj (1 :: s) i))⟩
  · simp [zipWith, ha.1, hb.1, bcastShape_one_right]
  · refine ⟨rfl, fun i hi => ?_⟩
    cases hi with
    | cons hj hi =>
      simp only [proj_cons_one _ hi, proj_cons_ne _ _ hj hi, List.tail_cons]
      rw [hb.2 _ (List.Forall₂.cons (by omega) hi), ha.2 _ (List.Forall₂.cons hj hi)]

theorem Is.map {f : α → β} {a : Tensor α} {s : List ℕ} {fa : List ℕ → α} (ha : Is a s fa) :
    Is (a.map f) s (fun i => f (fa i)) :=
  ⟨ha.1, fun i hi => by simp [Tensor.map, ha.2 i hi]⟩

theorem Is.congr {a : Tensor α} {s : List ℕ} {fa fb : List ℕ → α} (ha : Is a s fa)
    (h : ∀ i, InShape i s → fa i = fb i) : Is a s fb :=
  ⟨ha.1, fun i hi => by rw [ha.2 i hi, h i hi]⟩

theorem inShape_concat {i s : List ℕ} {j d : ℕ} (h : InShape i s) (hj : j < d) : InShape (i ++ [j]) (s ++ [d]) :=
  List.rel_append h (List.Forall₂.cons hj List.Forall₂.nil)

theorem inShape_concat_inv {i s : List ℕ} {d : ℕ} (h : InShape i (s ++ [d])) :
    ∃ i' j, i = i' ++ [j] ∧ InShape i' s ∧ j < d := by
  have h2 := inShape_reverse h
  simp only [List.reverse_append, List.reverse_cons, List.reverse_nil, List.nil_append, List.singleton_append] at h2
  cases hr : i.reverse with
  | nil => rw [hr] at h2; cases h2
  | cons j l =>
    rw [hr] at h2
    cases h2 with
    | cons h3 h4 =>
      refine ⟨l.reverse, j, ?_, ?_, h3⟩
      · have := congrArg List.reverse hr; simpa using this
      · have := List.rel_reverse h4; simpa [InShape] using this

theorem Is.lastRow {a : Tensor α} {s : List ℕ} {d : ℕ} {fa : List ℕ → α} (ha : Is a (s ++ [d]) fa) {i : List ℕ}
    (hi : InShape i s) : a.lastRow i = (List.range d).map (fun k => fa (i ++ [k])) := by
  simp only [Tensor.lastRow, ha.1, List.getLastD_concat]
  refine List.map_congr_left fun k hk => ?_
  exact ha.2 _ (inShape_concat hi (List.mem_range.1 hk))

theorem Is.reduceLast {f : List α → β} {a : Tensor α} {s : List ℕ} {d : ℕ} {fa : List ℕ → α}
    (ha : Is a (s ++ [d]) fa) :
    Is (a.reduceLast f) (s ++ [1]) (fun i => f ((List.range d).map (fun k => fa (i.dropLast ++ [k])))) := by
  have hne : ∃ n t, a.shape = n :: t := by
    rw [ha.1]; cases s <;> simp
  obtain ⟨n, t, hnt⟩ := hne
  have e : a.reduceLast f = ⟨a.shape.dropLast ++ [1], fun i => f (a.lastRow i.dropLast)⟩ := by
    unfold Tensor.reduceLast; rw [hnt]
  rw [e]
  refine ⟨by simp [ha.1], fun i hi => ?_⟩
  obtain ⟨i', j, rfl, hi', _⟩ := inShape_concat_inv hi
  simp [ha.lastRow hi']

theorem Is.unsqueeze0 {a : Tensor α} {s : List ℕ} {fa : List ℕ → α} (ha : Is a s fa) :
    Is a.unsqueeze0 (1 :: s) (fun i => fa i.tail) := by
  refine ⟨by simp [Tensor.unsqueeze0, ha.1], fun i hi => ?_⟩
  cases hi with
  | cons _ hi => exact ha.2 _ hi

theorem Is.squeeze0 {a : Tensor α} {s : List ℕ} {fa : List ℕ → α} (ha : Is a (1 :: s) fa) :
    Is a.squeeze0 s (fun i => fa (0 :: i)) := by
  have : a.squeeze0 = ⟨s, fun i => a.get (0 :: i)⟩ := by unfold Tensor.squeeze0; rw [ha.1]; rfl
  rw [this]
  exact ⟨rfl, fun i hi => ha.2 _ (List.Forall₂.cons (by omega) hi)⟩

theorem Is.unsqueezeLast {a : Tensor α} {s : List ℕ} {fa : List ℕ → α} (ha : Is a s fa) :
    Is a.unsqueezeLast (s ++ [1]) (fun i => fa i.dropLast) := by
  refine ⟨by simp [Tensor.unsqueezeLast, ha.1], fun i hi => ?_⟩
  obtain ⟨i', j, rfl, hi', _⟩ := inShape_concat_inv hi
  simpa [Tensor.unsqueezeLast] using ha.2 _ hi'

theorem Is.squeezeLast {a : Tensor α} {s : List ℕ} {fa : List ℕ → α} (ha : Is a (s ++ [1]) fa) :
    Is a.squeezeLast s (fun i => fa (i ++ [0])) := by
  have : a.squeezeLast = ⟨s, fun i => a.get (i ++ [0])⟩ := by
    unfold Tensor.squeezeLast; rw [ha.1]; simp
  rw [this]
  exact ⟨rfl, fun i hi => ha.2 _ (inShape_concat hi (by omega))⟩

/-! ## Fin-indexed views -/

open Spec in
theorem isVec_iff {t : Tensor α} {d : ℕ} {f : List ℕ → α} : Is t [d] f ↔ IsVec t (fun k : Fin d => f [k]) := by
  constructor
  · intro h
    exact ⟨h.1, fun k => h.2 _ (List.Forall₂.cons k.2 List.Forall₂.nil)⟩
  · intro h
    refine ⟨h.1, fun i hi => ?_⟩
    cases hi with
    | cons h1 hi => cases hi; exact h.2 ⟨_, h1⟩

open Spec in
theorem isMat_iff {t : Tensor α} {m d : ℕ} {f : List ℕ → α} :
    Is t [m, d] f ↔ IsMat t (fun (i : Fin m) (k : Fin d) => f [i, k]) := by
  constructor
  · intro h
    exact ⟨h.1, fun i k => h.2 _ (List.Forall₂.cons i.2 (List.Forall₂.cons k.2 List.Forall₂.nil))⟩
  · intro h
    refine ⟨h.1, fun i hi => ?_⟩
    cases hi with
    | cons h1 hi => cases hi with
      | cons h2 hi => cases hi; exact h.2 ⟨_, h1⟩ ⟨_, h2⟩

open Spec in
theorem isTen_iff {t : Tensor α} {n m d : ℕ} {f : List ℕ → α} :
    Is t [n, m, d] f ↔ IsTen t (fun (j : Fin n) (i : Fin m) (k : Fin d) => f [j, i, k]) := by
  constructor
  · intro h
    exact ⟨h.1, fun j i k =>
      h.2 _ (List.Forall₂.cons j.2 (List.Forall₂.cons i.2 (List.Forall₂.cons k.2 List.Forall₂.nil)))⟩
  · intro h
    refine ⟨h.1, fun i hi => ?_⟩
    cases hi with
    | cons h1 hi => cases hi with
      | cons h2 hi => cases hi with
        | cons h3 hi => cases hi; exact h.2 ⟨_, h1⟩ ⟨_, h2⟩ ⟨_, h3⟩

/-- index function of a Fin-indexed array -/
def ix1 [Inhabited α] {d : ℕ} (v : Fin d → α) (i : List ℕ) : α :=
  if h : i.headD 0 < d then v ⟨i.headD 0, h⟩ else default

def ix2 [Inhabited α] {m d : ℕ} (A : Fin m → Fin d → α) (i : List ℕ) : α :=
  if h : i.headD 0 < m then ix1 (A ⟨i.headD 0, h⟩) i.tail else default

def ix3 [Inhabited α] {n m d : ℕ} (A : Fin n → Fin m → Fin d → α) (i : List ℕ) : α :=
  if h : i.headD 0 < n then ix2 (A ⟨i.headD 0, h⟩) i.tail else default

@[simp] theorem ix1_apply [Inhabited α] {d : ℕ} (v : Fin d → α) (k : Fin d) : ix1 v [k] = v k := by simp [ix1]
@[simp] theorem ix2_apply [Inhabited α] {m d : ℕ} (A : Fin m → Fin d → α) (i : Fin m) (k : Fin d) :
    ix2 A [i, k] = A i k := by simp [ix2]
@[simp] theorem ix3_apply [Inhabited α] {n m d : ℕ} (A : Fin n → Fin m → Fin d → α) (j : Fin n) (i : Fin m)
    (k : Fin d) : ix3 A [j, i, k] = A j i k := by simp [ix3]

theorem _root_.Skwdro.Spec.IsVec.is [Inhabited α] {t : Tensor α} {d : ℕ} {v : Fin d → α} (h : Spec.IsVec t v) :
    Is t [d] (ix1 v) := isVec_iff.2 (by simpa using h)
theorem _root_.Skwdro.Spec.IsMat.is [Inhabited α] {t : Tensor α} {m d : ℕ} {v : Fin m → Fin d → α}
    (h : Spec.IsMat t v) : Is t [m, d] (ix2 v) := isMat_iff.2 (by simpa using h)
theorem _root_.Skwdro.Spec.IsTen.is [Inhabited α] {t : Tensor α} {n m d : ℕ} {v : Fin n → Fin m → Fin d → α}
    (h : Spec.IsTen t v) : Is t [n, m, d] (ix3 v) := isTen_iff.2 (by simpa using h)

theorem sum_range_fin {d : ℕ} (f : ℕ → ℝ) : ((List.range d).map f).sum = ∑ k : Fin d, f k := by
  rw [Fin.sum_univ_eq_sum_range f d]
  induction d with
  | zero => simp
  | succ n ih => simp [List.range_succ, Finset.sum_range_succ, ih]

end Tensor
end Skwdro

namespace Skwdro
namespace Tensor
variable {α β γ : Type}

/-! ## Row-major positions -/

theorem ravel_lt {i s : List ℕ} (h : InShape i s) : ravel s i < s.prod := by
  induction h with
  | nil => simp [ravel]
  | @cons a n i s h _ ih =>
    simp only [ravel, List.prod_cons]
    calc a * s.prod + ravel s i < a * s.prod + s.prod := by omega
      _ = (a + 1) * s.prod := by ring
      _ ≤ n * s.prod := Nat.mul_le_mul_right _ h

theorem unravel_ravel {i s : List ℕ} (h : InShape i s) : unravel s (ravel s i) = i := by
  induction h with
  | nil => rfl
  | @cons a n i s h hi ih =>
    have hl := ravel_lt hi
    have hp : 0 < s.prod := by omega
    simp only [ravel, unravel]
    rw [Nat.add_comm, Nat.add_mul_div_right _ _ hp, Nat.div_eq_of_lt hl, Nat.zero_add,
      Nat.add_mul_mod_self_right, Nat.mod_eq_of_lt hl, ih]

theorem inShape_unravel {s : List ℕ} {k : ℕ} (h : k < s.prod) : InShape (unravel s k) s := by
  induction s generalizing k with
  | nil => exact List.Forall₂.nil
  | cons n s ih =>
    rw [List.prod_cons] at h
    have hp : 0 < s.prod := by
      rcases Nat.eq_zero_or_pos s.prod with h0 | h0
      · rw [h0] at h; simp at h
      · exact h0
    refine List.Forall₂.cons ?_ (ih (Nat.mod_lt _ hp))
    exact Nat.div_lt_of_lt_mul (by rwa [Nat.mul_comm] at h)

theorem ravel_unravel {s : List ℕ} {k : ℕ} (h : k < s.prod) : ravel s (unravel s k) = k := by
  induction s generalizing k with
  | nil => simp [ravel] at *; omega
  | cons n s ih =>
    rw [List.prod_cons] at h
    have hp : 0 < s.prod := by
      rcases Nat.eq_zero_or_pos s.prod with h0 | h0
      · rw [h0] at h; simp at h
      · exact h0
    simp only [unravel, ravel, ih (Nat.mod_lt _ hp)]
    exact Nat.div_add_mod' k s.prod

theorem ravel_concat {s i : List ℕ} {d k : ℕ} (h : InShape i s) : ravel (s ++ [d]) (i ++ [k]) = ravel s i * d + k := by
  induction h with
  | nil => simp [ravel]
  | cons h _ ih =>
    simp only [List.cons_append, ravel, ih, List.prod_append, List.prod_cons, List.prod_nil, mul_one]
    ring

theorem Is.flattenButLast {a : Tensor α} {s : List ℕ} {d : ℕ} {f : List ℕ → α} (ha : Is a (s ++ [d]) f) :
    Is a.flattenButLast [s.prod, d] (fun i => f (unravel s (i.headD 0) ++ i.tail)) := by
  refine ⟨by simp [Tensor.flattenButLast, ha.1], fun i hi => ?_⟩
  cases hi with
  | cons h1 hi => cases hi with
    | cons h2 hi =>
      cases hi
      simp only [Tensor.flattenButLast, ha.1, List.dropLast_concat, List.headD_cons, List.tail_cons]
      exact ha.2 _ (inShape_concat (inShape_unravel h1) h2)

/-- viewing an `(N,1)` tensor as `b ++ [1]` -/
theorem Is.view_col {a : Tensor α} {b : List ℕ} {f : List ℕ → α} (ha : Is a [b.prod, 1] f) :
    ∃ t, a.view (b ++ [1]) = .ok t ∧ Is t (b ++ [1]) (fun i => f [ravel b i.dropLast, 0]) := by
  refine ⟨?_, ?_, ?_⟩
  · exact ⟨b ++ [1], fun i => a.get (unravel a.shape (ravel (b ++ [1]) i))⟩
  · simp [view, ha.1]
  · refine ⟨rfl, fun i hi => ?_⟩
    obtain ⟨i', j, rfl, hi', hj⟩ := inShape_concat_inv hi
    have : j = 0 := by omega
    subst this
    have hr := ravel_lt hi'
    have hin : InShape [ravel b i', 0] [b.prod, 1] :=
      List.Forall₂.cons hr (List.Forall₂.cons (by omega) List.Forall₂.nil)
    have e : unravel [b.prod, 1] (ravel (b ++ [1]) (i' ++ [0])) = [ravel b i', 0] := by
      rw [ravel_concat hi']
      simp [unravel, Nat.mod_one]
    simp only [ha.1, e, List.dropLast_concat]
    exact ha.2 _ hin


open Spec in
theorem _root_.Skwdro.Spec.HasRows.is {t : Tensor ℝ} {b : List ℕ} {d : ℕ} {X : List ℕ → Fin d → ℝ} (h : HasRows t b X) :
    Is t (b ++ [d]) (fun i => ix1 (X i.dropLast) [i.getLastD 0]) := by
  refine ⟨h.1, fun i hi => ?_⟩
  obtain ⟨i', j, rfl, hi', hj⟩ := inShape_concat_inv hi
  have := h.2 i' hi' ⟨j, hj⟩
  have e := ix1_apply (X i') ⟨j, hj⟩
  simp only at this e
  simp [this, e]

open Spec in
theorem _root_.Skwdro.Spec.HasRows.of_is {t : Tensor ℝ} {b : List ℕ} {d : ℕ} {X : List ℕ → Fin d → ℝ} {f : List ℕ → ℝ}
    (h : Is t (b ++ [d]) f) (hf : ∀ i, InShape i b → ∀ k : Fin d, f (i ++ [k.1]) = X i k) : HasRows t b X :=
  ⟨h.1, fun i hi k => by rw [h.2 _ (inShape_concat hi k.2), hf i hi k]⟩

open Spec in
theorem _root_.Skwdro.Spec.HasRows.flatten {t : Tensor ℝ} {b : List ℕ} {d : ℕ} {X : List ℕ → Fin d → ℝ} (h : HasRows t b X) :
    IsMat t.flattenButLast (fun r : Fin b.prod => X (unravel b r)) := by
  refine ⟨by simp [Tensor.flattenButLast, h.1], fun r k => ?_⟩
  have e := h.2 _ (inShape_unravel r.2) k
  simpa [Tensor.flattenButLast, h.1] using e

end Tensor
end Skwdro

namespace Skwdro
namespace Tensor

/-! ## Trailing dimensions -/

theorem bcastRev_prefix (s t : List ℕ) : bcastRev s (s ++ t) = some (s ++ t) := by
  induction s with
  | nil => rfl
  | cons n s ih => simp [bcastRev, ih]

theorem bcastShape_suffix (s l : List ℕ) : bcastShape s (l ++ s) = some (l ++ s) := by
  simp [bcastShape, bcastRev_prefix]

theorem bcastRev_prefix' (s t : List ℕ) : bcastRev (s ++ t) s = some (s ++ t) := by
  induction s with
  | nil => cases t <;> rfl
  | cons n s ih => simp [bcastRev, ih]

theorem bcastShape_suffix' (s l : List ℕ) : bcastShape (l ++ s) s = some (l ++ s) := by
  simp [bcastShape, bcastRev_prefix']

theorem proj_suffix {s i : List ℕ} (h : InShape i s) (j : List ℕ) : proj s (j ++ i) = i := by
  have := projRev_append (a := []) (b := j.reverse) (inShape_reverse h)
  simp only [List.append_nil] at this
  simp [proj, this, projRev]

theorem inShape_append_inv {i s t : List ℕ} (h : InShape i (s ++ t)) : ∃ a b, i = a ++ b ∧ InShape a s ∧ InShape b t := by
  induction s generalizing i with
  | nil => exact ⟨[], i, rfl, List.Forall₂.nil, h⟩
  | cons n s ih =>
    cases h with
    | cons h1 h2 =>
      obtain ⟨a, b, rfl, ha, hb⟩ := ih h2
      exact ⟨_ :: a, b, rfl, List.Forall₂.cons h1 ha, hb⟩

end Tensor
end Skwdro
