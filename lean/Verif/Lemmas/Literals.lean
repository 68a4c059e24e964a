import Verif.Lemmas.CostDecoder
import Verif.Spec.Literals
import Mathlib.Data.List.TakeWhile

/-! The scanner of the model reads exactly the literals of the grammar. -/

namespace Skwdro.Spec


theorem isDigit_iff (c : Char) : c.isDigit = true ↔ ∃ v, IsDigit c v := by
  unfold Char.isDigit IsDigit
  have e : c.val.toNat = c.toNat := rfl
  simp only [Bool.and_eq_true, decide_eq_true_eq, UInt32.le_iff_toNat_le, ge_iff_le]
  constructor
  · intro h
    refine ⟨c.toNat - 48, ?_, ?_⟩ <;> simp_all
    omega
  · rintro ⟨v, h1, h2⟩
    simp_all
    omega

theorem IsDigit.isDigit {c v} (h : IsDigit c v) : c.isDigit = true := (isDigit_iff c).2 ⟨v, h⟩

theorem IsDigit.val {c v} (h : IsDigit c v) : digitVal c = v := by
  unfold digitVal
  rw [h.2]
  simp

theorem isDigit_digitVal {c : Char} (h : c.isDigit = true) : IsDigit c (digitVal c) := by
  obtain ⟨v, hv⟩ := (isDigit_iff c).1 h
  rw [hv.val]
  exact hv

/-- a run of further digits, read from the left -/
inductive More : ℕ → ℕ → PyStr → ℕ → ℕ → Prop
  | nil {a n} : More a n [] a n
  | next {a n c v s b m} : IsDigit c v → More (10 * a + v) (n + 1) s b m → More a n (c :: s) b m
  | under {a n c v s b m} : IsDigit c v → More (10 * a + v) (n + 1) s b m → More a n ('_' :: c :: s) b m

theorem More.snoc {a n s b m c v} (h : More a n s b m) (hc : IsDigit c v) :
    More a n (s ++ [c]) (10 * b + v) (m + 1) := by
  induction h with
  | nil => exact .next hc .nil
  | next h _ ih => exact .next h ih
  | under h _ ih => exact .under h ih

theorem More.snocU {a n s b m c v} (h : More a n s b m) (hc : IsDigit c v) :
    More a n (s ++ ['_', c]) (10 * b + v) (m + 1) := by
  induction h with
  | nil => exact .under hc .nil
  | next h _ ih => exact .next h ih
  | under h _ ih => exact .under h ih

theorem Digits.more {s a n} (h : Digits s a n) : ∃ c v t, s = c :: t ∧ IsDigit c v ∧ More v 1 t a n := by
  induction h with
  | one h => exact ⟨_, _, [], rfl, h, .nil⟩
  | next _ hc ih =>
      obtain ⟨c, v, t, rfl, h1, h2⟩ := ih
      exact ⟨c, v, _, rfl, h1, h2.snoc hc⟩
  | under _ hc ih =>
      obtain ⟨c, v, t, rfl, h1, h2⟩ := ih
      exact ⟨c, v, _, rfl, h1, h2.snocU hc⟩

theorem More.digits {a n t b m} (h : More a n t b m) : ∀ {s}, Digits s a n → Digits (s ++ t) b m := by
  induction h with
  | nil => intro s hs; simpa using hs
  | @next a n c v t b m hc _ ih =>
      intro s hs
      have := ih (hs.next hc)
      simpa using this
  | @under a n c v t b m hc _ ih =>
      intro s hs
      have := ih (hs.under hc)
      simpa using this

/-- what may follow a maximal run of digits: nothing, or something that is neither a digit nor an underscore -/
def Stops : PyStr → Prop
  | [] => True
  | c :: _ => c.isDigit = false ∧ c ≠ '_'

theorem scanMore_complete {a n t b m} (h : More a n t b m) (r : PyStr) (hr : Stops r) :
    scanMore a n (t ++ r) = (b, m, r) := by
  induction h with
  | nil =>
      match r, hr with
      | [], _ => rfl
      | [c], hr => simp [scanMore, hr.1]
      | c :: d :: r, hr => simp [scanMore, hr.1, hr.2]
  | @next a n c v t b m hc _ ih =>
      rw [← ih]
      match h : t ++ r with
      | [] => simp [h, scanMore, hc.isDigit, hc.val]
      | d :: u => simp [h, scanMore, hc.isDigit, hc.val]
  | @under a n c v t b m hc _ ih =>
      rw [← ih]
      have : ('_' : Char).isDigit = false := by decide
      simp [scanMore, hc.isDigit, hc.val, this]

theorem scanDigits_complete {s a n} (h : OptDigits s a n) (r : PyStr) (hr : Stops r) :
    scanDigits (s ++ r) = (a, n, r) := by
  cases h with
  | none =>
      match r, hr with
      | [], _ => rfl
      | c :: r, hr => simp [scanDigits, hr.1]
  | some h =>
      obtain ⟨c, v, t, rfl, h1, h2⟩ := h.more
      simp only [List.cons_append, scanDigits, h1.isDigit, if_true, h1.val]
      exact scanMore_complete h2 r hr

theorem scanMore_sound (s : PyStr) (a n : ℕ) :
    ∃ t, s = t ++ (scanMore a n s).2.2 ∧ More a n t (scanMore a n s).1 (scanMore a n s).2.1 := by
  induction a, n, s using scanMore.induct with
  | case1 a n => exact ⟨[], rfl, .nil⟩
  | case2 a n c h =>
      refine ⟨[c], ?_, ?_⟩
      · simp [scanMore, h]
      · simp only [scanMore, h, if_true]
        exact .next (isDigit_digitVal h) .nil
  | case3 a n c h =>
      refine ⟨[], ?_, ?_⟩
      · simp [scanMore, h]
      · simp only [scanMore, h]
        exact .nil
  | case4 a n c d r h ih =>
      obtain ⟨t, h1, h2⟩ := ih
      have e : scanMore a n (c :: d :: r) = scanMore (10 * a + digitVal c) (n + 1) (d :: r) := by
        simp [scanMore, h]
      rw [e]
      exact ⟨c :: t, by rw [List.cons_append, ← h1], .next (isDigit_digitVal h) h2⟩
  | case5 a n c d r h h' ih =>
      obtain ⟨t, h1, h2⟩ := ih
      have e : scanMore a n (c :: d :: r) = scanMore (10 * a + digitVal d) (n + 1) r := by
        rw [scanMore, if_neg h, if_pos h']
      simp only [Bool.and_eq_true, beq_iff_eq] at h'
      rw [e, h'.1]
      exact ⟨'_' :: d :: t, by rw [List.cons_append, List.cons_append, ← h1],
        .under (isDigit_digitVal h'.2) h2⟩
  | case6 a n c d r h h' =>
      have e : scanMore a n (c :: d :: r) = (a, n, c :: d :: r) := by
        rw [scanMore, if_neg h, if_neg h']
      rw [e]
      exact ⟨[], rfl, .nil⟩

theorem scanDigits_sound (s : PyStr) :
    ∃ t, s = t ++ (scanDigits s).2.2 ∧ OptDigits t (scanDigits s).1 (scanDigits s).2.1 := by
  match s with
  | [] => exact ⟨[], rfl, .none⟩
  | c :: r =>
      by_cases h : c.isDigit = true
      · obtain ⟨t, h1, h2⟩ := scanMore_sound r (digitVal c) 1
        have e : scanDigits (c :: r) = scanMore (digitVal c) 1 r := by simp [scanDigits, h]
        rw [e]
        exact ⟨c :: t, by rw [List.cons_append, ← h1],
          .some (h2.digits (.one (isDigit_digitVal h)))⟩
      · have e : scanDigits (c :: r) = (0, 0, c :: r) := by simp [scanDigits, h]
        rw [e]
        exact ⟨[], rfl, .none⟩

theorem More.le {a n s b m} (h : More a n s b m) : n ≤ m := by
  induction h with
  | nil => rfl
  | next _ _ ih => omega
  | under _ _ ih => omega

theorem Digits.pos {s a n} (h : Digits s a n) : n ≠ 0 := by cases h <;> omega

theorem OptDigits.digits {s a n} (h : OptDigits s a n) (hn : n ≠ 0) : Digits s a n := by
  cases h with
  | none => exact absurd rfl hn
  | some h => exact h

theorem scanDigits_all {s a n} (h : Digits s a n) : scanDigits s = (a, n, []) := by
  have := scanDigits_complete (.some h) [] trivial
  simpa using this

theorem Digits.head {s a n} (h : Digits s a n) : ∃ c t, s = c :: t ∧ c.isDigit = true := by
  obtain ⟨c, v, t, rfl, h1, -⟩ := h.more
  exact ⟨c, t, rfl, h1.isDigit⟩

/-- the digits of an exponent -/
def expDigits (neg : Bool) (r : PyStr) : Option ℤ :=
  match scanDigits r with
  | (v, l, []) => if l = 0 then none else some (if neg then -(v : ℤ) else v)
  | _ => none

theorem scanExp_minus {c : Char} (hc : (c == 'e' || c == 'E') = true) (r : PyStr) :
    scanExp (c :: '-' :: r) = expDigits true r := by
  simp only [scanExp, hc, if_true]
  rfl

theorem scanExp_plus {c : Char} (hc : (c == 'e' || c == 'E') = true) (r : PyStr) :
    scanExp (c :: '+' :: r) = expDigits false r := by
  simp only [scanExp, hc, if_true]
  rfl

theorem scanExp_plain {c : Char} (hc : (c == 'e' || c == 'E') = true) {r : PyStr} (h1 : ∀ t, r ≠ '-' :: t)
    (h2 : ∀ t, r ≠ '+' :: t) : scanExp (c :: r) = expDigits false r := by
  simp only [scanExp, hc, if_true]
  rfl

theorem expDigits_iff (neg : Bool) (r : PyStr) (e : ℤ) :
    expDigits neg r = some e ↔ ∃ v n, Digits r v n ∧ e = if neg then -(v : ℤ) else v := by
  constructor
  · intro h
    unfold expDigits at h
    obtain ⟨t, h1, h2⟩ := scanDigits_sound r
    split at h
    · rename_i v l heq
      rw [heq] at h1 h2
      simp only [List.append_nil] at h1
      by_cases hl : l = 0
      · simp [hl] at h
      · rw [if_neg hl] at h
        exact ⟨v, l, h1 ▸ h2.digits hl, (Option.some.inj h).symm⟩
    · cases h
  · rintro ⟨v, n, hd, rfl⟩
    simp only [expDigits, scanDigits_all hd, hd.pos, if_false]

theorem scanExp_iff (s : PyStr) (e : ℤ) : scanExp s = some e ↔ Exponent s e := by
  constructor
  · intro h
    match s with
    | [] =>
        simp only [scanExp, Option.some.injEq] at h
        rw [← h]
        exact .none
    | c :: r =>
        by_cases hc : (c == 'e' || c == 'E') = true
        · have hc' : c = 'e' ∨ c = 'E' := by simpa using hc
          by_cases h1 : ∃ t, r = '-' :: t
          · obtain ⟨t, rfl⟩ := h1
            rw [scanExp_minus hc] at h
            obtain ⟨v, n, hd, rfl⟩ := (expDigits_iff _ _ _).1 h
            exact .minus hc' hd
          by_cases h2 : ∃ t, r = '+' :: t
          · obtain ⟨t, rfl⟩ := h2
            rw [scanExp_plus hc] at h
            obtain ⟨v, n, hd, rfl⟩ := (expDigits_iff _ _ _).1 h
            exact .plus hc' hd
          · rw [scanExp_plain hc (fun t e => h1 ⟨t, e⟩) (fun t e => h2 ⟨t, e⟩)] at h
            obtain ⟨v, n, hd, rfl⟩ := (expDigits_iff _ _ _).1 h
            exact .plain hc' hd
        · simp [scanExp, hc] at h
  · intro h
    cases h with
    | none => rfl
    | @plain c s a n hc hd =>
        have hb : (c == 'e' || c == 'E') = true := by simpa using hc
        obtain ⟨d, t, rfl, hdig⟩ := hd.head
        rw [scanExp_plain hb, expDigits_iff]
        · exact ⟨a, n, hd, rfl⟩
        · intro u e; cases (List.cons.inj e).1; exact absurd hdig (by decide)
        · intro u e; cases (List.cons.inj e).1; exact absurd hdig (by decide)
    | @plus c s a n hc hd =>
        rw [scanExp_plus (by simpa using hc), expDigits_iff]
        exact ⟨a, n, hd, rfl⟩
    | @minus c s a n hc hd =>
        rw [scanExp_minus (by simpa using hc), expDigits_iff]
        exact ⟨a, n, hd, rfl⟩

theorem Exponent.stops {s e} (h : Exponent s e) : Stops s := by
  cases h with
  | none => trivial
  | plain hc _ => rcases hc with rfl | rfl <;> exact ⟨by decide, by decide⟩
  | plus hc _ => rcases hc with rfl | rfl <;> exact ⟨by decide, by decide⟩
  | minus hc _ => rcases hc with rfl | rfl <;> exact ⟨by decide, by decide⟩

theorem Exponent.not_point {s e} (h : Exponent s e) : scanFrac s = (0, 0, s) := by
  cases h with
  | none => rfl
  | plain hc _ => rcases hc with rfl | rfl <;> rfl
  | plus hc _ => rcases hc with rfl | rfl <;> rfl
  | minus hc _ => rcases hc with rfl | rfl <;> rfl

theorem scanDecimal_iff (s : PyStr) (q : ℚ) : scanDecimal s = some q ↔ Unsigned s q := by
  constructor
  · intro h
    unfold scanDecimal at h
    dsimp only at h
    obtain ⟨i, hi, hid⟩ := scanDigits_sound s
    by_cases hz : (scanDigits s).2.1 + (scanFrac (scanDigits s).2.2).2.1 = 0
    · rw [if_pos hz] at h; cases h
    rw [if_neg hz] at h
    split at h
    · cases h
    rename_i e he
    have hx := (scanExp_iff _ _).1 he
    have hq := Option.some.inj h
    by_cases hp : ∃ r, (scanDigits s).2.2 = '.' :: r
    · obtain ⟨r, hr⟩ := hp
      rw [hr] at hi hz hx hq
      obtain ⟨f, hf, hfd⟩ := scanDigits_sound r
      have e1 : scanFrac ('.' :: r) = scanDigits r := rfl
      rw [e1] at hz hx hq
      rw [hi, hf, ← hq]
      exact .point hid hfd hz hx
    · have e1 : scanFrac (scanDigits s).2.2 = (0, 0, (scanDigits s).2.2) := by
        unfold scanFrac
        split
        · rename_i r heq; exact absurd ⟨r, heq⟩ hp
        · rfl
      rw [e1] at hz hx hq
      simp only [Nat.add_zero] at hz
      have := Unsigned.whole (hid.digits hz) hx
      simp only [Nat.cast_zero, zero_div, add_zero] at hq
      rw [hq, ← hi] at this
      exact this
  · intro h
    cases h with
    | @whole i a n x e hd hx =>
        have e1 := scanDigits_complete (.some hd) x hx.stops
        unfold scanDecimal
        simp only [e1, hx.not_point, (scanExp_iff _ _).2 hx]
        simp [hd.pos]
    | @point i a n f b m x e hd hf hz hx =>
        have e1 := scanDigits_complete hd ('.' :: (f ++ x)) ⟨by decide, by decide⟩
        have e2 : scanFrac ('.' :: (f ++ x)) = (b, m, x) := scanDigits_complete hf x hx.stops
        unfold scanDecimal
        simp only [e1, e2, (scanExp_iff _ _).2 hx]
        rw [if_neg hz]

/-- a number starts with a digit or with the point -/
theorem Unsigned.head {s q} (h : Unsigned s q) : ∃ c t, s = c :: t ∧ (c.isDigit = true ∨ c = '.') := by
  cases h with
  | whole hd _ =>
      obtain ⟨c, t, rfl, h⟩ := hd.head
      exact ⟨c, _, rfl, .inl h⟩
  | point hd _ _ _ =>
      cases hd with
      | none => exact ⟨_, _, rfl, .inr rfl⟩
      | some hd =>
          obtain ⟨c, t, rfl, h⟩ := hd.head
          exact ⟨c, _, rfl, .inl h⟩

theorem toLower_digit {c : Char} (h : c.isDigit = true ∨ c = '.') :
    c.toLower ≠ 'i' ∧ c.toLower ≠ 'n' := by
  have e : c.toLower = c := by
    rcases h with h | rfl
    · obtain ⟨v, h1, h2⟩ := (isDigit_iff c).1 h
      unfold Char.toLower
      have : c.val.toNat = c.toNat := rfl
      rw [dif_neg]
      simp only [UInt32.le_iff_toNat_le, ge_iff_le, not_and, this]
      intro h3
      have : ('A'.val.toNat) = 65 := rfl
      omega
    · decide
  rw [e]
  rcases h with h | rfl
  · constructor <;> (rintro rfl; exact absurd h (by decide))
  · decide

theorem scanUnsigned_iff (s : PyStr) (x : XNum ℚ) : scanUnsigned s = some x ↔ Magnitude s x := by
  have hn : ∀ q, Unsigned s q → lowerStr s ≠ "inf".toList ∧ lowerStr s ≠ "infinity".toList ∧
      lowerStr s ≠ "nan".toList := by
    intro q h
    obtain ⟨c, t, rfl, hc⟩ := h.head
    obtain ⟨h1, h2⟩ := toLower_digit hc
    refine ⟨fun e => h1 (List.cons.inj e).1, fun e => h1 (List.cons.inj e).1, fun e => h2 (List.cons.inj e).1⟩
  constructor
  · intro h
    unfold scanUnsigned at h
    split at h
    · rename_i hi
      cases h
      rcases hi with hi | hi
      · exact .inf hi
      · exact .infinity hi
    · split at h
      · rename_i hi
        cases h
        exact .nan hi
      · obtain ⟨q, h1, rfl⟩ := Option.map_eq_some_iff.1 h
        exact .number ((scanDecimal_iff _ _).1 h1)
  · intro h
    unfold scanUnsigned
    cases h with
    | number h =>
        obtain ⟨h1, h2, h3⟩ := hn _ h
        rw [if_neg (not_or.2 ⟨h1, h2⟩), if_neg h3, (scanDecimal_iff _ _).2 h]
        rfl
    | inf h => rw [if_pos (.inl h)]
    | infinity h => rw [if_pos (.inr h)]
    | nan h =>
        have h' : lowerStr s = "nan".toList := h
        rw [if_neg (by rw [h']; decide), if_pos h']

theorem negX_iff (x y : XNum ℚ) (hx : x ≠ .ninf) : negX x = y ↔ Opposite x y := by
  constructor
  · rintro rfl
    cases x with
    | nan => exact .nan
    | ninf => exact absurd rfl hx
    | fin q => exact .fin q
    | pinf => exact .inf
  · intro h
    cases h <;> rfl

theorem Magnitude.ne_ninf {s x} (h : Magnitude s x) : x ≠ .ninf := by
  cases h <;> simp

theorem Magnitude.sign {s x} (h : Magnitude s x) : (∀ t, s ≠ '-' :: t) ∧ ∀ t, s ≠ '+' :: t := by
  cases h with
  | number h =>
      obtain ⟨c, t, rfl, hc⟩ := h.head
      constructor <;> (intro u e; cases (List.cons.inj e).1; revert hc; decide)
  | inf h => constructor <;> (rintro t rfl; revert h; simp [List.map])
  | infinity h => constructor <;> (rintro t rfl; revert h; simp [List.map])
  | nan h => constructor <;> (rintro t rfl; revert h; simp [List.map])

/-- the literal without blanks -/
def readSigned (s : PyStr) : Option (XNum ℚ) :=
  match s with
  | '-' :: r => (scanUnsigned r).map negX
  | '+' :: r => scanUnsigned r
  | r => scanUnsigned r

theorem readSigned_iff (s : PyStr) (x : XNum ℚ) : readSigned s = some x ↔ Signed s x := by
  constructor
  · intro h
    unfold readSigned at h
    split at h
    · obtain ⟨y, h1, h2⟩ := Option.map_eq_some_iff.1 h
      have hm := (scanUnsigned_iff _ _).1 h1
      exact .minus hm ((negX_iff _ _ hm.ne_ninf).1 h2)
    · exact .plus ((scanUnsigned_iff _ _).1 h)
    · exact .bare ((scanUnsigned_iff _ _).1 h)
  · intro h
    cases h with
    | bare h =>
        obtain ⟨h1, h2⟩ := h.sign
        unfold readSigned
        split
        · exact absurd rfl (h1 _)
        · exact absurd rfl (h2 _)
        · exact (scanUnsigned_iff _ _).2 h
    | plus h => exact (scanUnsigned_iff _ _).2 h
    | minus h ho =>
        show (scanUnsigned _).map negX = _
        rw [(scanUnsigned_iff _ _).2 h, Option.map_some, (negX_iff _ _ h.ne_ninf).2 ho]

theorem isBlank_iff (c : Char) : isBlank c = true ↔
    c = ' ' ∨ c = '\t' ∨ c = '\n' ∨ c = '\x0b' ∨ c = '\x0c' ∨ c = '\r' := by
  simp only [isBlank, Bool.or_eq_true, beq_iff_eq]
  tauto

/-- the first and the last character are not blanks -/
def Tight (s : PyStr) : Prop := (∃ c t, s = c :: t ∧ isBlank c = false) ∧ ∃ c t, s = t ++ [c] ∧ isBlank c = false

theorem stripBlanks_tight {l m r : PyStr} (hl : Blanks l) (hr : Blanks r) (hm : Tight m) :
    stripBlanks (l ++ m ++ r) = m := by
  have drop : ∀ (l m : PyStr), (∀ c ∈ l, isBlank c = true) → (∃ c t, m = c :: t ∧ isBlank c = false) →
      (l ++ m).dropWhile isBlank = m := by
    intro l m hl ⟨c, t, hm, hc⟩
    induction l with
    | nil => simp [hm, hc]
    | cons a l ih =>
        rw [List.cons_append, List.dropWhile_cons_of_pos (hl a (by simp))]
        exact ih fun c hc => hl c (by simp [hc])
  obtain ⟨⟨c, t, h1, h2⟩, ⟨c', t', h3, h4⟩⟩ := hm
  unfold stripBlanks
  rw [List.append_assoc, drop l (m ++ r) (fun c hc => (isBlank_iff c).2 (hl c hc))
    ⟨c, t ++ r, by rw [h1]; rfl, h2⟩, List.reverse_append,
    drop r.reverse m.reverse (fun c hc => (isBlank_iff c).2 (hr c (by simpa using hc)))
      ⟨c', t'.reverse, by rw [h3]; simp, h4⟩, List.reverse_reverse]

theorem stripBlanks_split (s : PyStr) : ∃ l r, s = l ++ stripBlanks s ++ r ∧ Blanks l ∧ Blanks r := by
  refine ⟨s.takeWhile isBlank, ((s.dropWhile isBlank).reverse.takeWhile isBlank).reverse, ?_, ?_, ?_⟩
  · unfold stripBlanks
    rw [List.append_assoc, ← List.reverse_append, List.takeWhile_append_dropWhile, List.reverse_reverse,
      List.takeWhile_append_dropWhile]
  · intro c hc
    exact (isBlank_iff c).1 (List.mem_takeWhile_imp hc)
  · intro c hc
    rw [List.mem_reverse] at hc
    exact (isBlank_iff c).1 (List.mem_takeWhile_imp hc)

theorem digit_notBlank {c : Char} (h : c.isDigit = true) : isBlank c = false := by
  by_contra hb
  rw [Bool.not_eq_false] at hb
  rcases (isBlank_iff c).1 hb with rfl | rfl | rfl | rfl | rfl | rfl <;> exact absurd h (by decide)

theorem Digits.last {s a n} (h : Digits s a n) : ∃ t c, s = t ++ [c] ∧ isBlank c = false := by
  cases h with
  | one h => exact ⟨[], _, rfl, digit_notBlank h.isDigit⟩
  | next _ h => exact ⟨_, _, rfl, digit_notBlank h.isDigit⟩
  | @under s _ _ c _ _ h => exact ⟨s ++ ['_'], c, by simp, digit_notBlank h.isDigit⟩

theorem Exponent.last {s e} (h : Exponent s e) : s = [] ∨ ∃ t c, s = t ++ [c] ∧ isBlank c = false := by
  cases h with
  | none => exact .inl rfl
  | @plain c _ _ _ _ hd =>
      obtain ⟨t, d, rfl, h⟩ := hd.last
      exact .inr ⟨c :: t, d, by simp, h⟩
  | @plus c _ _ _ _ hd =>
      obtain ⟨t, d, rfl, h⟩ := hd.last
      exact .inr ⟨c :: '+' :: t, d, by simp, h⟩
  | @minus c _ _ _ _ hd =>
      obtain ⟨t, d, rfl, h⟩ := hd.last
      exact .inr ⟨c :: '-' :: t, d, by simp, h⟩

theorem Unsigned.last {s q} (h : Unsigned s q) : ∃ t c, s = t ++ [c] ∧ isBlank c = false := by
  cases h with
  | @whole i _ _ x _ hd hx =>
      rcases hx.last with rfl | ⟨t, c, rfl, h⟩
      · simpa using hd.last
      · exact ⟨i ++ t, c, by simp, h⟩
  | @point i _ _ f _ _ x _ _ hf _ hx =>
      rcases hx.last with rfl | ⟨t, c, rfl, h⟩
      · cases hf with
        | none => exact ⟨i, '.', by simp, by decide⟩
        | some hf =>
            obtain ⟨t, c, rfl, h⟩ := hf.last
            exact ⟨i ++ '.' :: t, c, by simp, h⟩
      · exact ⟨i ++ '.' :: (f ++ t), c, by simp, h⟩

theorem lower_notBlank {c : Char} (h : isBlank c.toLower = false) : isBlank c = false := by
  by_contra hb
  rw [Bool.not_eq_false] at hb
  rcases (isBlank_iff c).1 hb with rfl | rfl | rfl | rfl | rfl | rfl <;> exact absurd h (by decide)

theorem word_tight {s w : PyStr} (h : s.map Char.toLower = w) (hw : ∀ c ∈ w, isBlank c = false) (hn : w ≠ []) :
    Tight s := by
  have hs : ∀ c ∈ s, isBlank c = false := fun c hc =>
    lower_notBlank (hw _ (h ▸ List.mem_map_of_mem hc))
  have hne : s ≠ [] := by rintro rfl; exact hn h.symm
  constructor
  · obtain ⟨c, t, rfl⟩ := List.exists_cons_of_ne_nil hne
    exact ⟨c, t, rfl, hs c (by simp)⟩
  · rcases List.eq_nil_or_concat s with h0 | ⟨t, c, rfl⟩
    · exact absurd h0 hne
    · exact ⟨c, t, by simp, hs c (by simp)⟩

theorem Magnitude.tight {s x} (h : Magnitude s x) : Tight s := by
  cases h with
  | number h =>
      obtain ⟨c, t, h1, h2⟩ := h.head
      obtain ⟨t', c', h3, h4⟩ := h.last
      refine ⟨⟨c, t, h1, ?_⟩, ⟨c', t', h3, h4⟩⟩
      rcases h2 with h2 | rfl
      · exact digit_notBlank h2
      · decide
  | inf h => exact word_tight h (by decide) (by decide)
  | infinity h => exact word_tight h (by decide) (by decide)
  | nan h => exact word_tight h (by decide) (by decide)

theorem Signed.tight {s x} (h : Signed s x) : Tight s := by
  cases h with
  | bare h => exact h.tight
  | @plus s _ h =>
      obtain ⟨-, c, t, h1, h2⟩ := h.tight
      exact ⟨⟨'+', s, rfl, by decide⟩, ⟨c, '+' :: t, by rw [h1]; rfl, h2⟩⟩
  | @minus s _ _ h _ =>
      obtain ⟨-, c, t, h1, h2⟩ := h.tight
      exact ⟨⟨'-', s, rfl, by decide⟩, ⟨c, '-' :: t, by rw [h1]; rfl, h2⟩⟩

theorem pyFloat_eq (s : PyStr) : pyFloat s = match readSigned (stripBlanks s) with
    | some x => .ok x
    | none => .error .valueError := rfl

theorem pyFloat_iff (s : PyStr) (x : XNum ℚ) : pyFloat s = .ok x ↔ FloatLiteral s x := by
  rw [pyFloat_eq]
  constructor
  · intro h
    split at h
    · rename_i y hy
      cases h
      obtain ⟨l, r, h1, h2, h3⟩ := stripBlanks_split s
      exact ⟨l, _, r, h1, h2, h3, (readSigned_iff _ _).1 hy⟩
    · cases h
  · rintro ⟨l, m, r, rfl, hl, hr, hm⟩
    rw [stripBlanks_tight hl hr hm.tight, (readSigned_iff _ _).2 hm]

theorem pyFloat_refuses (s : PyStr) : pyFloat s = .error .valueError ↔ ∀ x, ¬ FloatLiteral s x := by
  constructor
  · intro h x hx
    rw [(pyFloat_iff s x).2 hx] at h
    cases h
  · intro h
    rw [pyFloat_eq]
    split
    · rename_i y hy
      have : pyFloat s = .ok y := by rw [pyFloat_eq, hy]
      exact absurd ((pyFloat_iff s y).1 this) (h y)
    · rfl

end Skwdro.Spec
