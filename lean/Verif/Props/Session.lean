import Verif.Spec.Session
import Verif.Props.OptCond

/-! # C102: hyper-parameters are what the user set.  C103: estimators do not influence each other.  C104: clones are as new. -/

namespace Skwdro
open Spec

section
variable {G Data Res : Type} {F : Fits G Data Res}

/-! ## C102 -/

theorem kept_refl (e : EstObj) : Kept e e := ⟨rfl, Or.inl rfl, fun _ _ _ => Iff.rfl, Or.inl rfl⟩

theorem kept_trans {e f g : EstObj} (h : Kept e f) (k : Kept f g) : Kept e g := by
  refine ⟨k.kind.trans h.kind, ?_, fun v h1 h2 => (h.rest v h1 h2).trans (k.rest v h1 h2), ?_⟩
  · rcases k.rho with h1 | ⟨r, h1, h2⟩
    · rw [h1]; exact h.rho
    · rcases h.rho with h3 | ⟨r', h3, h4⟩
      · rw [h3] at h1; exact Or.inr ⟨r, h1, h2⟩
      · rw [h4] at h1; cases h1; exact Or.inr ⟨_, h3, h2⟩
  · rcases h.cond with h1 | h1
    · rcases k.cond with h2 | h2
      · exact Or.inl (h2.trans h1)
      · exact Or.inr (h1 ▸ h2)
    · exact Or.inr h1

theorem toFloat_writes {x : RhoArg} {r : Radius} (h : x.toFloat = .ok r) : Writes x r := by
  cases x with
  | int n => cases h; exact .int n
  | float r => cases h; exact .float r
  | text v => cases v with
    | none => cases h
    | some r => cases h; exact .text r

/-- what a fit of `a` changes: its own entry, up to `Kept`; the others are untouched -/
theorem fitConverted_ests {s : Session G} {a : ℕ} {e : EstObj} {r : Radius} (D : Data) (he : s.ests[a]? = some e) (hr : e.args.rho.toFloat = .ok r) :
    ∃ e', (fitConverted F s a e r D).2.ests = s.ests.set a e' ∧ Kept e e' := by
  have hk : ∀ c, c = e.cond ∨ e.cond = none → Kept e { e with args := { e.args with rho := .float r }, cond := c } := by
    intro c hc
    refine ⟨rfl, Or.inr ⟨r, toFloat_writes hr, rfl⟩, fun v h1 h2 => ?_, hc⟩
    cases v <;> first | exact Iff.rfl | exact absurd rfl (h1 _) | exact absurd rfl (h2 _)
  have h0 := hk e.cond (Or.inl rfl)
  unfold fitConverted
  dsimp only
  split
  · exact ⟨_, rfl, h0⟩
  · exact ⟨_, rfl, h0⟩
  · have hset : s.ests.set a e = s.ests := by
      apply List.ext_getElem?
      intro i
      rw [List.getElem?_set]
      split
      · next h => subst h; rw [if_pos (List.getElem?_eq_some_iff.1 he).1, he]
      · rfl
    split
    · refine ⟨e, ?_, kept_refl e⟩
      rw [hset]
      split <;> rfl
    · refine ⟨{ e with args := { e.args with rho := .float r }, cond := some (e.cond.getD s.conds.length) }, ?_, hk _ ?_⟩
      · split <;> rfl
      · cases e.cond <;> simp

theorem kept_of_set {l : List EstObj} {a b : ℕ} {e e' f : EstObj} (he : l[a]? = some e) (hb : l[b]? = some f) (h : Kept f e') :
    ∃ x, (l.set b e')[a]? = some x ∧ Kept e x := by
  rw [List.getElem?_set]
  split
  · next hab =>
    subst hab
    rw [he] at hb
    cases hb
    rw [if_pos (List.getElem?_eq_some_iff.1 he).1]
    exact ⟨_, rfl, h⟩
  · exact ⟨e, he, kept_refl e⟩

theorem append_get {α : Type} {l : List α} {a : ℕ} {x y : α} (h : l[a]? = some x) : (l ++ [y])[a]? = some x := by
  rw [List.getElem?_append_left (List.getElem?_eq_some_iff.1 h).1, h]

/-- one operation other than `set_params` of this estimator -/
theorem step_kept {s : Session G} {a : ℕ} {e : EstObj} (he : s.ests[a]? = some e) (o : Op Data) (ho : ∀ vs, o ≠ .setParams a vs) :
    ∃ e', (sessionStep F s o).2.ests[a]? = some e' ∧ Kept e e' := by
  have id_ : ∃ e', s.ests[a]? = some e' ∧ Kept e e' := ⟨e, he, kept_refl e⟩
  have add_ : ∀ y, ∃ e', (s.ests ++ [y])[a]? = some e' ∧ Kept e e' := fun y => ⟨e, append_get he, kept_refl e⟩
  cases o with
  | newCond cfg => exact id_
  | construct k A c =>
    unfold sessionStep
    dsimp only
    split
    · split
      · exact id_
      · exact add_ _
    · exact id_
  | setParams b vs =>
    have hb : b ≠ a := fun h => ho vs (by rw [h])
    unfold sessionStep
    dsimp only
    split
    · exact id_
    · split
      · refine ⟨e, ?_, kept_refl e⟩
        show (s.ests.set b _)[a]? = _
        rw [List.getElem?_set_ne hb, he]
      · exact id_
  | clone b =>
    unfold sessionStep
    dsimp only
    split
    · exact id_
    · split
      · split
        · exact id_
        · exact add_ _
      · split
        · exact id_
        · split
          · exact id_
          · split
            · exact id_
            · exact add_ _
  | fit b D =>
    unfold sessionStep
    dsimp only
    split
    · exact id_
    · next f hf =>
      split
      · exact id_
      · split
        · exact id_
        · next r hr =>
          obtain ⟨e', h1, h2⟩ := fitConverted_ests (F := F) D hf hr
          rw [h1]
          exact kept_of_set he hf h2
  | use c m =>
    unfold sessionStep
    dsimp only
    split <;> exact id_

/-- **C102** (partial: `opt_cond=None` is not kept, see `C102_none_false`) Whatever training does, and whatever a program does with this and any other
estimator (constructions, fits that return or raise, clones, changes of parameters of others), the arguments `get_params` returns are those last set:
same class, same values; the radius as a float of the same number; the same condition unless it was `None`. -/
theorem C102_arguments_partial {s : Session G} {a : ℕ} {e : EstObj} (he : s.ests[a]? = some e) (os : List (Op Data))
    (hos : ∀ vs, Op.setParams a vs ∉ os) : ∃ e', (sessionRun F s os).ests[a]? = some e' ∧ Kept e e' := by
  induction os generalizing s e with
  | nil => exact ⟨e, he, kept_refl e⟩
  | cons o os ih =>
    obtain ⟨e1, h1, h2⟩ := step_kept (F := F) he o (fun vs h => hos vs (by simp [h]))
    obtain ⟨e2, h3, h4⟩ := ih h1 fun vs h => hos vs (List.mem_cons_of_mem _ h)
    exact ⟨e2, h3, kept_trans h2 h4⟩

/-- **C102** An estimator that is neither fitted nor changed keeps its arguments exactly, `opt_cond=None` included. -/
theorem C102_untouched {s : Session G} {a : ℕ} {e : EstObj} (he : s.ests[a]? = some e) (os : List (Op Data))
    (hos : ∀ vs, Op.setParams a vs ∉ os) (hfit : ∀ D, Op.fit a D ∉ os) : (sessionRun F s os).ests[a]? = some e := by
  induction os generalizing s with
  | nil => exact he
  | cons o os ih =>
    refine ih ?_ (fun vs h => hos vs (List.mem_cons_of_mem _ h)) (fun D h => hfit D (List.mem_cons_of_mem _ h))
    cases o with
    | newCond cfg => exact he
    | construct k A c =>
      unfold sessionStep
      dsimp only
      split
      · split
        · exact he
        · exact append_get he
      · exact he
    | setParams b vs =>
      have hb : b ≠ a := fun h => hos vs (by rw [h]; simp)
      unfold sessionStep
      dsimp only
      split
      · exact he
      · split
        · show (s.ests.set b _)[a]? = _
          rw [List.getElem?_set_ne hb, he]
        · exact he
    | clone b =>
      unfold sessionStep
      dsimp only
      split
      · exact he
      · split
        · split
          · exact he
          · exact append_get he
        · split
          · exact he
          · split
            · exact he
            · split
              · exact he
              · exact append_get he
    | fit b D =>
      have hb : b ≠ a := fun h => hfit D (by rw [h]; simp)
      unfold sessionStep
      dsimp only
      split
      · exact he
      · next f hf =>
        split
        · exact he
        · split
          · exact he
          · next r hr =>
            obtain ⟨e', h1, -⟩ := fitConverted_ests (F := F) D hf hr
            rw [h1, List.getElem?_set_ne hb, he]
    | use c m =>
      unfold sessionStep
      dsimp only
      split <;> exact he

/-! ### `set_params` -/

theorem known_iff (e : EstKind) (v : Setting) : v.known e = true ↔ nameOf v ∈ argNames e := by
  cases e <;> cases v <;> simp [Setting.known, nameOf, argNames]

theorem apply_kind (v : Setting) (e : EstObj) : (v.apply e).kind = e.kind := by cases v <;> rfl

theorem apply_reads (v : Setting) (e : EstObj) : Reads (v.apply e) v := by cases v <;> rfl

theorem apply_other {v w : Setting} (h : nameOf v ≠ nameOf w) (e : EstObj) : Reads e w ↔ Reads (v.apply e) w := by
  cases v <;> cases w <;> first | exact Iff.rfl | exact absurd rfl h

theorem setAll_known {vs : List Setting} : ∀ {e : EstObj}, (∀ v ∈ vs, nameOf v ∈ argNames e.kind) → (setAll vs e).1 = .ok () ∧
    (setAll vs e).2.kind = e.kind ∧
    (∀ v vs1 vs2, vs = vs1 ++ v :: vs2 → (∀ w ∈ vs2, nameOf w ≠ nameOf v) → Reads (setAll vs e).2 v) ∧
    ∀ v, (∀ w ∈ vs, nameOf w ≠ nameOf v) → (Reads e v ↔ Reads (setAll vs e).2 v) := by
  induction vs with
  | nil => exact fun h => ⟨rfl, rfl, fun v vs1 vs2 h1 => by simp at h1, fun v _ => Iff.rfl⟩
  | cons x xs ih =>
    intro e h
    have hx : x.known e.kind = true := (known_iff _ _).2 (h x (by simp))
    obtain ⟨i1, i2, i3, i4⟩ := ih (e := x.apply e) fun v hv => by rw [apply_kind]; exact h v (by simp [hv])
    simp only [setAll, hx, if_true]
    refine ⟨i1, by rw [i2, apply_kind], fun v vs1 vs2 h1 h2 => ?_, fun v hv => ?_⟩
    · cases vs1 with
      | nil =>
        simp only [List.nil_append, List.cons.injEq] at h1
        obtain ⟨rfl, rfl⟩ := h1
        exact (i4 x h2).1 (apply_reads x e)
      | cons y ys =>
        simp only [List.cons_append, List.cons.injEq] at h1
        exact i3 v ys vs2 h1.2 h2
    · exact (apply_other (hv x (by simp)) e).trans (i4 v fun w hw => hv w (by simp [hw]))

theorem settings_exist {s : Session G} {vs : List Setting} (h : ∀ c, Setting.opt_cond (some c) ∈ vs → c < s.conds.length) :
    vs.all s.hasValue = true := by
  rw [List.all_eq_true]
  intro v hv
  cases v with
  | opt_cond c => cases c with
    | none => rfl
    | some c => simpa [Session.hasValue, Session.hasCond] using h c hv
  | _ => rfl

/-- **C102** `set_params` with arguments of the class returns the estimator; each argument given has the last value given for it, all others are as
before. -/
theorem C102_set {s : Session G} {a : ℕ} {e : EstObj} (he : s.ests[a]? = some e) {vs : List Setting}
    (hc : ∀ c, Setting.opt_cond (some c) ∈ vs → c < s.conds.length) (hk : ∀ v ∈ vs, nameOf v ∈ argNames e.kind) :
    ∃ e', (sessionStep F s (.setParams a vs)).1 = .ok (.est a) ∧ (sessionStep F s (.setParams a vs)).2.ests[a]? = some e' ∧ e'.kind = e.kind ∧
      (∀ v vs1 vs2, vs = vs1 ++ v :: vs2 → (∀ w ∈ vs2, nameOf w ≠ nameOf v) → Reads e' v) ∧
      ∀ v, (∀ w ∈ vs, nameOf w ≠ nameOf v) → (Reads e v ↔ Reads e' v) := by
  obtain ⟨h1, h2, h3, h4⟩ := setAll_known hk
  have e1 : sessionStep F s (.setParams a vs) = ((setAll vs e).1.map fun _ => .est a, s.putEst a (setAll vs e).2) := by
    simp only [sessionStep, he]
    rw [if_pos (settings_exist hc)]
  rw [e1]
  refine ⟨_, by rw [h1]; rfl, ?_, h2, h3, h4⟩
  show (s.ests.set a _)[a]? = _
  rw [List.getElem?_set_self (List.getElem?_eq_some_iff.1 he).1]

/-- **C102** An argument the class does not have is refused; the arguments given before it are set, the others not. -/
theorem C102_set_unknown {s : Session G} {a : ℕ} {e : EstObj} (he : s.ests[a]? = some e) {vs ws : List Setting} {v : Setting}
    (hc : ∀ c, Setting.opt_cond (some c) ∈ vs ++ v :: ws → c < s.conds.length) (hk : ∀ v ∈ vs, nameOf v ∈ argNames e.kind)
    (hv : nameOf v ∉ argNames e.kind) : sessionStep F s (.setParams a (vs ++ v :: ws)) =
      (.error .valueError, (sessionStep F s (.setParams a vs)).2) := by
  have h0 : ∀ {e : EstObj}, (∀ v ∈ vs, nameOf v ∈ argNames e.kind) → nameOf v ∉ argNames e.kind →
      setAll (vs ++ v :: ws) e = (.error .valueError, (setAll vs e).2) := by
    clear hk hc hv he
    induction vs with
    | nil =>
      intro e _ hv
      have : v.known e.kind = false := by rw [← Bool.not_eq_true, known_iff]; exact hv
      simp only [List.nil_append, setAll, this, Bool.false_eq_true, if_false]
    | cons x xs ih =>
      intro e hk hv
      have hx : x.known e.kind = true := (known_iff _ _).2 (hk x (by simp))
      simp only [List.cons_append, setAll, hx, if_true]
      exact ih (fun v hv => by rw [apply_kind]; exact hk v (by simp [hv])) (by rw [apply_kind]; exact hv)
  have hc' : ∀ c, Setting.opt_cond (some c) ∈ vs → c < s.conds.length := fun c h => hc c (by simp [h])
  simp only [sessionStep, he]
  rw [if_pos (settings_exist hc), if_pos (settings_exist hc'), h0 hk hv]
  rfl

/-- **C102** (false for `None`) An estimator given no condition has one after its first fit with torch, whether it returns or raises: `get_params` does
not return the `None` that was set.  The condition is a new object, keeping the memory of this training. -/
theorem C102_none_false {s : Session G} {a : ℕ} {e : EstObj} (he : s.ests[a]? = some e) (hc : e.cond = none) {r : Radius}
    (hr : e.args.rho.toFloat = .ok r) {D : Data} (hv : F.valid e.kind D = .ok ()) (ht : F.torch e.kind (e.args.withRadius r) D = .ok true) :
    ∃ e', (sessionStep F s (.fit a D)).2.ests[a]? = some e' ∧ e'.cond = some s.conds.length ∧
      (sessionStep F s (.fit a D)).2.conds[s.conds.length]? =
        some ⟨stdCond, (F.run e.kind (e.args.withRadius r) ⟨stdCond, freshOC⟩ D s.gen).2.1⟩ := by
  have ht' : F.torch e.kind (EstArgs.withRadius { e.args with rho := .float r } r) D = .ok true := ht
  simp only [sessionStep, he, hv, hr, fitConverted, ht', hc, Option.isNone_none, if_true, Option.getD_none, Session.addCond,
    List.getElem?_concat_length]
  refine ⟨{ e with args := { e.args with rho := .float r }, cond := some s.conds.length }, ?_, rfl, ?_⟩
  · show (s.ests.set a _)[a]? = _
    rw [List.getElem?_set_self (List.getElem?_eq_some_iff.1 he).1]
  · show ((s.conds ++ [_]).set s.conds.length _)[s.conds.length]? = _
    rw [List.getElem?_set_self (by simp)]
    rfl

/-! ## C103 -/

/-- what a fit changes: the estimator's entry, and either nothing, the memory of its condition, or a new condition -/
theorem fitConverted_shape {s : Session G} {a : ℕ} {e : EstObj} (r : Radius) (D : Data) (he : s.ests[a]? = some e) :
    ∃ e', (fitConverted F s a e r D).2.ests = s.ests.set a e' ∧
      ((e'.cond = e.cond ∧ (fitConverted F s a e r D).2.conds = s.conds) ∨
       (e'.cond = e.cond ∧ ∃ c co, e.cond = some c ∧ (fitConverted F s a e r D).2.conds = s.conds.set c co) ∨
       (e.cond = none ∧ e'.cond = some s.conds.length ∧ ∃ co, (fitConverted F s a e r D).2.conds = s.conds ++ [co])) := by
  unfold fitConverted
  dsimp only
  split
  · exact ⟨_, rfl, Or.inl ⟨rfl, rfl⟩⟩
  · exact ⟨_, rfl, Or.inl ⟨rfl, rfl⟩⟩
  · cases hc : e.cond with
    | none =>
      simp only [Option.isNone_none, if_true, Option.getD_none, Session.addCond, List.getElem?_concat_length]
      refine ⟨_, rfl, Or.inr (Or.inr ⟨trivial, rfl, ?_⟩)⟩
      rw [List.set_append_right (s.conds.length) _ le_rfl]
      simp
    | some c =>
      simp only [Option.isNone_some, Bool.false_eq_true, if_false, Option.getD_some]
      split
      · refine ⟨e, ?_, Or.inl ⟨hc, rfl⟩⟩
        apply List.ext_getElem?
        intro i
        rw [List.getElem?_set]
        split
        · next h => subst h; rw [if_pos (List.getElem?_eq_some_iff.1 he).1, he]
        · rfl
      · exact ⟨_, rfl, Or.inr (Or.inl ⟨rfl, c, _, rfl, rfl⟩)⟩

theorem set_get_cases {α : Type} {l : List α} {a b : ℕ} {x y : α} (h : (l.set b x)[a]? = some y) : (a = b ∧ y = x) ∨ (a ≠ b ∧ l[a]? = some y) := by
  rw [List.getElem?_set] at h
  split at h
  · next hab =>
    split at h
    · cases h; exact Or.inl ⟨hab.symm, rfl⟩
    · cases h
  · next hab => exact Or.inr ⟨fun h' => hab h'.symm, h⟩

theorem append_get_cases {α : Type} {l : List α} {a : ℕ} {x y : α} (h : (l ++ [x])[a]? = some y) : (a = l.length ∧ y = x) ∨ l[a]? = some y := by
  rcases lt_trichotomy a l.length with h1 | h1 | h1
  · rw [List.getElem?_append_left h1] at h; exact Or.inr h
  · subst h1; rw [List.getElem?_concat_length] at h; cases h; exact Or.inl ⟨rfl, rfl⟩
  · rw [List.getElem?_eq_none (by simp; omega)] at h; cases h

/-- estimators that keep referring to conditions that exist, and none other to `c` -/
def Apart (s : Session G) (a : ℕ) (e : EstObj) (s0 : Session G) : Prop :=
  s.ests[a]? = some e ∧ Sound s ∧ s0.conds.length ≤ s.conds.length ∧
    ∀ c, e.cond = some c → s.conds[c]? = s0.conds[c]? ∧ ∀ b e', b ≠ a → s.ests[b]? = some e' → e'.cond ≠ some c

theorem apart_add {s s0 : Session G} {a : ℕ} {e y : EstObj} (h : Apart s a e s0) {L : List CondObj} (hL : L = s.conds ∨ ∃ co, L = s.conds ++ [co])
    (hy : ∀ c, y.cond = some c → c < L.length ∧ e.cond ≠ some c) : Apart { s with conds := L, ests := s.ests ++ [y] } a e s0 := by
  obtain ⟨h1, h2, h2', h3⟩ := h
  have hlen : s.conds.length ≤ L.length := by rcases hL with rfl | ⟨co, rfl⟩ <;> simp
  have hget : ∀ c, c < s.conds.length → L[c]? = s.conds[c]? := by
    intro c hc
    rcases hL with rfl | ⟨co, rfl⟩
    · rfl
    · rw [List.getElem?_append_left hc]
  refine ⟨append_get h1, ⟨h2.1.trans hlen, fun b f c hb hf => ?_⟩, h2'.trans hlen, fun c hc => ⟨?_, fun b f hb hf => ?_⟩⟩
  · rcases append_get_cases hb with ⟨-, rfl⟩ | hb
    · exact (hy c hf).1
    · exact (h2.2 b f c hb hf).trans_le hlen
  · show L[c]? = _
    rw [hget c (h2.2 a e c h1 hc)]
    exact (h3 c hc).1
  · rcases append_get_cases hf with ⟨-, rfl⟩ | hf
    · exact fun h => (hy c h).2 hc
    · exact (h3 c hc).2 b f hb hf

theorem apart_set {s s0 : Session G} {a b : ℕ} {e f f' : EstObj} (h : Apart s a e s0) (hb : b ≠ a) (hf : s.ests[b]? = some f) {L : List CondObj} {g : G}
    (hL : (f'.cond = f.cond ∧ L = s.conds) ∨ (f'.cond = f.cond ∧ ∃ c co, f.cond = some c ∧ L = s.conds.set c co) ∨
      (f.cond = none ∧ f'.cond = some s.conds.length ∧ ∃ co, L = s.conds ++ [co]) ∨
      (L = s.conds ∧ ∀ c, f'.cond = some c → c < s.conds.length ∧ e.cond ≠ some c)) : Apart ⟨L, s.ests.set b f', g⟩ a e s0 := by
  obtain ⟨h1, h2, h2', h3⟩ := h
  have hlen : s.conds.length ≤ L.length := by
    rcases hL with ⟨-, rfl⟩ | ⟨-, c, co, -, rfl⟩ | ⟨-, -, co, rfl⟩ | ⟨rfl, -⟩ <;> simp
  have hfc : ∀ c, f'.cond = some c → c < L.length ∧ e.cond ≠ some c := by
    intro c hc
    rcases hL with ⟨h4, rfl⟩ | ⟨h4, c', co, h5, rfl⟩ | ⟨h4, h5, co, rfl⟩ | ⟨rfl, h4⟩
    · rw [h4] at hc
      exact ⟨h2.2 b f c hf hc, fun h => (h3 c h).2 b f hb hf hc⟩
    · rw [h4] at hc
      exact ⟨by simpa using h2.2 b f c hf hc, fun h => (h3 c h).2 b f hb hf hc⟩
    · rw [h5] at hc
      cases hc
      exact ⟨by simp, fun h => absurd (h2.2 a e _ h1 h) (lt_irrefl _)⟩
    · exact h4 c hc
  refine ⟨by rw [List.getElem?_set_ne hb, h1], ⟨h2.1.trans hlen, fun i x c hi hx => ?_⟩, h2'.trans hlen, fun c hc => ⟨?_, fun i x hi hx => ?_⟩⟩
  · rcases set_get_cases hi with ⟨-, rfl⟩ | ⟨-, hi⟩
    · exact (hfc c hx).1
    · exact (h2.2 i x c hi hx).trans_le hlen
  · show L[c]? = _
    rw [← (h3 c hc).1]
    rcases hL with ⟨-, rfl⟩ | ⟨-, c', co, h5, rfl⟩ | ⟨-, -, co, rfl⟩ | ⟨rfl, -⟩
    · rfl
    · rw [List.getElem?_set_ne]
      rintro rfl
      exact (h3 c' hc).2 b f hb hf h5
    · rw [List.getElem?_append_left (h2.2 a e c h1 hc)]
    · rfl
  · rcases set_get_cases hx with ⟨-, rfl⟩ | ⟨-, hx⟩
    · exact fun h => (hfc c h).2 hc
    · exact (h3 c hc).2 i x hi hx

theorem setAll_cond {vs : List Setting} : ∀ {e : EstObj} {c : ℕ}, (setAll vs e).2.cond = some c → e.cond = some c ∨ Setting.opt_cond (some c) ∈ vs := by
  induction vs with
  | nil => exact fun h => Or.inl h
  | cons x xs ih =>
    intro e c h
    unfold setAll at h
    split at h
    · rcases ih h with h1 | h1
      · cases x with
        | opt_cond v => exact Or.inr (by have : v = some c := h1; simp [this])
        | _ => exact Or.inl h1
      · exact Or.inr (by simp [h1])
    · exact Or.inl h

theorem step_apart {s s0 : Session G} {a : ℕ} {e : EstObj} (h : Apart s a e s0) (o : Op Data) (ho : LeavesAlone a e.cond o) :
    Apart (sessionStep F s o).2 a e s0 := by
  cases o with
  | newCond cfg =>
    obtain ⟨h1, h2, h2', h3⟩ := h
    refine ⟨h1, ⟨h2.1.trans (by simp [sessionStep, Session.addCond]), fun b f c hb hf => (h2.2 b f c hb hf).trans_le (by simp [sessionStep, Session.addCond])⟩,
      h2'.trans (by simp [sessionStep, Session.addCond]), fun c hc => ⟨?_, (h3 c hc).2⟩⟩
    show (s.conds ++ [_])[c]? = _
    rw [List.getElem?_append_left (h2.2 a e c h1 hc)]
    exact (h3 c hc).1
  | construct k A c =>
    unfold sessionStep
    dsimp only
    split
    · next hex =>
      split
      · exact h
      · refine apart_add h (y := ⟨k, A, c.getD (some k.condRef)⟩) (Or.inl rfl) fun i hi => ?_
        have hi' : c.getD (some k.condRef) = some i := hi
        rw [hi'] at hex
        refine ⟨by simpa [Session.hasCond] using hex, fun h' => ?_⟩
        cases c with
        | none =>
          rw [h'] at ho
          cases hi'
          exact ho rfl
        | some c =>
          rw [h'] at ho
          rcases ho with h1 | h1
          · cases h1
          · exact h1 hi'
    · exact h
  | setParams b vs =>
    unfold sessionStep
    dsimp only
    split
    · exact h
    · next f hf =>
      split
      · next hex =>
        refine apart_set h ho.1 hf (L := s.conds) (g := s.gen) ?_
        by_cases hcf : (setAll vs f).2.cond = f.cond
        · exact Or.inl ⟨hcf, rfl⟩
        · refine Or.inr (Or.inr (Or.inr ⟨rfl, fun c hc => ?_⟩))
          have hm : Setting.opt_cond (some c) ∈ vs := by
            rcases setAll_cond hc with h1 | h1
            · exact absurd (hc.trans h1.symm) hcf
            · exact h1
          refine ⟨?_, ho.2 c hm⟩
          have := List.all_eq_true.1 hex _ hm
          simpa [Session.hasValue, Session.hasCond] using this
      · exact h
  | clone b =>
    unfold sessionStep
    dsimp only
    split
    · exact h
    · next f hf =>
      split
      · next hc =>
        split
        · exact h
        · exact apart_add h (Or.inl rfl) fun i hi => by rw [hc] at hi; cases hi
      · split
        · exact h
        · split
          · exact h
          · split
            · exact h
            · refine apart_add h (Or.inr ⟨_, rfl⟩) fun i hi => ?_
              cases hi
              exact ⟨by simp [Session.addCond], fun h' => absurd (h.2.1.2 a e _ h.1 h') (lt_irrefl _)⟩
  | fit b D =>
    unfold sessionStep
    dsimp only
    split
    · exact h
    · next f hf =>
      split
      · exact h
      · split
        · exact h
        · next r hr =>
          obtain ⟨f', h1, h2⟩ := fitConverted_shape (F := F) r D hf
          have := apart_set h ho hf (f' := f') (L := (fitConverted F s b f r D).2.conds) (g := (fitConverted F s b f r D).2.gen)
            (by rcases h2 with h2 | h2 | h2
                · exact Or.inl h2
                · exact Or.inr (Or.inl h2)
                · exact Or.inr (Or.inr (Or.inl h2)))
          rw [← h1] at this
          exact this
  | use c m =>
    unfold sessionStep
    dsimp only
    split
    · exact h
    · obtain ⟨h1, h2, h2', h3⟩ := h
      refine ⟨h1, ⟨by simpa using h2.1, fun b f i hb hf => by simpa using h2.2 b f i hb hf⟩, by simpa using h2', fun i hi => ⟨?_, (h3 i hi).2⟩⟩
      show (s.conds.set c _)[i]? = _
      rw [List.getElem?_set_ne, (h3 i hi).1]
      rintro rfl
      exact ho hi

/-- **C103** (partial: when the condition is shared, see `C103_shared_false`) Whatever training does, an estimator whose optimality condition is its own
is unaffected by anything a program does with others: its arguments, and the settings and memory of its condition, stay as they are. -/
theorem C103_frame_partial {s : Session G} {a : ℕ} {e : EstObj} (he : s.ests[a]? = some e) (hs : Sound s) (hu : Unshared s a) (os : List (Op Data))
    (hos : ∀ o ∈ os, LeavesAlone a e.cond o) : (sessionRun F s os).ests[a]? = some e ∧ (∀ c, e.cond = some c →
      (sessionRun F s os).conds[c]? = s.conds[c]?) ∧ Sound (sessionRun F s os) ∧ Unshared (sessionRun F s os) a := by
  have key : ∀ (os : List (Op Data)) (t : Session G), Apart t a e s → (∀ o ∈ os, LeavesAlone a e.cond o) → Apart (sessionRun F t os) a e s := by
    intro os
    induction os with
    | nil => exact fun t h _ => h
    | cons o os ih => exact fun t h ho => ih _ (step_apart h o (ho o (by simp))) fun o' h' => ho o' (by simp [h'])
  obtain ⟨h1, h2, -, h3⟩ := key os s ⟨he, hs, le_rfl, fun c hc => ⟨rfl, fun b e' hb he' => hu b e e' c he hc hb he'⟩⟩ hos
  refine ⟨h1, fun c hc => (h3 c hc).1, h2, fun b f f' c hf hc hb hf' => ?_⟩
  rw [h1] at hf
  cases hf
  exact (h3 c hc).2 b f' hb hf'

/-- the outcome of a fit depends on the estimator, its condition and the data only -/
theorem fit_outcome {s s' : Session G} {a a' : ℕ} {e e' : EstObj} (he : s.ests[a]? = some e) (he' : s'.ests[a']? = some e')
    (hk : e'.kind = e.kind) (hA : e'.args = e.args)
    (hc : (e.cond = none ∧ e'.cond = none) ∨ ∃ c c' co, e.cond = some c ∧ e'.cond = some c' ∧ s.conds[c]? = some co ∧ s'.conds[c']? = some co) (D : Data)
    (hF : s'.gen = s.gen ∨ ∀ r, e.args.rho.toFloat = .ok r → Seeded F e.kind (e.args.withRadius r) D) :
    (sessionStep F s' (.fit a' D)).1 = (sessionStep F s (.fit a D)).1 := by
  simp only [sessionStep, he, he', hk, hA]
  cases F.valid e.kind D with
  | error x => rfl
  | ok u =>
    dsimp only
    cases hr : e.args.rho.toFloat with
    | error x => rfl
    | ok r =>
      dsimp only
      have hF' : ∀ co, (F.run e.kind (e.args.withRadius r) co D s'.gen).1 = (F.run e.kind (e.args.withRadius r) co D s.gen).1 := by
        rcases hF with h | h
        · rw [h]; exact fun _ => rfl
        · exact fun co => h r hr co _ _
      unfold fitConverted
      dsimp only
      have eA : (EstArgs.withRadius { e'.args with rho := .float r } r) = e.args.withRadius r := by rw [hA]; rfl
      have eA' : (EstArgs.withRadius { e.args with rho := .float r } r) = e.args.withRadius r := rfl
      rw [hk, eA, eA']
      cases F.torch e.kind (e.args.withRadius r) D with
      | error x => rfl
      | ok b =>
        cases b with
        | false =>
          dsimp only
          rw [hF']
        | true =>
          dsimp only
          rcases hc with ⟨h1, h2⟩ | ⟨c, c', co, h1, h2, h3, h4⟩
          · simp only [h1, h2, Option.isNone_none, if_true, Option.getD_none, Session.addCond, List.getElem?_concat_length]
            rw [hF']
          · simp only [h1, h2, Option.isNone_some, Bool.false_eq_true, if_false, Option.getD_some, h3, h4]
            rw [hF']

/-- **C103** (partial, likewise) So its fit has the same outcome whether or not others were constructed, cloned, changed and fitted before: the same
result or the same exception.  (For trainings that do not read torch's generator before seeding it.) -/
theorem C103_independent_partial {s : Session G} {a : ℕ} {e : EstObj} (he : s.ests[a]? = some e) (hs : Sound s) (hu : Unshared s a)
    (os : List (Op Data)) (hos : ∀ o ∈ os, LeavesAlone a e.cond o) (D : Data)
    (hF : ∀ r, e.args.rho.toFloat = .ok r → Seeded F e.kind (e.args.withRadius r) D) :
    (sessionStep F (sessionRun F s os) (.fit a D)).1 = (sessionStep F s (.fit a D)).1 := by
  obtain ⟨h1, h2, -, -⟩ := C103_frame_partial (F := F) he hs hu os hos
  refine fit_outcome he h1 rfl rfl ?_ D (Or.inr hF)
  cases hc : e.cond with
  | none => exact Or.inl ⟨rfl, rfl⟩
  | some c =>
    obtain ⟨co, hco⟩ : ∃ co, s.conds[c]? = some co := ⟨_, List.getElem?_eq_getElem (hs.2 a e c he hc)⟩
    exact Or.inr ⟨c, c, co, rfl, rfl, hco, (h2 c hc).trans hco⟩

/-- the default conditions are what their constructors build -/
example : mkCond (.num (.fin 2)) = .ok (stdCond, freshOC) ∧ mkCond (.num (.fin 2)) (1 / 10 ^ 4) 0 = .ok (logisticCond, freshOC) :=
  ⟨(C78_condition_order _ _ _ _ _ _).2.1 2 two_pos rfl, (C78_condition_order _ _ _ _ _ _).2.1 2 two_pos rfl⟩

theorem sound_start (g : G) : Sound (Session.start g) := ⟨by simp [Session.start], fun a e c h => by simp [Session.start] at h⟩

/-- **C103** In any program, estimators refer to conditions that exist: the hypothesis `Sound` of the theorems above holds after `import` and is kept by
every operation. -/
theorem C103_sound {s : Session G} (hs : Sound s) (os : List (Op Data)) : Sound (sessionRun F s os) := by
  have grow : ∀ {s : Session G} {L : List CondObj} {g : G}, Sound s → s.conds.length ≤ L.length → Sound ⟨L, s.ests, g⟩ :=
    fun h hl => ⟨h.1.trans hl, fun a e c ha hc => (h.2 a e c ha hc).trans_le hl⟩
  have add : ∀ {s : Session G} {L : List CondObj} {g : G} (y : EstObj), Sound s → s.conds.length ≤ L.length → (∀ c, y.cond = some c → c < L.length) →
      Sound ⟨L, s.ests ++ [y], g⟩ := by
    intro s L g y h hl hy
    refine ⟨h.1.trans hl, fun a e c ha hc => ?_⟩
    rcases append_get_cases ha with ⟨-, rfl⟩ | ha
    · exact hy c hc
    · exact (h.2 a e c ha hc).trans_le hl
  have put : ∀ {s : Session G} {L : List CondObj} {g : G} {b : ℕ} (y : EstObj), Sound s → s.conds.length ≤ L.length →
      (∀ c, y.cond = some c → c < L.length) → Sound ⟨L, s.ests.set b y, g⟩ := by
    intro s L g b y h hl hy
    refine ⟨h.1.trans hl, fun a e c ha hc => ?_⟩
    rcases set_get_cases ha with ⟨-, rfl⟩ | ⟨-, ha⟩
    · exact hy c hc
    · exact (h.2 a e c ha hc).trans_le hl
  induction os generalizing s with
  | nil => exact hs
  | cons o os ih =>
    refine ih ?_
    cases o with
    | newCond cfg => exact grow hs (by simp)
    | construct k A c =>
      unfold sessionStep
      dsimp only
      split
      · next hex =>
        split
        · exact hs
        · refine add _ hs le_rfl fun i hi => ?_
          have hi' : c.getD (some k.condRef) = some i := hi
          rw [hi'] at hex
          simpa [Session.hasCond] using hex
      · exact hs
    | setParams b vs =>
      unfold sessionStep
      dsimp only
      split
      · exact hs
      · next f hf =>
        split
        · next hex =>
          refine put _ hs le_rfl fun c hc => ?_
          rcases setAll_cond hc with h1 | h1
          · exact hs.2 b f c hf h1
          · simpa [Session.hasValue, Session.hasCond] using List.all_eq_true.1 hex _ h1
        · exact hs
    | clone b =>
      unfold sessionStep
      dsimp only
      split
      · exact hs
      · next f hf =>
        split
        · next hc =>
          split
          · exact hs
          · exact add _ hs le_rfl fun c h => by rw [hc] at h; cases h
        · split
          · exact hs
          · split
            · exact hs
            · split
              · exact hs
              · refine add (s := s) _ hs (by simp [Session.addCond]) fun c h => ?_
                cases h
                simp [Session.addCond]
    | fit b D =>
      unfold sessionStep
      dsimp only
      split
      · exact hs
      · next f hf =>
        split
        · exact hs
        · split
          · exact hs
          · next r hr =>
            obtain ⟨f', h1, h2⟩ := fitConverted_shape (F := F) r D hf
            have h3 : s.conds.length ≤ (fitConverted F s b f r D).2.conds.length := by
              rcases h2 with ⟨-, h2⟩ | ⟨-, c, co, -, h2⟩ | ⟨-, -, co, h2⟩ <;> rw [h2] <;> simp
            have := put (b := b) (g := (fitConverted F s b f r D).2.gen) f' hs h3 fun c hc => by
              rcases h2 with ⟨h4, -⟩ | ⟨h4, -⟩ | ⟨-, h4, co, h5⟩
              · rw [h4] at hc; exact (hs.2 b f c hf hc).trans_le h3
              · rw [h4] at hc; exact (hs.2 b f c hf hc).trans_le h3
              · rw [h4] at hc; cases hc; rw [h5]; simp
            rw [← h1] at this
            exact this
    | use c m =>
      unfold sessionStep
      dsimp only
      split
      · exact hs
      · exact grow hs (by simp)

/-! ## C104 -/

/-- **C104** A clone has the class and the arguments of the original; its condition is a new object, with the settings and the memory of the original's
condition (`None` stays `None`), referred to by no other estimator.  Nothing else changes. -/
theorem C104_clone {s s' : Session G} {a b : ℕ} (hs : Sound s) (h : sessionStep F s (.clone a) = (.ok (.est b), s')) :
    ∃ e e', s.ests[a]? = some e ∧ s'.ests[b]? = some e' ∧ s.ests[b]? = none ∧ e'.kind = e.kind ∧ e'.args = e.args ∧
      (e.cond = none → e'.cond = none) ∧
      (∀ c, e.cond = some c → ∃ c', e'.cond = some c' ∧ s.conds[c']? = none ∧ s'.conds[c']? = s.conds[c]?) ∧ Unshared s' b ∧
      (∀ (i : ℕ) (x : EstObj), s.ests[i]? = some x → s'.ests[i]? = some x) ∧ (∀ (c : ℕ) (x : CondObj), s.conds[c]? = some x → s'.conds[c]? = some x) ∧ s'.gen = s.gen := by
  unfold sessionStep at h
  dsimp only at h
  split at h
  · cases h
  · next e he =>
    split at h
    · next hc =>
      split at h
      · cases h
      · cases h
        refine ⟨e, e, he, List.getElem?_concat_length, List.getElem?_eq_none le_rfl, rfl, rfl, id, ?_, ?_, fun i x hx => append_get hx, fun c x hx => hx, rfl⟩
        · intro c h
          rw [hc] at h
          cases h
        intro b' f f' c hf hfc
        rw [show (s.addEst e).ests = s.ests ++ [e] from rfl, List.getElem?_concat_length] at hf
        cases hf
        rw [hc] at hfc
        cases hfc
    · next c hc =>
      split at h
      · cases h
      · next co hco =>
        split at h
        · cases h
        · next co' hcp =>
          have hcc : co' = co := by
            unfold CondObj.copy at hcp
            split at hcp
            · cases hcp
            · cases hcp; rfl
          subst hcc
          split at h
          · cases h
          · cases h
            refine ⟨e, { e with cond := some s.conds.length }, he, List.getElem?_concat_length, List.getElem?_eq_none le_rfl, rfl, rfl,
              ?_, ?_, ?_, fun i x hx => append_get hx, fun i x hx => append_get hx, rfl⟩
            · intro h
              rw [hc] at h
              cases h
            · intro i hi
              rw [hc] at hi
              cases hi
              exact ⟨_, rfl, List.getElem?_eq_none le_rfl, by rw [hco]; exact List.getElem?_concat_length⟩
            · intro b' f f' i hf hfc hb hf'
              rw [show ((s.addCond co').addEst { e with cond := some s.conds.length }).ests = s.ests ++ [{ e with cond := some s.conds.length }] from rfl] at hf hf'
              rw [List.getElem?_concat_length] at hf
              cases hf
              cases hfc
              rcases append_get_cases hf' with ⟨h1, -⟩ | h1
              · exact absurd h1 hb
              · exact fun h2 => absurd (hs.2 b' f' _ h1 h2) (lt_irrefl _)

/-- **C104** (partial: a used condition, see `C104_memory_false` and `C104_refused_false`) Cloning an estimator whose condition was not used yet succeeds whenever
its arguments are accepted by the constructor. -/
theorem C104_cloned_partial {s : Session G} {a : ℕ} {e : EstObj} (he : s.ests[a]? = some e) (hA : constructArgs e.kind e.args = .ok ())
    (hc : ∀ c, e.cond = some c → ∃ cfg, s.conds[c]? = some ⟨cfg, freshOC⟩) :
    ∃ b s', sessionStep F s (.clone a) = (.ok (.est b), s') := by
  simp only [sessionStep, he]
  cases h : e.cond with
  | none => simp only [hA]; exact ⟨_, _, rfl⟩
  | some c =>
    obtain ⟨cfg, h1⟩ := hc c h
    simp only [h1, CondObj.copy, freshOC, Option.isSome_none, Bool.or_self, Bool.false_eq_true, if_false, hA]
    exact ⟨_, _, rfl⟩

/-- **C104** (partial, likewise) The clone of an estimator whose condition was not used yet is as good as new: its fit has the outcome of the fit of an
estimator constructed anew with the same arguments and a new condition with the same settings. -/
theorem C104_as_new_partial {s s1 s2 s3 : Session G} {a b b' c c' : ℕ} {e : EstObj} {cfg : OCConfig} (hs : Sound s) (he : s.ests[a]? = some e) (hc : e.cond = some c)
    (hm : s.conds[c]? = some ⟨cfg, freshOC⟩) (h : sessionStep F s (.clone a) = (.ok (.est b), s1))
    (h2 : sessionStep F s (.newCond cfg) = (.ok (.cond c'), s2)) (h3 : sessionStep F s2 (.construct e.kind e.args (some (some c'))) = (.ok (.est b'), s3))
    (D : Data) : (sessionStep F s1 (.fit b D)).1 = (sessionStep F s3 (.fit b' D)).1 := by
  obtain ⟨f, e1, hf, h4, -, h5, h6, -, h7, -, -, -, h8⟩ := C104_clone hs h
  rw [he] at hf
  cases hf
  obtain ⟨c1, h9, -, h10⟩ := h7 c hc
  simp only [sessionStep] at h2
  cases h2
  unfold sessionStep at h3
  dsimp only at h3
  split at h3
  · split at h3
    · cases h3
    · cases h3
      refine fit_outcome (e := ⟨e.kind, e.args, some s.conds.length⟩) (e' := e1) List.getElem?_concat_length h4 h5 h6
        (Or.inr ⟨_, _, ⟨cfg, freshOC⟩, rfl, h9, List.getElem?_concat_length, h10.trans hm⟩) D (Or.inl h8)
  · cases h3

/-- **C104** (false after a fit on motions) If the memory of the condition holds parameters, or a motion of the parameters or of the
multiplier, the estimator cannot be cloned. -/
theorem C104_refused_false {s : Session G} {a c : ℕ} {e : EstObj} {co : CondObj} (he : s.ests[a]? = some e) (hc : e.cond = some c)
    (hco : s.conds[c]? = some co) (hm : co.mem.t.t0 ≠ none ∨ co.mem.t.tMem ≠ none ∨ co.mem.t.deltaT1 ≠ none ∨ co.mem.l.deltaL1 ≠ none) :
    (sessionStep F s (.clone a)).1 = .error .runtimeError := by
  have h : co.copy = .error .runtimeError := by
    unfold CondObj.copy
    rw [if_pos]
    simp only [← Option.isSome_iff_ne_none] at hm
    rcases hm with h | h | h | h <;> rw [h] <;> simp
  simp only [sessionStep, he, hc, hco, h]

end

end Skwdro
