import Verif.Lemmas.Solve

/-! Hoare-style rules for the programs of Model/Solve. -/

namespace Skwdro

section rules
variable {W α β : Type}

/-- From every state satisfying `P`, `m` returns a value and state satisfying `Q`; unless `ok`, it may also raise. -/
def Holds (ok : Bool) (P : St W → Prop) (m : M W α) (Q : α → St W → Prop) : Prop :=
  ∀ s, P s → (∃ a s', m s = (.ok a, s') ∧ Q a s') ∨ (ok = false ∧ ∃ e s', m s = (.error e, s'))

/-- the same for an external call -/
def Good (ok : Bool) (r : Except PyErr α × W) (Q : α → W → Prop) : Prop :=
  (∃ a, r.1 = .ok a ∧ Q a r.2) ∨ (ok = false ∧ ∃ e, r.1 = .error e)

variable {ok : Bool}

theorem Holds.bind {P : St W → Prop} {m : M W α} {R : α → St W → Prop} {f : α → M W β} {Q : β → St W → Prop}
    (hm : Holds ok P m R) (hf : ∀ a, Holds ok (R a) (f a) Q) : Holds ok P (m >>= f) Q := by
  intro s hs
  rcases hm s hs with ⟨a, s1, h1, h2⟩ | ⟨h1, e, s1, h2⟩
  · rcases hf a s1 h2 with ⟨b, s2, h3, h4⟩ | ⟨h3, e, s2, h4⟩
    · exact Or.inl ⟨b, s2, by rw [M.bind_def, h1]; exact h3, h4⟩
    · exact Or.inr ⟨h3, e, s2, by rw [M.bind_def, h1]; exact h4⟩
  · exact Or.inr ⟨h1, e, s1, by rw [M.bind_def, h2]⟩

theorem Holds.pure {P : St W → Prop} {Q : α → St W → Prop} {a : α} (h : ∀ s, P s → Q a s) : Holds ok P (Pure.pure a : M W α) Q :=
  fun s hs => Or.inl ⟨a, s, rfl, h s hs⟩

theorem Holds.read {P : St W → Prop} {Q : α → St W → Prop} {f : St W → α} (h : ∀ s, P s → Q (f s) s) : Holds ok P (M.read f) Q :=
  fun s hs => Or.inl ⟨f s, s, rfl, h s hs⟩

theorem Holds.modify {P : St W → Prop} {Q : Unit → St W → Prop} {f : St W → St W} (h : ∀ s, P s → Q () (f s)) :
    Holds ok P (M.modify f) Q := fun s hs => Or.inl ⟨(), f s, rfl, h s hs⟩

theorem Holds.call {P : St W → Prop} {Q : α → St W → Prop} {f : W → Except PyErr α × W}
    (h : ∀ s, P s → Good ok (f s.w) (fun a w => Q a { s with w := w })) : Holds ok P (M.call f) Q := by
  intro s hs
  rcases h s hs with ⟨a, h1, h2⟩ | ⟨h1, e, h2⟩
  · exact Or.inl ⟨a, _, by rw [M.call, h1], h2⟩
  · exact Or.inr ⟨h1, e, _, by rw [M.call, h2]⟩

theorem Holds.emit {P : St W → Prop} {Q : Unit → St W → Prop} {ev : Ev} (h : ∀ s, P s → Q () { s with tr := s.tr ++ [ev] }) :
    Holds ok P (M.emit ev) Q := fun s hs => Or.inl ⟨(), _, rfl, h s hs⟩

theorem Holds.weaken {P P' : St W → Prop} {m : M W α} {Q Q' : α → St W → Prop} (h : Holds ok P m Q) (hP : ∀ s, P' s → P s)
    (hQ : ∀ a s, Q a s → Q' a s) : Holds ok P' m Q' := by
  intro s hs
  rcases h s (hP s hs) with ⟨a, s1, h1, h2⟩ | h1
  · exact Or.inl ⟨a, s1, h1, hQ a s1 h2⟩
  · exact Or.inr h1

/-- `m` raises `e` from every state satisfying `P` -/
def Raises (P : St W → Prop) (m : M W α) (e : PyErr) : Prop := ∀ s, P s → ∃ s', m s = (.error e, s')

theorem Holds.raises {P : St W → Prop} {m : M W α} {R : α → St W → Prop} {f : α → M W β} {e : PyErr}
    (hm : Holds true P m R) (hf : ∀ a, Raises (R a) (f a) e) : Raises P (m >>= f) e := by
  intro s hs
  rcases hm s hs with ⟨a, s1, h1, h2⟩ | ⟨h1, -⟩
  · obtain ⟨s2, h3⟩ := hf a s1 h2
    exact ⟨s2, by rw [M.bind_def, h1]; exact h3⟩
  · cases h1

theorem Raises.bind {P : St W → Prop} {m : M W α} {f : α → M W β} {e : PyErr} (hm : Raises P m e) : Raises P (m >>= f) e := by
  intro s hs
  obtain ⟨s', h⟩ := hm s hs
  exact ⟨s', by rw [M.bind_def, h]⟩

theorem Raises.weaken {P P' : St W → Prop} {m : M W α} {e : PyErr} (h : Raises P m e) (hP : ∀ s, P' s → P s) : Raises P' m e :=
  fun s hs => h s (hP s hs)

end rules

/-- an optimizer's interaction keeping `J` -/
inductive ProgHolds {W : Type} (ok : Bool) (J : W → Prop) : OptProg W → Prop
  | done : ProgHolds ok J .done
  | fail (e) : ok = false → ProgHolds ok J (.fail e)
  | act (f next) : (∀ w, J w → J (f w)) → (∀ w, J w → ProgHolds ok J (next w)) → ProgHolds ok J (.act f next)
  | eval (next) : (∀ v, ProgHolds ok J (next v)) → ProgHolds ok J (.eval next)

/-- Every external operation of a fit, the optimality condition excepted, keeps `J`, and none raises if `ok`; `V erm imp w v` says that `v` is
the value of the loss in these modes in world `w`, `U erm v` says what is known of such values in all worlds, `K erm w` that the gradients of the
loss in this mode are available in `w`, `B erm w` that a computation is recorded, ready for a backward pass.  `i` is the user's
importance-sampling flag. -/
structure EnvRuns {W : Type} (ok : Bool) (J : W → Prop) (K B : Bool → W → Prop) (U : Bool → XNum ℝ → Prop) (V : Bool → Bool → W → XNum ℝ → Prop)
    (i : Bool) (env : Env W) : Prop where
  zeroGrad : ∀ w, J w → J (env.zeroGrad w)
  forward : ∀ erm imp tr w, (imp = true → i = true) → J w →
    Good ok (env.forward erm imp tr w) fun v w' => J w' ∧ V erm imp w' v ∧ B erm w' ∧ U erm v
  backward : ∀ e w, J w → B e w → Good ok (env.backward w) fun _ w' => J w' ∧ K e w' ∧ ∀ e i v, V e i w v → V e i w' v
  prog : ∀ w, J w → ProgHolds ok J (env.prog w)
  step : ∀ e w, J w → K e w → Good ok (env.step w) fun _ w' => J w' ∧ K e w'
  propagate : ∀ b w, J w → J (env.propagate b w) ∧ ∀ e i v, V e i w v → V e i (env.propagate b w) v
  initDual : ∀ w, J w → Good ok (env.initDual w) fun _ w' => J w'
  reset : ∀ f, env.resetLbd = some f → ∀ w, J w → Good ok (f w) fun _ w' => J w'

/-- the same, the optimality condition included -/
structure EnvHolds {W : Type} (ok : Bool) (J : W → Prop) (K B : Bool → W → Prop) (U : Bool → XNum ℝ → Prop) (V : Bool → Bool → W → XNum ℝ → Prop)
    (i : Bool) (env : Env W) : Prop extends EnvRuns ok J K B U V i env where
  stop : ∀ k w, J w → (∃ v : XNum ℝ, U false v ∧ v.isNan = false) → (env.gradMetric = true → K false w) →
    Good ok (env.stop k w) fun _ w' => J w' ∧ ∀ e i v, V e i w v → V e i w' v

section loops
variable {W : Type} {env : Env W} {ok : Bool} {J : W → Prop} {K B : Bool → W → Prop} {U : Bool → XNum ℝ → Prop}
  {V : Bool → Bool → W → XNum ℝ → Prop} {i : Bool}

/-- states in the modes `e`, `i` -/
def Inv (J : W → Prop) (e i : Bool) (s : St W) : Prop := J s.w ∧ s.erm = e ∧ s.imp = i

theorem Good.mono {α : Type} {r : Except PyErr α × W} {Q Q' : α → W → Prop} (h : Good ok r Q) (hQ : ∀ a w, Q a w → Q' a w) : Good ok r Q' := by
  rcases h with ⟨a, h1, h2⟩ | h1
  · exact Or.inl ⟨a, h1, hQ _ _ h2⟩
  · exact Or.inr h1

theorem fwd_holds (h : EnvRuns ok J K B U V i env) (g e j : Bool) (hj : j = true → i = true) :
    Holds ok (Inv J e j) (fwd env g) (fun v s => Inv J e j s ∧ V e j s.w v ∧ B e s.w ∧ U e v) := by
  intro s ⟨h1, h2, h3⟩
  have hf := h.forward s.erm s.imp s.training s.w (by rw [h3]; exact hj) h1
  rcases hf with ⟨v, h4, h5, h6, h7, h8⟩ | ⟨h4, err, h5⟩
  · refine Or.inl ⟨v, { s with w := (env.forward s.erm s.imp s.training s.w).2, tr := s.tr ++ [.eval s.erm s.imp s.training g v] }, ?_,
      ⟨h5, h2, h3⟩, by rw [← h2, ← h3]; exact h6, by rw [← h2]; exact h7, by rw [← h2]; exact h8⟩
    simp only [fwd, M.bind_def, M.read, M.call, h4, M.emit, M.modify, M.pure_def]
  · refine Or.inr ⟨h4, err, { s with w := (env.forward s.erm s.imp s.training s.w).2 }, ?_⟩
    simp only [fwd, M.bind_def, M.read, M.call, h5]

theorem closure_holds (h : EnvRuns ok J K B U V i env) (e j : Bool) (hj : j = true → i = true) :
    Holds ok (Inv J e j) (closure env true) (fun v s => Inv J e j s ∧ V e j s.w v ∧ K e s.w ∧ U e v) := by
  unfold closure
  refine (Holds.modify (Q := fun _ s => Inv J e j s) fun s hs => ⟨h.zeroGrad _ hs.1, hs.2⟩).bind fun _ => ?_
  rw [if_pos rfl]
  refine (fwd_holds h true e j hj).bind fun v => ?_
  refine (Holds.call (Q := fun _ s => Inv J e j s ∧ V e j s.w v ∧ K e s.w ∧ U e v) fun s hs => ?_).bind fun _ => Holds.pure fun s hs => hs
  exact (h.backward e s.w hs.1.1 hs.2.2.1).mono fun _ w hw => ⟨⟨hw.1, hs.1.2⟩, hw.2.2 _ _ _ hs.2.1, hw.2.1, hs.2.2.2⟩

/-- `closure(False)`: always the robust loss -/
theorem closureEval_holds (h : EnvRuns ok J K B U V i env) (e j : Bool) (hj : j = true → i = true) :
    Holds ok (Inv J e j) (closure env false) (fun v s => Inv J false j s ∧ V false j s.w v ∧ U false v) := by
  unfold closure
  refine (Holds.modify (Q := fun _ s => Inv J e j s) fun s hs => ⟨h.zeroGrad _ hs.1, hs.2⟩).bind fun _ => ?_
  rw [if_neg (by simp)]
  have h1 : Holds ok (Inv J e j) (lossEval env) (fun _ s => Inv J false j s) := by
    unfold lossEval lossTrain
    exact (Holds.modify (Q := fun _ s => Inv J true j s) fun s hs => ⟨hs.1, rfl, hs.2.2⟩).bind fun _ =>
      Holds.modify fun s hs => ⟨(h.propagate _ _ hs.1).1, rfl, hs.2.2⟩
  refine h1.bind fun _ => (fwd_holds h false false j hj).bind fun v => ?_
  refine (Holds.modify (Q := fun _ s => Inv J false j s ∧ V false j s.w v ∧ U false v) fun s hs => ?_).bind fun _ => Holds.pure fun s hs => hs
  exact ⟨⟨(h.propagate _ _ hs.1.1).1, rfl, hs.1.2.2⟩, (h.propagate _ _ hs.1.1).2 _ _ _ hs.2.1, hs.2.2.2⟩

theorem runProg_holds (h : EnvRuns ok J K B U V i env) (e j : Bool) (hj : j = true → i = true) {p : OptProg W} (hp : ProgHolds ok J p) :
    Holds ok (Inv J e j) (runProg env p) (fun _ s => Inv J e j s) := by
  induction hp with
  | done => exact Holds.pure fun s hs => hs
  | fail err hok => exact fun s _ => Or.inr ⟨hok, err, s, rfl⟩
  | act f next hf _ ih => exact fun s hs => ih s.w hs.1 { s with w := f s.w } ⟨hf _ hs.1, hs.2⟩
  | eval next _ ih => exact (closure_holds h e j hj).bind fun v => (ih v).weaken (fun s hs => hs.1) fun _ _ hs => hs

theorem stepC_holds (h : EnvRuns ok J K B U V i env) (e j : Bool) (hj : j = true → i = true) :
    Holds ok (Inv J e j) (stepC env) (fun _ s => Inv J e j s) := by
  unfold stepC
  refine (Holds.read (Q := fun p s => p = env.prog s.w ∧ Inv J e j s) fun s hs => ⟨rfl, hs⟩).bind fun p => ?_
  refine Holds.bind (R := fun _ s => Inv J e j s) ?_ fun _ => Holds.modify fun s hs => hs
  rintro s ⟨rfl, hs⟩
  exact runProg_holds h e j hj (h.prog s.w hs.1) s hs

theorem repeatM_holds {P : St W → Prop} {body : M W Unit} (h : Holds ok P body (fun _ s => P s)) (n : ℕ) :
    Holds ok P (repeatM body n) (fun _ s => P s) := by
  induction n with
  | zero => exact Holds.pure fun s hs => hs
  | succ n ih => exact h.bind fun _ => ih

theorem finish_holds (h : EnvHolds ok J K B U V i env) (e j e' j' : Bool) (k : ℕ) (L : List (XNum ℝ)) (v : XNum ℝ) :
    Holds ok (fun s => Inv J e j s ∧ V e' j' s.w v ∧ (env.gradMetric = true → K false s.w) ∧ U false v) (finish env k L v)
      (fun r s => Inv J e j s ∧ r.1 = L ++ [v] ∧ V e' j' s.w v) := by
  unfold finish
  refine (Holds.emit (Q := fun _ s => Inv J e j s ∧ V e' j' s.w v ∧ (env.gradMetric = true → K false s.w) ∧ U false v) fun s hs => hs).bind
    fun _ => ?_
  split
  · exact Holds.pure fun s hs => ⟨hs.1, rfl, hs.2.1⟩
  · next hnan =>
    refine (Holds.call (Q := fun _ s => Inv J e j s ∧ V e' j' s.w v) fun s hs => ?_).bind fun b =>
      (Holds.emit (Q := fun _ s => Inv J e j s ∧ V e' j' s.w v) fun s hs => hs).bind fun _ => Holds.pure fun s hs => ⟨hs.1, rfl, hs.2⟩
    exact (h.stop k s.w hs.1.1 ⟨v, hs.2.2.2, by simpa using hnan⟩ hs.2.2.1).mono fun _ w hw => ⟨⟨hw.1, hs.1.2⟩, hw.2 _ _ _ hs.2.1⟩

theorem preEval_holds (h : EnvRuns ok J K B U V i env) :
    Holds ok (Inv J false i) (preEval env)
      (fun v s => Inv J false i s ∧ V false (env.gradMetric && i) s.w v ∧ (env.gradMetric = true → K false s.w) ∧ U false v) := by
  unfold preEval
  refine (Holds.read (Q := fun is s => is = i ∧ Inv J false i s) fun s hs => ⟨hs.2.2, hs⟩).bind fun is => ?_
  by_cases his : is = i
  swap
  · exact fun s hs => absurd hs.1 his
  subst his
  by_cases hg : env.gradMetric = true
  · rw [if_pos hg, hg, Bool.true_and]
    refine ((closure_holds h false is fun hi => hi).weaken (fun s hs => hs.2) fun _ _ hs => hs).bind fun v => ?_
    exact (Holds.modify (Q := fun _ s => Inv J false is s ∧ V false is s.w v ∧ K false s.w ∧ U false v) fun s hs =>
      ⟨⟨hs.1.1, hs.1.2.1, rfl⟩, hs.2⟩).bind fun _ => Holds.pure fun s hs => ⟨hs.1, hs.2.1, fun _ => hs.2.2.1, hs.2.2.2⟩
  · rw [if_neg hg]
    simp only [Bool.not_eq_true] at hg
    rw [hg, Bool.false_and]
    refine (Holds.modify (Q := fun _ s => Inv J false false s) fun s hs => ⟨hs.2.1, hs.2.2.1, rfl⟩).bind fun _ => ?_
    refine (closureEval_holds h false false (by simp)).bind fun v => ?_
    exact (Holds.modify (Q := fun _ s => Inv J false is s ∧ V false false s.w v ∧ U false v) fun s hs =>
      ⟨⟨hs.1.1, hs.1.2.1, rfl⟩, hs.2⟩).bind fun _ => Holds.pure fun s hs => ⟨hs.1, hs.2.1, by simp, hs.2.2⟩

/-- end of a list of losses, with the value property -/
def EndsWith (P : XNum ℝ → Prop) (L : List (XNum ℝ)) : Prop := ∃ v, L.getLast? = some v ∧ P v

theorem trainLoop_holds {body : ℕ → List (XNum ℝ) → M W (List (XNum ℝ) × Bool)} {P : St W → Prop} {Q : St W → XNum ℝ → Prop}
    (h : ∀ k L, Holds ok P (body k L) (fun r s => P s ∧ ∃ v, r.1 = L ++ [v] ∧ Q s v)) (is : List ℕ) :
    ∀ L, Holds ok (fun s => P s ∧ (is = [] → EndsWith (Q s) L)) (trainLoop body is L) (fun L' s => P s ∧ EndsWith (Q s) L') := by
  induction is with
  | nil => exact fun L => Holds.pure fun s hs => ⟨hs.1, hs.2 rfl⟩
  | cons k is ih =>
    intro L
    refine ((h k L).weaken (fun s hs => hs.1) fun _ _ hs => hs).bind fun ⟨L', b⟩ => ?_
    cases b
    · refine (ih L').weaken (fun s hs => ⟨hs.1, fun _ => ?_⟩) fun _ _ hs => hs
      obtain ⟨-, v, hv, hq⟩ := hs
      exact ⟨v, by simp only at hv; simp [hv], hq⟩
    · refine Holds.pure fun s hs => ⟨hs.1, ?_⟩
      obtain ⟨-, v, hv, hq⟩ := hs
      exact ⟨v, by simp only at hv; simp [hv], hq⟩

/-- loops without anything to remember about values -/
theorem trainLoop_keeps {body : ℕ → List (XNum ℝ) → M W (List (XNum ℝ) × Bool)} {P : St W → Prop}
    (h : ∀ k L, Holds ok P (body k L) (fun r s => P s ∧ r.1 ≠ [])) (is : List ℕ) :
    ∀ L, Holds ok (fun s => P s ∧ (is = [] → L ≠ [])) (trainLoop body is L) (fun L' s => P s ∧ L' ≠ []) := by
  induction is with
  | nil => exact fun L => Holds.pure fun s hs => ⟨hs.1, hs.2 rfl⟩
  | cons k is ih =>
    intro L
    refine ((h k L).weaken (fun s hs => hs.1) fun _ _ hs => hs).bind fun ⟨L', b⟩ => ?_
    cases b
    · exact (ih L').weaken (fun s hs => ⟨hs.1, fun _ => hs.2⟩) fun _ _ hs => hs
    · exact Holds.pure fun s hs => hs

theorem resetOpt_holds (h : EnvRuns ok J K B U V i env) (e j : Bool) : Holds ok (Inv J e j) (resetOpt env) (fun _ s => Inv J e j s) := by
  unfold resetOpt
  split
  · next r hr =>
    refine (Holds.call (Q := fun _ s => Inv J e j s) fun s hs => ?_).bind fun _ => Holds.modify fun s hs => hs
    exact (h.reset r hr s.w hs.1).mono fun _ w hw => ⟨hw, hs.2⟩
  · exact Holds.pure fun s hs => hs

theorem guessDual_holds (h : EnvRuns ok J K B U V i env) (e j : Bool) : Holds ok (Inv J e j) (guessDual env) (fun _ s => Inv J e j s) := by
  unfold guessDual
  refine (Holds.call (Q := fun _ s => Inv J e j s) fun s hs => ?_).bind fun _ => Holds.modify fun s hs => hs
  exact (h.initDual s.w hs.1).mono fun _ w hw => ⟨hw, hs.2⟩

theorem preBody_holds (h : EnvHolds ok J K B U V i env) (k : ℕ) (L : List (XNum ℝ)) :
    Holds ok (Inv J false i) (preBody env k L)
      (fun r s => Inv J false i s ∧ ∃ v, r.1 = L ++ [v] ∧ V false (env.gradMetric && i) s.w v) := by
  unfold preBody
  refine (stepC_holds h.toEnvRuns false i fun hi => hi).bind fun _ => (preEval_holds h.toEnvRuns).bind fun v => ?_
  exact (finish_holds h false i false (env.gradMetric && i) k L v).weaken (fun _ hs => hs) fun r s hs => ⟨hs.1, v, hs.2.1, hs.2.2⟩

/-- pre-sampled training with at least one iteration: the last loss is the value of the robust loss in the final world -/
theorem optimPre_holds (h : EnvHolds ok J K B U V i env) {J0 : W → Prop} (hz : ∀ w, J0 w → Good ok (env.genZetas w) fun _ w' => J w') (p : ℤ)
    {n : ℤ} (hn : 0 < n) :
    Holds ok (fun s => J0 s.w ∧ s.imp = i) (optimPre env p n)
      (fun L s => Inv J false i s ∧ EndsWith (V false (env.gradMetric && i) s.w) L) := by
  unfold optimPre
  refine (Holds.call (Q := fun _ s => J s.w ∧ s.imp = i) fun s hs => ?_).bind fun _ => ?_
  · exact (hz s.w hs.1).mono fun _ w hw => ⟨hw, hs.2⟩
  refine (Holds.modify (Q := fun _ s => Inv J true i s) fun s hs => ⟨hs.1, rfl, hs.2⟩).bind fun _ => ?_
  refine (repeatM_holds (stepC_holds h.toEnvRuns true i fun hi => hi) _).bind fun _ => (guessDual_holds h.toEnvRuns true i).bind fun _ => ?_
  refine (Holds.modify (Q := fun _ s => Inv J false i s) fun s hs => ⟨hs.1, rfl, hs.2.2⟩).bind fun _ =>
    (resetOpt_holds h.toEnvRuns false i).bind fun _ => ?_
  have hne : List.range n.toNat ≠ [] := by simp; omega
  exact (trainLoop_holds (Q := fun s v => V false (env.gradMetric && i) s.w v) (preBody_holds h) _ []).weaken
    (fun s hs => ⟨hs, fun h0 => absurd h0 hne⟩) fun _ _ hs => hs

theorem postStep_holds (h : EnvRuns ok J K B U V i env) (e : Bool) : Holds ok (Inv J e i) (postStep env)
    (fun v s => Inv J e i s ∧ K e s.w ∧ U e v) := by
  unfold postStep
  refine (Holds.modify (Q := fun _ s => Inv J e i s) fun s hs => ⟨h.zeroGrad _ hs.1, hs.2⟩).bind fun _ => ?_
  refine (fwd_holds h true e i fun hi => hi).bind fun v => ?_
  refine (Holds.call (Q := fun _ s => Inv J e i s ∧ K e s.w ∧ U e v) fun s hs => ?_).bind fun _ => ?_
  · exact (h.backward e s.w hs.1.1 hs.2.2.1).mono fun _ w hw => ⟨⟨hw.1, hs.1.2⟩, hw.2.1, hs.2.2.2⟩
  refine (Holds.call (Q := fun _ s => Inv J e i s ∧ K e s.w ∧ U e v) fun s hs => ?_).bind fun _ => ?_
  · exact (h.step e s.w hs.1.1 hs.2.1).mono fun _ w hw => ⟨⟨hw.1, hs.1.2⟩, hw.2, hs.2.2⟩
  exact (Holds.emit (Q := fun _ s => Inv J e i s ∧ K e s.w ∧ U e v) fun s hs => hs).bind fun _ => Holds.pure fun s hs => hs

theorem postPretrain_holds (h : EnvRuns ok J K B U V i env) (e : Bool) (n : ℕ) :
    ∀ L, Holds ok (fun s => Inv J e i s) (postPretrain env n L) (fun L' s => Inv J e i s ∧ (L ≠ [] ∨ 0 < n → L' ≠ [])) := by
  induction n with
  | zero => exact fun L => Holds.pure fun s hs => ⟨hs, fun h => by simpa using h⟩
  | succ n ih =>
    intro L
    refine (postStep_holds h e).bind fun v => (Holds.emit (Q := fun _ s => Inv J e i s) fun s hs => hs.1).bind fun _ => ?_
    exact (ih _).weaken (fun _ hs => hs) fun L' s hs => ⟨hs.1, fun _ => hs.2 (Or.inl (by simp))⟩

theorem postFinish_holds (h : EnvHolds ok J K B U V i env) (e : Bool) (k : ℕ) (L : List (XNum ℝ)) (v : XNum ℝ) :
    Holds ok (fun s => Inv J e i s ∧ K false s.w ∧ U false v) (finish env k L v) (fun r s => Inv J e i s ∧ r.1 ≠ []) := by
  unfold finish
  refine (Holds.emit (Q := fun _ s => Inv J e i s ∧ K false s.w ∧ U false v) fun s hs => hs).bind fun _ => ?_
  split
  · exact Holds.pure fun s hs => ⟨hs.1, by simp⟩
  · next hnan =>
    refine (Holds.call (Q := fun _ s => Inv J e i s) fun s hs => ?_).bind fun b =>
      (Holds.emit (Q := fun _ s => Inv J e i s) fun s hs => hs).bind fun _ => Holds.pure fun s hs => ⟨hs, by simp⟩
    exact (h.stop k s.w hs.1.1 ⟨v, hs.2.2, by simpa using hnan⟩ fun _ => hs.2.1).mono fun _ w hw => ⟨hw.1, hs.1.2⟩

/-- post-sampled training with at least one iteration -/
theorem optimPost_holds (h : EnvHolds ok J K B U V i env) (p : ℤ) {n : ℤ} (hn : 0 < n ∨ 0 < p) :
    Holds ok (fun s => J s.w ∧ s.imp = i) (optimPost env p n) (fun L s => Inv J false i s ∧ L ≠ []) := by
  unfold optimPost
  refine (Holds.modify (Q := fun _ s => Inv J false i s) fun s hs => ⟨hs.1, rfl, hs.2⟩).bind fun _ => ?_
  refine (postPretrain_holds h.toEnvRuns false _ []).bind fun L => ?_
  have hg : Holds ok (fun s => Inv J false i s ∧ (([] : List (XNum ℝ)) ≠ [] ∨ 0 < p.toNat → L ≠ [])) (guessDual env)
      (fun _ s => Inv J false i s ∧ (([] : List (XNum ℝ)) ≠ [] ∨ 0 < p.toNat → L ≠ [])) := by
    intro s hs
    rcases guessDual_holds h.toEnvRuns false i s hs.1 with ⟨a, s1, h1, h2⟩ | h1
    · exact Or.inl ⟨a, s1, h1, h2, hs.2⟩
    · exact Or.inr h1
  refine hg.bind fun _ => ?_
  refine (Holds.read (Q := fun e s => e = false ∧ Inv J false i s ∧ (0 < p → L ≠ [])) fun s hs =>
    ⟨hs.1.2.1, hs.1, fun hp => hs.2 (Or.inr (by omega))⟩).bind fun e => ?_
  by_cases he : e = false
  swap
  · exact fun s hs => absurd hs.1 he
  subst he
  simp only [Bool.and_false, Bool.false_eq_true, if_false]
  refine (Holds.modify (Q := fun _ s => Inv J false i s ∧ (0 < p → L ≠ [])) fun s hs =>
    ⟨⟨hs.2.1.1, rfl, hs.2.1.2.2⟩, hs.2.2⟩).bind fun _ => ?_
  have hbody : ∀ k L, Holds ok (Inv J false i) (postBody env k L) (fun r s => Inv J false i s ∧ r.1 ≠ []) := fun k L =>
    (postStep_holds h.toEnvRuns false).bind fun v => postFinish_holds h false k L v
  refine (trainLoop_keeps hbody _ L).weaken (fun s hs => ⟨hs.1, fun h0 => ?_⟩) fun _ _ hs => hs
  have : n.toNat = 0 := by simpa using h0
  exact hs.2 (by omega)

/-- pre-sampled training, any number of iterations -/
theorem optimPre_keeps (h : EnvHolds ok J K B U V i env) {J0 : W → Prop} (hz : ∀ w, J0 w → Good ok (env.genZetas w) fun _ w' => J w') (p n : ℤ) :
    Holds ok (fun s => J0 s.w ∧ s.imp = i) (optimPre env p n) (fun _ s => J s.w) := by
  unfold optimPre
  refine (Holds.call (Q := fun _ s => J s.w ∧ s.imp = i) fun s hs => ?_).bind fun _ => ?_
  · exact (hz s.w hs.1).mono fun _ w hw => ⟨hw, hs.2⟩
  refine (Holds.modify (Q := fun _ s => Inv J true i s) fun s hs => ⟨hs.1, rfl, hs.2⟩).bind fun _ => ?_
  refine (repeatM_holds (stepC_holds h.toEnvRuns true i fun hi => hi) _).bind fun _ => (guessDual_holds h.toEnvRuns true i).bind fun _ => ?_
  refine (Holds.modify (Q := fun _ s => Inv J false i s) fun s hs => ⟨hs.1, rfl, hs.2.2⟩).bind fun _ =>
    (resetOpt_holds h.toEnvRuns false i).bind fun _ => ?_
  have hl : ∀ is L, Holds ok (Inv J false i) (trainLoop (preBody env) is L) (fun _ s => Inv J false i s) := by
    intro is
    induction is with
    | nil => exact fun L => Holds.pure fun s hs => hs
    | cons k is ih =>
      intro L
      refine ((preBody_holds h k L).weaken (fun s hs => hs) fun r s (hs : Inv J false i s ∧ _) => hs.1).bind fun ⟨L', b⟩ => ?_
      cases b
      · exact ih L'
      · exact Holds.pure fun s hs => hs
  exact (hl _ []).weaken (fun _ hs => hs) fun _ _ hs => hs.1

/-- post-sampled training, any number of iterations -/
theorem optimPost_keeps (h : EnvHolds ok J K B U V i env) (p n : ℤ) :
    Holds ok (fun s => J s.w ∧ s.imp = i) (optimPost env p n) (fun _ s => J s.w) := by
  unfold optimPost
  refine (Holds.modify (Q := fun _ s => Inv J false i s) fun s hs => ⟨hs.1, rfl, hs.2⟩).bind fun _ => ?_
  refine ((postPretrain_holds h.toEnvRuns false p.toNat []).weaken (fun s hs => hs) fun L s (hs : Inv J false i s ∧ _) => hs.1).bind fun L => ?_
  refine (guessDual_holds h.toEnvRuns false i).bind fun _ => ?_
  refine (Holds.read (Q := fun e s => e = false ∧ Inv J false i s) fun s hs => ⟨hs.2.1, hs⟩).bind fun e => ?_
  by_cases he : e = false
  swap
  · exact fun s hs => absurd hs.1 he
  subst he
  simp only [Bool.and_false, Bool.false_eq_true, if_false]
  refine (Holds.modify (Q := fun _ s => Inv J false i s) fun s hs => ⟨hs.2.1, rfl, hs.2.2.2⟩).bind fun _ => ?_
  have hl : ∀ is L, Holds ok (Inv J false i) (trainLoop (postBody env) is L) (fun _ s => Inv J false i s) := by
    intro is
    induction is with
    | nil => exact fun L => Holds.pure fun s hs => hs
    | cons k is ih =>
      intro L
      have hb : Holds ok (Inv J false i) (postBody env k L) (fun r s => Inv J false i s) :=
        (postStep_holds h.toEnvRuns false).bind fun v => (postFinish_holds h false k L v).weaken (fun _ hs => hs) fun _ _ hs => hs.1
      refine hb.bind fun ⟨L', b⟩ => ?_
      cases b
      · exact ih L'
      · exact Holds.pure fun s hs => hs
  exact (hl _ L).weaken (fun _ hs => hs) fun _ _ hs => hs.1

/-! ### An optimality condition that always raises -/

theorem finish_raises {err : PyErr} (hU : ∀ v, U false v → v.isNan = false)
    (hstop : ∀ k w, J w → (env.gradMetric = true → K false w) → (env.stop k w).1 = .error err) (e j : Bool) (k : ℕ) (L : List (XNum ℝ)) (v : XNum ℝ) :
    Raises (fun s => Inv J e j s ∧ (env.gradMetric = true → K false s.w) ∧ U false v) (finish env k L v) err := by
  unfold finish
  refine (Holds.emit (Q := fun _ s => Inv J e j s ∧ (env.gradMetric = true → K false s.w) ∧ U false v) fun s hs => hs).raises fun _ => ?_
  by_cases hv : U false v
  swap
  · exact fun s hs => absurd hs.2.2 hv
  rw [if_neg (by rw [hU v hv]; simp)]
  refine Raises.bind fun s hs => ?_
  exact ⟨{ s with w := (env.stop k s.w).2 }, by rw [M.call, hstop k s.w hs.1.1 hs.2.1]⟩

theorem trainLoop_raises {body : ℕ → List (XNum ℝ) → M W (List (XNum ℝ) × Bool)} {P : St W → Prop} {err : PyErr}
    (h : ∀ k L, Raises P (body k L) err) {is : List ℕ} (his : is ≠ []) (L : List (XNum ℝ)) : Raises P (trainLoop body is L) err := by
  cases is with
  | nil => exact absurd rfl his
  | cons k is => exact (h k L).bind

theorem optimPre_raises (h : EnvRuns true J K B U V i env) {err : PyErr} (hU : ∀ v, U false v → v.isNan = false)
    (hstop : ∀ k w, J w → (env.gradMetric = true → K false w) → (env.stop k w).1 = .error err) {J0 : W → Prop}
    (hz : ∀ w, J0 w → Good true (env.genZetas w) fun _ w' => J w') (p : ℤ) {n : ℤ} (hn : 0 < n) :
    Raises (fun s => J0 s.w ∧ s.imp = i) (optimPre env p n) err := by
  unfold optimPre
  refine (Holds.call (Q := fun _ s => J s.w ∧ s.imp = i) fun s hs => ?_).raises fun _ => ?_
  · exact (hz s.w hs.1).mono fun _ w hw => ⟨hw, hs.2⟩
  refine (Holds.modify (Q := fun _ s => Inv J true i s) fun s hs => ⟨hs.1, rfl, hs.2⟩).raises fun _ => ?_
  refine (repeatM_holds (stepC_holds h true i fun hi => hi) _).raises fun _ => (guessDual_holds h true i).raises fun _ => ?_
  refine (Holds.modify (Q := fun _ s => Inv J false i s) fun s hs => ⟨hs.1, rfl, hs.2.2⟩).raises fun _ =>
    (resetOpt_holds h false i).raises fun _ => ?_
  refine trainLoop_raises (fun k L => ?_) (by simp; omega) _
  unfold preBody
  refine (stepC_holds h false i fun hi => hi).raises fun _ => (preEval_holds h).raises fun v => ?_
  exact (finish_raises hU hstop false i k L v).weaken fun s hs => ⟨hs.1, hs.2.2⟩

theorem optimPost_raises (h : EnvRuns true J K B U V i env) {err : PyErr} (hU : ∀ v, U false v → v.isNan = false)
    (hstop : ∀ k w, J w → (env.gradMetric = true → K false w) → (env.stop k w).1 = .error err) (p : ℤ) {n : ℤ} (hn : 0 < n) :
    Raises (fun s => J s.w ∧ s.imp = i) (optimPost env p n) err := by
  unfold optimPost
  refine (Holds.modify (Q := fun _ s => Inv J false i s) fun s hs => ⟨hs.1, rfl, hs.2⟩).raises fun _ => ?_
  refine ((postPretrain_holds h false p.toNat []).weaken (fun s hs => hs) fun L s (hs : Inv J false i s ∧ _) => hs.1).raises fun L => ?_
  refine (guessDual_holds h false i).raises fun _ => ?_
  refine (Holds.read (Q := fun e s => e = false ∧ Inv J false i s) fun s hs => ⟨hs.2.1, hs⟩).raises fun e => ?_
  by_cases he : e = false
  swap
  · exact fun s hs => absurd hs.1 he
  subst he
  simp only [Bool.and_false, Bool.false_eq_true, if_false]
  refine (Holds.modify (Q := fun _ s => Inv J false i s) fun s hs => ⟨hs.2.1, rfl, hs.2.2.2⟩).raises fun _ => ?_
  refine trainLoop_raises (fun k L => ?_) (by simp; omega) _
  unfold postBody
  exact (postStep_holds h false).raises fun v => (finish_raises hU hstop false i k L v).weaken fun s hs => ⟨hs.1, fun _ => hs.2.1, hs.2.2⟩

end loops

/-- what the user gets back is read from the final state -/
theorem solveDual_holds {W Θ : Type} {env : Env W} {ok : Bool} {out : Readout W Θ} {presample rhoPos : Bool} {fl : ℝ → ℝ} {sched : Steps}
    {p q : ℤ} (hi : interpretSteps fl split03 sched = .ok (p, q)) {P : St W → Prop} {Q : XNum ℝ → St W → Prop}
    (h : Holds ok P (if presample then optimPre env p sched.iterations else optimPost env p sched.iterations)
      (fun L s => EndsWith (fun v => Q v s) L)) :
    Holds ok P (solveDual env out presample rhoPos fl sched) (fun r s => r.coef = out.theta s.w ∧ r.intercept = out.intercept s.w ∧
      r.dual_var = (if rhoPos then out.lam s.w else 0) ∧ Q r.robust_loss s) := by
  unfold solveDual
  rw [hi]
  refine Holds.bind (R := fun a s => a = (p, q) ∧ P s) (fun s hs => Or.inl ⟨(p, q), s, rfl, rfl, hs⟩) fun a => ?_
  by_cases ha : a = (p, q)
  swap
  · exact fun s hs => absurd hs.1 ha
  subst ha
  have hend : ∀ L : List (XNum ℝ), Holds ok (fun s => EndsWith (fun v => Q v s) L) (do
      let theta ← M.read (fun s => out.theta s.w)
      let intercept ← M.read (fun s => out.intercept s.w)
      let lam ← M.read (fun s => out.lam s.w)
      let lambd := if rhoPos then lam else 0
      match L.getLast? with
      | some v => Pure.pure ⟨theta, intercept, lambd, v⟩
      | none => M.raise .indexError : M W (Solved Θ)) (fun r s => r.coef = out.theta s.w ∧ r.intercept = out.intercept s.w ∧
        r.dual_var = (if rhoPos then out.lam s.w else 0) ∧ Q r.robust_loss s) := by
    intro L s hs
    obtain ⟨v, hv, hQ⟩ := hs
    left
    rw [hv]
    exact ⟨⟨out.theta s.w, out.intercept s.w, if rhoPos then out.lam s.w else 0, v⟩, s, rfl, rfl, rfl, rfl, hQ⟩
  have h' := h.weaken (P' := fun s => (p, q) = (p, q) ∧ P s) (fun s hs => hs.2) fun _ _ hs => hs
  cases presample
  · exact Holds.bind h' hend
  · exact Holds.bind h' hend

/-- whatever holds when the loop ends holds when the solver returns -/
theorem solveDual_keeps {W Θ : Type} {env : Env W} {out : Readout W Θ} {presample rhoPos : Bool} {fl : ℝ → ℝ} {sched : Steps}
    {P Q : St W → Prop} (h : ∀ p q, Holds false P (if presample then optimPre env p q else optimPost env p q) (fun _ s => Q s)) :
    Holds false P (solveDual env out presample rhoPos fl sched) (fun _ s => Q s) := by
  unfold solveDual
  cases hi : interpretSteps fl split03 sched with
  | error e => exact fun s _ => Or.inr ⟨rfl, e, s, rfl⟩
  | ok a =>
    refine Holds.bind (R := fun _ s => P s) (fun s hs => Or.inl ⟨a, s, rfl, hs⟩) fun ⟨p, q⟩ => ?_
    have hend : ∀ L : List (XNum ℝ), Holds false (fun s => Q s) (do
        let theta ← M.read (fun s => out.theta s.w)
        let intercept ← M.read (fun s => out.intercept s.w)
        let lam ← M.read (fun s => out.lam s.w)
        let lambd := if rhoPos then lam else 0
        match L.getLast? with
        | some v => Pure.pure ⟨theta, intercept, lambd, v⟩
        | none => M.raise .indexError : M W (Solved Θ)) (fun _ s => Q s) := by
      intro L s hs
      cases hL : L.getLast? with
      | none => exact Or.inr ⟨rfl, .indexError, s, rfl⟩
      | some v => exact Or.inl ⟨⟨out.theta s.w, out.intercept s.w, if rhoPos then out.lam s.w else 0, v⟩, s, rfl, hs⟩
    cases presample
    · exact Holds.bind (h p sched.iterations) hend
    · exact Holds.bind (h p sched.iterations) hend

theorem solveDual_raises {W Θ : Type} {env : Env W} {out : Readout W Θ} {presample rhoPos : Bool} {fl : ℝ → ℝ} {sched : Steps}
    {p q : ℤ} (hi : interpretSteps fl split03 sched = .ok (p, q)) {P : St W → Prop} {err : PyErr}
    (h : Raises P (if presample then optimPre env p sched.iterations else optimPost env p sched.iterations) err) :
    Raises P (solveDual env out presample rhoPos fl sched) err := by
  unfold solveDual
  rw [hi]
  refine Holds.raises (R := fun a s => a = (p, q) ∧ P s) (fun s hs => Or.inl ⟨(p, q), s, rfl, rfl, hs⟩) fun a => ?_
  by_cases ha : a = (p, q)
  swap
  · exact fun s hs => absurd hs.1 ha
  subst ha
  have h' := h.weaken (P' := fun s => (p, q) = (p, q) ∧ P s) fun s hs => hs.2
  cases presample
  · exact h'.bind
  · exact h'.bind

end Skwdro
