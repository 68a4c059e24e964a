import Verif.Props.Fit

/-! # C100: what a fit returns is what the optimizer wrote last -/

namespace Skwdro
open Spec Tensor

/-! ## Reading back what was written -/

theorem linMap_params_withParams {d K : ℕ} (l : LinMap d K) {v : List ℝ} (hv : v.length = l.params.length) : (l.withParams v).params = v := by
  have hl : (l.withParams v).params.length = v.length := by
    rw [linParams_length, hv, linParams_length]
    cases l with | mk w b => cases b <;> rfl
  rw [linParams_length] at hv
  refine List.ext_getElem hl fun i h1 h2 => ?_
  rw [← List.getD_eq_getElem _ 0 h1, ← List.getD_eq_getElem _ 0 h2]
  have hlen : ∀ w : Fin K → Fin d → ℝ, (List.ofFn fun c => List.ofFn (w c)).flatten.length = K * d := by
    intro w; rw [List.length_flatten]; simp [List.map_ofFn, Function.comp_def]
  by_cases hi : i < K * d
  · have hd : 0 < d := Nat.pos_of_ne_zero fun h => by simp [h] at hi
    have hc : i / d < K := (Nat.div_lt_iff_lt_mul hd).2 hi
    have e : i = i / d * d + i % d := (Nat.div_add_mod' i d).symm
    conv_lhs => rw [e]
    rw [LinMap.params]
    refine (flatten_ofFn_getD _ ⟨i / d, hc⟩ ⟨i % d, Nat.mod_lt _ hd⟩ _).trans ?_
    show v.getD (i / d * d + i % d) 0 = _
    rw [← e]
  · obtain ⟨w, b⟩ := l
    cases b with
    | none => simp at hv; omega
    | some b =>
      simp at hv
      rw [LinMap.params, List.getD_append_right _ _ _ _ (by rw [hlen]; omega), hlen]
      have hk : i - K * d < K := by omega
      simp only [LinMap.withParams, Option.map_some]
      rw [List.getD_eq_getElem _ _ (by simpa using hk)]
      simp only [List.getElem_ofFn]
      congr 1
      omega

/-- parameters written are the parameters read -/
theorem theta_withParams {d : ℕ} (M : Module d) {v : List ℝ} (hv : v.length = M.theta.length) : (M.withParams v).theta = v := by
  cases M with
  | softMargin l => exact linMap_params_withParams l hv
  | crossEnt l => exact linMap_params_withParams l hv
  | mse l => exact linMap_params_withParams l hv
  | weber pos =>
    simp only [Module.theta, List.length_ofFn] at hv
    refine List.ext_getElem (by simp [Module.withParams, Module.theta, hv]) fun i h1 h2 => ?_
    simp [Module.withParams, Module.theta, List.getD_eq_getElem, h2]
  | portfolio p =>
    simp only [Module.theta, List.length_cons] at hv
    cases v with
    | nil => simp at hv
    | cons a v =>
      simp only [Module.withParams, Module.theta, List.getD_cons_zero, List.getD_cons_succ, List.cons.injEq, true_and]
      refine List.ext_getElem (by simpa using hv.symm) fun i h1 h2 => ?_
      simp [List.getD_eq_getElem, h2]
  | newsvendor k u t =>
    simp only [Module.theta, List.length_cons, List.length_nil] at hv
    obtain ⟨a, rfl⟩ := List.length_eq_one_iff.1 hv
    rfl

section
variable {G O : Type} {d : ℕ} {ext : TorchExt G} {T : Torch G O} {cfg : OCConfig} {fl : ℝ → ℝ} {args : Module d → DualizeArgs}
  {M0 : Module d} {m k : ℕ} {mc : Bool} {steps : ℤ ⊕ (ℤ × ℤ)} {D : DualLoss} {post : Bool} {Z : Tensor ℝ × Option (Tensor ℝ)}
  {xi : Tensor ℝ} {y : Option (Tensor ℝ)} {mi : ℤ}

/-- the samples on the tape -/
def tapeSamples (post : Bool) (Z : Tensor ℝ × Option (Tensor ℝ)) : Cache := if post then none else some Z

/-- the state in which `Q` holds of the parameters and multiplier -/
def Has (Q : List ℝ → ℝ → Prop) (b : Box d G O) : Prop := Q b.mod.theta b.lam

/-- a recorded evaluation of the present loss, with gradients cleared -/
def Taped (args : Module d → DualizeArgs) (D : DualLoss) (z : Cache) (b : Box d G O) : Prop :=
  b.pgrad = none ∧ b.lgrad = none ∧ ∃ gen, b.tape = some ⟨b.dual args D false D.impSamp, gen, z⟩

theorem fwd_taped {K B : Bool → Box d G O → Prop} {U V} (hE : EnvHolds false (FitInv (O := O) M0 D post Z) K B U V D.impSamp (fitEnv ext T args D xi y post cfg mi))
    (g : Bool) (Q : List ℝ → ℝ → Prop) (held : Bool) :
    Holds false (fun s => Inv (FitInv M0 D post Z) false D.impSamp s ∧ (held = true → Has Q s.w) ∧ s.w.pgrad = none ∧ s.w.lgrad = none)
      (fwd (fitEnv ext T args D xi y post cfg mi) g)
      (fun _ s => Inv (FitInv M0 D post Z) false D.impSamp s ∧ (held = true → Has Q s.w) ∧ Taped args D (tapeSamples post Z) s.w) := by
  intro s ⟨h1, h2, h3, h4⟩
  have hf := hE.forward s.erm s.imp s.training s.w (by rw [h1.2.2]; exact id) h1.1
  rcases hf with ⟨v, h5, h6, -⟩ | ⟨-, err, h5⟩
  · refine Or.inl ⟨v, { s with w := ((fitEnv ext T args D xi y post cfg mi).forward s.erm s.imp s.training s.w).2,
                               tr := s.tr ++ [.eval s.erm s.imp s.training g v] }, ?_, ⟨h6, h1.2⟩, ?_⟩
    · simp only [fwd, M.bind_def, M.read, M.call, h5, M.emit, M.modify, M.pure_def]
    · rw [h1.2.1, h1.2.2] at h5 h6 ⊢
      clear hE
      have hs := h1.1.2.1
      have hz := h1.1.2.2
      revert h5 h6
      cases post with
      | true =>
        simp only [fitEnv, if_true]
        cases hp : postForward ext (s.w.dual args D false D.impSamp) xi y true s.w.gen with
        | error e => intro h5; cases h5
        | ok r =>
          obtain ⟨v', D', g'⟩ := r
          intro _ h6
          refine ⟨h2, h3, h4, (s.w.dual args D false D.impSamp).seeded ext s.w.gen, ?_⟩
          have : D'.sampler = D.sampler := h6.2.1
          simp only [Box.dual, this, hs, tapeSamples, if_true]
      | false =>
        simp only [fitEnv, Bool.false_eq_true, if_false, hz rfl]
        cases hp : preForward ext (s.w.dual args D false D.impSamp) s.w.cache xi y (some Z.1) Z.2 with
        | mk c r =>
          cases r with
          | error e => intro h5; cases h5
          | ok v' =>
            intro _ h6
            exact ⟨h2, h3, h4, s.w.gen, rfl⟩
  · refine Or.inr ⟨rfl, err, { s with w := ((fitEnv ext T args D xi y post cfg mi).forward s.erm s.imp s.training s.w).2 }, ?_⟩
    simp only [fwd, M.bind_def, M.read, M.call, h5]

/-- after the backward pass -/
theorem backward_sees (hs : ∀ b : Box d G O, FitInv M0 D post Z b → b.sampler = D.sampler) (Q : List ℝ → ℝ → Prop) (held : Bool) :
    Holds false (fun s => Inv (FitInv M0 D post Z) false D.impSamp s ∧ (held = true → Has Q s.w) ∧ Taped args D (tapeSamples post Z) s.w)
      (M.call (fitEnv ext T args D xi y post cfg mi).backward)
      (fun _ s => Inv (FitInv M0 D post Z) false D.impSamp s ∧ (held = true → Has Q s.w) ∧
        SeesGradient T args D M0 (tapeSamples post Z) false s.w.view) := by
  refine Holds.call fun s ⟨h1, h2, h3, h4, gen, h5⟩ => ?_
  simp only [fitEnv, h5]
  refine Or.inl ⟨_, rfl, ⟨h1.1, h1.2⟩, h2, s.w.mod, gen, h1.1.1, rfl, ?_⟩
  have e : ({ D with primal := (args s.w.mod).wloss.value, grads := (args s.w.mod).grads, lam := s.w.lam, ermMode := false } : DualLoss) =
      s.w.dual args D false D.impSamp := by
    simp only [Box.dual, hs _ h1.1]
  simp only [Box.view, h3, h4, addGrad, addGrad1]
  rw [e]

theorem closure_sees {K B : Bool → Box d G O → Prop} {U V} (hE : EnvHolds false (FitInv (O := O) M0 D post Z) K B U V D.impSamp (fitEnv ext T args D xi y post cfg mi))
    (Q : List ℝ → ℝ → Prop) (held : Bool) :
    Holds false (fun s => Inv (FitInv M0 D post Z) false D.impSamp s ∧ (held = true → Has Q s.w)) (closure (fitEnv ext T args D xi y post cfg mi) true)
      (fun _ s => Inv (FitInv M0 D post Z) false D.impSamp s ∧ (held = true → Has Q s.w) ∧
        SeesGradient T args D M0 (tapeSamples post Z) false s.w.view) := by
  unfold closure
  refine (Holds.modify (Q := fun _ s => Inv (FitInv M0 D post Z) false D.impSamp s ∧ (held = true → Has Q s.w) ∧ s.w.pgrad = none ∧ s.w.lgrad = none)
    fun s hs => ⟨hs.1, hs.2, rfl, rfl⟩).bind fun _ => ?_
  rw [if_pos rfl]
  exact (fwd_taped hE true Q held).bind fun v => (backward_sees (fun _ h => h.2.1) Q held).bind fun _ => Holds.pure fun s hs => hs

theorem put_has {Q : List ℝ → ℝ → Prop} (hQ : ∀ p l, Q p l → p.length = M0.theta.length) {b : Box d G O} (hb : SameShape M0 b.mod) {v : OptView O}
    (hv : Q v.params v.lam) : Has Q (b.put v) := by
  have : (b.mod.withParams v.params).theta = v.params := theta_withParams _ ((hQ _ _ hv).trans (theta_length hb))
  show Q (b.mod.withParams v.params).theta v.lam
  rwa [this]

theorem put_inv {b : Box d G O} (v : OptView O) (h : FitInv M0 D post Z b) : FitInv M0 D post Z (b.put v) :=
  ⟨sameShape_trans h.1 (withParams_same _ _), h.2⟩

theorem runProg_ends {K B : Bool → Box d G O → Prop} {U V} (hE : EnvHolds false (FitInv (O := O) M0 D post Z) K B U V D.impSamp (fitEnv ext T args D xi y post cfg mi))
    {Q : List ℝ → ℝ → Prop} (hQ : ∀ p l, Q p l → p.length = M0.theta.length) {fresh held : Bool} {p : StepProg O}
    (hp : StepEnds (SeesGradient T args D M0 (tapeSamples post Z) false) Q fresh held p) :
    Holds false (fun s => Inv (FitInv M0 D post Z) false D.impSamp s ∧ (held = true → Has Q s.w) ∧
        (fresh = true → SeesGradient T args D M0 (tapeSamples post Z) false s.w.view))
      (runProg (fitEnv ext T args D xi y post cfg mi) p.lift) (fun _ s => Inv (FitInv M0 D post Z) false D.impSamp s ∧ Has Q s.w) := by
  induction hp with
  | done fresh => exact Holds.pure fun s hs => ⟨hs.1, hs.2.1 rfl⟩
  | fail fresh held e => exact fun s _ => Or.inr ⟨rfl, e, s, rfl⟩
  | last held f next hf _ ih =>
    intro s hs
    have hR := hs.2.2 rfl
    exact ih s.w.view hR { s with w := s.w.put (f s.w.view) } ⟨⟨put_inv _ hs.1.1, hs.1.2⟩, fun _ => put_has hQ hs.1.1.1 (hf _ hR), by simp⟩
  | act fresh held f next _ ih =>
    exact fun s hs => ih s.w.view { s with w := s.w.put (f s.w.view) } ⟨⟨put_inv _ hs.1.1, hs.1.2⟩, by simp, by simp⟩
  | eval fresh held next _ ih =>
    exact ((closure_sees hE Q held).weaken (fun s hs => ⟨hs.1, hs.2.1⟩) fun _ _ hs => hs).bind fun v =>
      (ih v).weaken (fun s hs => ⟨hs.1, hs.2.1, fun _ => hs.2.2⟩) fun _ _ hs => hs

theorem forward_keeps (e i t : Bool) (b : Box d G O) :
    ((fitEnv ext T args D xi y post cfg mi).forward e i t b).2.mod = b.mod ∧ ((fitEnv ext T args D xi y post cfg mi).forward e i t b).2.lam = b.lam := by
  simp only [fitEnv]
  split
  · split <;> exact ⟨rfl, rfl⟩
  · split
    · exact ⟨rfl, rfl⟩
    · split <;> exact ⟨rfl, rfl⟩

/-- the same fit without updates -/
def quiet {W : Type} (env : Env W) : Env W :=
  { env with prog := fun _ => .done, step := fun w => (.ok (), w), initDual := fun w => (.ok (), w), resetLbd := none }

theorem quiet_holds {K B : Bool → Box d G O → Prop} {U V} (hE : EnvHolds false (FitInv (O := O) M0 D post Z) K B U V D.impSamp (fitEnv ext T args D xi y post cfg mi))
    (Q : List ℝ → ℝ → Prop) :
    EnvHolds false (fun b => FitInv (O := O) M0 D post Z b ∧ Has Q b) (fun _ _ => True) (fun _ _ => True) (fun _ _ => True) (fun _ _ _ _ => True) D.impSamp
      (quiet (fitEnv ext T args D xi y post cfg mi)) := by
  refine ⟨⟨fun w h => h, fun erm imp tr w hi h => ?_, fun _ w h _ => ?_, fun w h => .done, fun _ w h _ => Or.inl ⟨(), rfl, h, trivial⟩,
    fun _ w h => ⟨h, fun _ _ _ h => h⟩, fun w h => Or.inl ⟨(), rfl, h⟩, fun f hf => (by cases hf)⟩, fun k w h _ _ => ?_⟩
  · rcases hE.forward erm imp tr w hi h.1 with ⟨v, h1, h2, -⟩ | h1
    · refine Or.inl ⟨v, h1, ⟨h2, ?_⟩, trivial, trivial, trivial⟩
      obtain ⟨e1, e2⟩ := forward_keeps (ext := ext) (T := T) (args := args) (D := D) (xi := xi) (y := y) (post := post) (cfg := cfg) (mi := mi) erm imp tr w
      show Q ((fitEnv ext T args D xi y post cfg mi).forward erm imp tr w).2.mod.theta ((fitEnv ext T args D xi y post cfg mi).forward erm imp tr w).2.lam
      rw [e1, e2]
      exact h.2
    · exact Or.inr h1
  · simp only [quiet, fitEnv]
    split
    · exact Or.inr ⟨rfl, _, rfl⟩
    · exact Or.inl ⟨_, rfl, h, trivial, fun _ _ _ _ => trivial⟩
  · simp only [quiet, fitEnv]
    cases hv : (ocCall cfg w.oc ⟨0, fun _ => w.lam, w.lgrad, [(w.mod.theta, w.pgrad)], mi⟩ k).1 with
    | error e => exact Or.inr ⟨rfl, e, rfl⟩
    | ok x => exact Or.inl ⟨x, rfl, h, fun _ _ _ h => h⟩

section loops
variable {K B : Bool → Box d G O → Prop} {U : Bool → XNum ℝ → Prop} {V : Bool → Bool → Box d G O → XNum ℝ → Prop} {Q : List ℝ → ℝ → Prop}

theorem preBody_ends (hE : EnvHolds false (FitInv (O := O) M0 D post Z) K B U V D.impSamp (fitEnv ext T args D xi y post cfg mi))
    (hQ : ∀ p l, Q p l → p.length = M0.theta.length)
    (hp : ∀ v, StepEnds (SeesGradient T args D M0 (tapeSamples post Z) false) Q false false (T.prog v)) (k : ℕ) (L : List (XNum ℝ)) :
    Holds false (Inv (FitInv M0 D post Z) false D.impSamp) (preBody (fitEnv ext T args D xi y post cfg mi) k L)
      (fun r s => Inv (FitInv M0 D post Z) false D.impSamp s ∧ ∃ v, r.1 = L ++ [v] ∧ Has Q s.w) := by
  unfold preBody
  have hq := quiet_holds hE Q
  have h1 : Holds false (Inv (FitInv M0 D post Z) false D.impSamp) (stepC (fitEnv ext T args D xi y post cfg mi))
      (fun _ s => Inv (fun b => FitInv (O := O) M0 D post Z b ∧ Has Q b) false D.impSamp s) := by
    unfold stepC
    refine (Holds.read (Q := fun p s => p = (fitEnv ext T args D xi y post cfg mi).prog s.w ∧ Inv (FitInv M0 D post Z) false D.impSamp s)
      fun s hs => ⟨rfl, hs⟩).bind fun p => ?_
    refine Holds.bind (R := fun _ s => Inv (FitInv M0 D post Z) false D.impSamp s ∧ Has Q s.w) ?_ fun _ =>
      Holds.modify fun s hs => ⟨⟨hs.1.1, hs.2⟩, hs.1.2⟩
    rintro s ⟨rfl, hs⟩
    exact runProg_ends hE hQ (hp s.w.view) s ⟨hs, by simp, by simp⟩
  have e1 : preEval (fitEnv ext T args D xi y post cfg mi) = preEval (quiet (fitEnv ext T args D xi y post cfg mi)) := rfl
  have e2 : finish (fitEnv ext T args D xi y post cfg mi) = finish (quiet (fitEnv ext T args D xi y post cfg mi)) := rfl
  rw [e1, e2]
  refine h1.bind fun _ => (preEval_holds hq.toEnvRuns).bind fun v => ?_
  exact (finish_holds hq false D.impSamp false ((quiet (fitEnv ext T args D xi y post cfg mi)).gradMetric && D.impSamp) k L v).weaken
    (fun _ hs => hs) fun r s hs => ⟨⟨hs.1.1.1, hs.1.2⟩, v, hs.2.1, hs.1.1.2⟩

theorem postBody_ends (hE : EnvHolds false (FitInv (O := O) M0 D post Z) K B U V D.impSamp (fitEnv ext T args D xi y post cfg mi))
    (hQ : ∀ p l, Q p l → p.length = M0.theta.length)
    (hp : ∀ v v', SeesGradient T args D M0 (tapeSamples post Z) false v → T.step v = .ok v' → Q v'.params v'.lam) (k : ℕ) (L : List (XNum ℝ)) :
    Holds false (Inv (FitInv M0 D post Z) false D.impSamp) (postBody (fitEnv ext T args D xi y post cfg mi) k L)
      (fun r s => Inv (FitInv M0 D post Z) false D.impSamp s ∧ ∃ v, r.1 = L ++ [v] ∧ Has Q s.w) := by
  unfold postBody
  have hq := quiet_holds hE Q
  have h1 : Holds false (Inv (FitInv M0 D post Z) false D.impSamp) (postStep (fitEnv ext T args D xi y post cfg mi))
      (fun _ s => Inv (fun b => FitInv (O := O) M0 D post Z b ∧ Has Q b) false D.impSamp s) := by
    unfold postStep
    refine Holds.bind (R := fun _ s => Inv (FitInv M0 D post Z) false D.impSamp s ∧ (false = true → Has Q s.w) ∧ s.w.pgrad = none ∧ s.w.lgrad = none)
      (Holds.modify fun s hs => ⟨hs, (fun h => by cases h), rfl, rfl⟩) fun _ => ?_
    refine (fwd_taped hE true Q false).bind fun v => (backward_sees (fun _ h => h.2.1) Q false).bind fun _ => ?_
    refine (Holds.call (Q := fun _ s => Inv (fun b => FitInv (O := O) M0 D post Z b ∧ Has Q b) false D.impSamp s) fun s hs => ?_).bind fun _ =>
      (Holds.emit (Q := fun _ s => Inv (fun b => FitInv (O := O) M0 D post Z b ∧ Has Q b) false D.impSamp s) fun s hs => hs).bind fun _ =>
        Holds.pure fun s hs => hs
    simp only [fitEnv]
    cases hst : T.step s.w.view with
    | error e => exact Or.inr ⟨rfl, e, rfl⟩
    | ok v' => exact Or.inl ⟨(), rfl, ⟨put_inv _ hs.1.1, put_has hQ hs.1.1.1 (hp _ _ hs.2.2 hst)⟩, hs.1.2⟩
  have e2 : finish (fitEnv ext T args D xi y post cfg mi) = finish (quiet (fitEnv ext T args D xi y post cfg mi)) := rfl
  rw [e2]
  refine h1.bind fun v => ?_
  exact (finish_holds hq false D.impSamp false false k L v).weaken (fun _ hs => ⟨hs, trivial, (fun _ => trivial), trivial⟩)
    fun r s hs => ⟨⟨hs.1.1.1, hs.1.2⟩, v, hs.2.1, hs.1.1.2⟩

theorem optimPre_ends (hE : EnvHolds false (FitInv (O := O) M0 D post Z) K B U V D.impSamp (fitEnv ext T args D xi y post cfg mi))
    (hQ : ∀ p l, Q p l → p.length = M0.theta.length)
    (hp : ∀ v, StepEnds (SeesGradient T args D M0 (tapeSamples post Z) false) Q false false (T.prog v)) {J0 : Box d G O → Prop}
    (hz : ∀ w, J0 w → Good false ((fitEnv ext T args D xi y post cfg mi).genZetas w) fun _ w' => FitInv M0 D post Z w') (p : ℤ) {n : ℤ} (hn : 0 < n) :
    Holds false (fun s => J0 s.w ∧ s.imp = D.impSamp) (optimPre (fitEnv ext T args D xi y post cfg mi) p n)
      (fun L s => EndsWith (fun _ => Inv (FitInv M0 D post Z) false D.impSamp s ∧ Has Q s.w) L) := by
  unfold optimPre
  refine (Holds.call (Q := fun _ s => FitInv M0 D post Z s.w ∧ s.imp = D.impSamp) fun s hs => ?_).bind fun _ => ?_
  · exact (hz s.w hs.1).mono fun _ w hw => ⟨hw, hs.2⟩
  refine (Holds.modify (Q := fun _ s => Inv (FitInv M0 D post Z) true D.impSamp s) fun s hs => ⟨hs.1, rfl, hs.2⟩).bind fun _ => ?_
  refine (repeatM_holds (stepC_holds hE.toEnvRuns true D.impSamp fun hi => hi) _).bind fun _ => (guessDual_holds hE.toEnvRuns true D.impSamp).bind fun _ => ?_
  refine (Holds.modify (Q := fun _ s => Inv (FitInv M0 D post Z) false D.impSamp s) fun s hs => ⟨hs.1, rfl, hs.2.2⟩).bind fun _ =>
    (resetOpt_holds hE.toEnvRuns false D.impSamp).bind fun _ => ?_
  have hne : List.range n.toNat ≠ [] := by simp; omega
  refine (trainLoop_holds (Q := fun s _ => Has Q s.w) (preBody_ends hE hQ hp) _ []).weaken (fun s hs => ⟨hs, fun h0 => absurd h0 hne⟩) ?_
  rintro L s ⟨h1, v, h2, h3⟩
  exact ⟨v, h2, h1, h3⟩

theorem optimPost_ends (hE : EnvHolds false (FitInv (O := O) M0 D post Z) K B U V D.impSamp (fitEnv ext T args D xi y post cfg mi))
    (hQ : ∀ p l, Q p l → p.length = M0.theta.length)
    (hp : ∀ v v', SeesGradient T args D M0 (tapeSamples post Z) false v → T.step v = .ok v' → Q v'.params v'.lam) (p : ℤ) {n : ℤ} (hn : 0 < n) :
    Holds false (fun s => FitInv M0 D post Z s.w ∧ s.imp = D.impSamp) (optimPost (fitEnv ext T args D xi y post cfg mi) p n)
      (fun L s => EndsWith (fun _ => Inv (FitInv M0 D post Z) false D.impSamp s ∧ Has Q s.w) L) := by
  unfold optimPost
  refine (Holds.modify (Q := fun _ s => Inv (FitInv M0 D post Z) false D.impSamp s) fun s hs => ⟨hs.1, rfl, hs.2⟩).bind fun _ => ?_
  refine ((postPretrain_holds hE.toEnvRuns false p.toNat []).weaken (fun s hs => hs) fun L s hs => hs.1).bind fun L => ?_
  refine (guessDual_holds hE.toEnvRuns false D.impSamp).bind fun _ => ?_
  refine (Holds.read (Q := fun e s => e = false ∧ Inv (FitInv M0 D post Z) false D.impSamp s) fun s hs => ⟨hs.2.1, hs⟩).bind fun e => ?_
  by_cases he : e = false
  swap
  · exact fun s hs => absurd hs.1 he
  subst he
  simp only [Bool.and_false, Bool.false_eq_true, if_false]
  refine (Holds.modify (Q := fun _ s => Inv (FitInv M0 D post Z) false D.impSamp s) fun s hs => ⟨hs.2.1, rfl, hs.2.2.2⟩).bind fun _ => ?_
  have hne : List.range n.toNat ≠ [] := by simp; omega
  refine (trainLoop_holds (Q := fun s _ => Has Q s.w) (postBody_ends hE hQ hp) _ L).weaken (fun s hs => ⟨hs, fun h0 => absurd h0 hne⟩) ?_
  rintro L s ⟨h1, v, h2, h3⟩
  exact ⟨v, h2, h1, h3⟩

end loops

/-- **C100** Whatever the data, the radius, the mode and the number of iterations (at least one), training hands the optimizer, at each update
that follows an evaluation, the gradient of the robust loss at the present parameters and multiplier alone, and returns what the last step
wrote: any property `Q` of parameters and multiplier that a step establishes from such a gradient holds of the returned ones. -/
theorem C100_last_step (ha : ArgsFit args M0 m k mc) {g g' : G} (hD : dualize ext (args M0) g = .ok (D, g')) {s : Sampler} (hs : D.sampler = some s)
    (hcost : (args M0).xi_labels = none → D.cost.kind = .normCost) (hrho : ∀ r, (args M0).rho = .num r → 0 ≤ r)
    (hn : 0 < (toSteps steps).iterations) (oc : OCState) {Q : List ℝ → ℝ → Prop} (hQ : ∀ p l, Q p l → p.length = M0.theta.length)
    (hstep : (args M0).post_sample = true → ∀ v v', SeesGradient T args D M0 none false v → T.step v = .ok v' → Q v'.params v'.lam)
    (hprog : (args M0).post_sample = false → ∀ v,
      StepEnds (SeesGradient T args D M0 (some ((s.sample ext D.nSamples g').1, (s.sample ext D.nSamples g').2.1)) false) Q false false (T.prog v))
    {M : Module d} {r : Solved (List ℝ)} (h : solveTorch ext T cfg fl args M0 steps oc g = .ok (M, r)) :
    ∃ lam, Q r.coef lam ∧ r.dual_var = (if (args M0).rho.isPos then lam else 0) ∧ r.coef = M.theta := by
  have hfits : SamplerFits s m d k (args M0).xi_labels.isSome := by
    obtain ⟨parsed, obj, c, s', -, -, -, hsm, rfl⟩ := dualize_ok hD
    have : s' = s := by simpa [dualOf] using hs
    subst this
    exact dualizeSampler_fits hsm ha.data ha.labels
  obtain ⟨z1, z2, z3⟩ := sample_shapes ext hfits g' D.nSamples
  obtain ⟨⟨p, q⟩, hi⟩ : ∃ a, interpretSteps fl split03 (toSteps steps) = .ok a := by
    cases toSteps steps with
    | one n => exact ⟨_, if_pos (by unfold split03; norm_num)⟩
    | pair p n => exact ⟨_, rfl⟩
  have hE := fitEnv_loose (T := T) (cfg := cfg) (mi := (toSteps steps).iterations) hD ha hcost hrho
    (post := (args M0).post_sample) (Z := ((s.sample ext D.nSamples g').1, (s.sample ext D.nSamples g').2.1)) z1 z2 z3
  have key := solveDual_holds (out := fitReadout (d := d) (G := G) (O := O)) (presample := !(args M0).post_sample)
    (rhoPos := (args M0).rho.isPos) (P := fun st => st = startState T M0 D g' oc) (Q := fun _ st => Has Q st.w) (ok := false) hi
    (env := fitEnv ext T args D (args M0).xi (args M0).xi_labels (args M0).post_sample cfg (toSteps steps).iterations) (by
      cases hpost : (args M0).post_sample with
      | false =>
        rw [hpost] at hE
        simp only [Bool.not_false, if_true]
        refine (optimPre_ends hE hQ (hprog hpost) (J0 := fun b => b = (startState T M0 D g' oc).w) ?_ p hn).weaken ?_ ?_
        · rintro w rfl
          simp only [fitEnv, startState, freshBox, hs]
          exact Or.inl ⟨_, rfl, sameShape_refl M0, hs.symm, fun _ => rfl⟩
        · rintro st rfl
          exact ⟨rfl, rfl⟩
        · rintro L st ⟨v, h1, h2⟩
          exact ⟨v, h1, h2.2⟩
      | true =>
        rw [hpost] at hE
        simp only [Bool.not_true, Bool.false_eq_true, if_false]
        refine (optimPost_ends hE hQ (hstep hpost) p hn).weaken ?_ ?_
        · rintro st rfl
          exact ⟨⟨sameShape_refl M0, rfl, fun h => by cases h⟩, rfl⟩
        · rintro L st ⟨v, h1, h2⟩
          exact ⟨v, h1, h2.2⟩)
  unfold solveTorch at h
  rw [hD] at h
  simp only [ok_bind] at h
  rcases key _ rfl with ⟨r', st, h1, h2, -, h3, h4⟩ | ⟨-, e, st, h1⟩
  · have e1 : solveRun ext T cfg fl args D M0 steps oc g' = (.ok r', st) := h1
    rw [e1] at h
    simp only [Except.ok.injEq, Prod.mk.injEq] at h
    obtain ⟨rfl, rfl⟩ := h
    exact ⟨st.w.lam, by rw [h2]; exact h4, h3, h2⟩
  · have e1 : solveRun ext T cfg fl args D M0 steps oc g' = (.error e, st) := h1
    rw [e1] at h
    cases h

end

/-! ## Gradient descent -/

section sgd
variable {G : Type} {d : ℕ} {ext : TorchExt G} {cfg : OCConfig} {fl : ℝ → ℝ} {args : Module d → DualizeArgs}
  {M0 : Module d} {m k : ℕ} {mc : Bool} {steps : ℤ ⊕ (ℤ × ℤ)} {D : DualLoss}

/-- one step of gradient descent with step size `lr` -/
def sgdStep {O : Type} (lr : ℝ) (v : OptView O) : OptView O :=
  { v with params := List.zipWith (fun p g => p - lr * g) v.params (v.pgrad.getD []), lam := v.lam - lr * v.lgrad.getD 0 }

/-- `torch.optim.SGD` without momentum, for an autograd `back` -/
def sgdTorch (lr : ℝ) (back : Tape G → List ℝ × ℝ) : Torch G Unit where
  o0 := ()
  backward t := (some (back t).1, some (back t).2)
  step v := .ok (sgdStep lr v)
  prog _ := .eval fun _ => .act (sgdStep lr) fun _ => .done
  resetLbd := none
  composite := false

theorem sgd_good (lr : ℝ) (back : Tape G → List ℝ × ℝ) : GoodTorch (sgdTorch lr back) :=
  ⟨fun _ => .eval _ fun _ => .act _ _ fun _ => .done, fun v => ⟨_, rfl, fun h => h, fun h => h⟩, fun f hf v => (by cases hf), fun _ _ => rfl, fun _ _ _ _ => rfl⟩

/-- **C100** With gradient descent, the coefficients returned are a step of length `lr` against the gradient of the robust loss at some module of
the same shape, and (for a positive radius) the multiplier returned is the same step on the multiplier of this loss. -/
theorem C100_gradient_descent {lr : ℝ} {back : Tape G → List ℝ × ℝ} (hback : ∀ t, (back t).1.length = M0.theta.length)
    (ha : ArgsFit args M0 m k mc) {g g' : G} (hD : dualize ext (args M0) g = .ok (D, g')) {s : Sampler} (hs : D.sampler = some s)
    (hcost : (args M0).xi_labels = none → D.cost.kind = .normCost) (hrho : ∀ r, (args M0).rho = .num r → 0 ≤ r)
    (hn : 0 < (toSteps steps).iterations) (oc : OCState) {M : Module d} {r : Solved (List ℝ)}
    (h : solveTorch ext (sgdTorch lr back) cfg fl args M0 steps oc g = .ok (M, r)) :
    ∃ (M' : Module d) (lam : ℝ) (gen : G) (z : Cache) (t : Tape G), SameShape M0 M' ∧
      t = ⟨{ D with primal := (args M').wloss.value, grads := (args M').grads, lam := lam, ermMode := false }, gen, z⟩ ∧
      (z = if (args M0).post_sample then none else some ((s.sample ext D.nSamples g').1, (s.sample ext D.nSamples g').2.1)) ∧
      r.coef = List.zipWith (fun p g => p - lr * g) M'.theta (back t).1 ∧ M.theta = r.coef ∧
      r.dual_var = if (args M0).rho.isPos then lam - lr * (back t).2 else 0 := by
  set z : Cache := if (args M0).post_sample then none else some ((s.sample ext D.nSamples g').1, (s.sample ext D.nSamples g').2.1) with hz
  have key : ∀ v : OptView Unit, SeesGradient (sgdTorch lr back) args D M0 z false v → ∃ (M' : Module d) (gen : G), SameShape M0 M' ∧
      (sgdStep lr v).params = List.zipWith (fun p g => p - lr * g) M'.theta
        (back ⟨{ D with primal := (args M').wloss.value, grads := (args M').grads, lam := v.lam, ermMode := false }, gen, z⟩).1 ∧
      (sgdStep lr v).lam = v.lam - lr *
        (back ⟨{ D with primal := (args M').wloss.value, grads := (args M').grads, lam := v.lam, ermMode := false }, gen, z⟩).2 := by
    rintro v ⟨M', gen, h1, h2, h3⟩
    simp only [sgdTorch, Prod.mk.injEq] at h3
    refine ⟨M', gen, h1, ?_, ?_⟩
    · simp only [sgdStep, ← h3.1, ← h2, Option.getD_some]
    · simp only [sgdStep, ← h3.2, Option.getD_some]
  obtain ⟨lam, ⟨v, h1, h2, h3⟩, h4, h5⟩ := C100_last_step (Q := fun p l => ∃ v : OptView Unit, SeesGradient (sgdTorch lr back) args D M0 z false v ∧
      p = (sgdStep lr v).params ∧ l = (sgdStep lr v).lam) ha hD hs hcost hrho hn oc (by
      rintro p l ⟨v, hv, rfl, -⟩
      obtain ⟨M', gen, h1, h2, -⟩ := key v hv
      rw [h2, List.length_zipWith, hback, theta_length h1, min_self]) (by
      intro hp v v' hv hv'
      rw [hp] at hz
      cases hv'
      exact ⟨v, by rw [hz]; exact hv, rfl, rfl⟩) (by
      intro hp v
      rw [hp] at hz
      refine .eval _ _ _ fun x => .last _ _ _ (fun v hv => ⟨v, by rw [hz]; exact hv, rfl, rfl⟩) fun v _ => .done _) h
  obtain ⟨M', gen, h6, h7, h8⟩ := key v h1
  exact ⟨M', v.lam, gen, z, _, h6, rfl, rfl, h2.trans h7, h5.symm, by rw [h4, h3, h8]⟩

end sgd

/-- a pre- or post-sampled linear regression by gradient descent to which the theorem applies: it returns -/
example (oc : OCState) (X : Fin 2 → Fin 1 → ℝ) (y : Fin 2 → ℝ) (post : Bool) : ∃ D g' s M r,
    dualize counterExt (torchArgs (onesGrad 1) .linreg EstKind.linreg.defaults post false (matT X) (some (matT fun i (_ : Fin 1) => y i))
      (.mse ⟨fun _ _ => 3, some fun _ => 1⟩)) 7 = .ok (D, g') ∧ D.sampler = some s ∧
    solveTorch counterExt (sgdTorch (1 / 10) fun t => ([t.loss.lam, 2], 5)) defaultCond (fun x => x) (torchArgs (onesGrad 1) .linreg
      EstKind.linreg.defaults post false (matT X) (some (matT fun i (_ : Fin 1) => y i))) (.mse ⟨fun _ _ => 3, some fun _ => 1⟩)
      (trainSteps .linreg EstKind.linreg.defaults post) oc 7 = .ok (M, r) ∧
    (∀ t : Tape ℕ, ([t.loss.lam, 2] : List ℝ).length = (Module.mse (d := 1) ⟨fun _ _ => 3, some fun _ => 1⟩).theta.length) := by
  have h' := default_fitReady_labelled .linreg (by simp)
  have ha := torch_argsFit (onesGrad_shapes 1) .linreg EstKind.linreg.defaults post (mc := false) (X := matT X)
    (y := some (matT fun i (_ : Fin 1) => y i)) (k := 1) (M0 := .mse ⟨fun _ _ => 3, some fun _ => 1⟩) rfl (by intro t ht; cases ht; rfl) ⟨rfl, rfl, rfl⟩
  have hr := torch_costReady (grads := onesGrad 1) (e := .linreg) (post := post) (mc := false) (X := matT X)
    (y := some (matT fun i (_ : Fin 1) => y i)) (M0 := .mse ⟨fun _ _ => 3, some fun _ => 1⟩) h'
  obtain ⟨D, g', s, hD, hs, -⟩ := costReady_dualize (ext := counterExt) hr 7
  obtain ⟨M, r, h1, -⟩ := C86_fits_return_partial (ext := counterExt) (fl := fun x => x) (sgd_good (1 / 10) fun t => ([t.loss.lam, 2], 5))
    ha hr h'.rho (trainSteps_pos h'.iter .linreg post) (defaultCond_ready oc _ _) 7
  exact ⟨D, g', s, M, r, hD, hs, h1, fun _ => rfl⟩

end Skwdro
