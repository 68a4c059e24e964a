import Verif.Props.LastStep

/-! # C101: training is the documented sequence of optimizer steps -/

namespace Skwdro
open Spec Tensor

/-- a module of the same shape is determined by its parameters -/
theorem withParams_of_sameShape {d : ℕ} {M0 M : Module d} (h : SameShape M0 M) : M0.withParams M.theta = M := by
  have key : ∀ {K : ℕ} (l l' : LinMap d K), l.bias.isSome = l'.bias.isSome → l.withParams l'.params = l' := by
    intro K l l' hb
    have e := linMap_withParams_self l'
    rw [← e]
    conv_lhs => rw [e]
    cases l with | mk w b => cases l' with | mk w' b' => cases b <;> cases b' <;> first | rfl | cases hb
  cases M0 <;> cases M <;> simp only [SameShape] at h
  · simp only [Module.withParams, Module.theta, key _ _ h]
  · obtain ⟨rfl, h⟩ := h
    simp only [Module.withParams, Module.theta, key _ _ h]
  · simp only [Module.withParams, Module.theta, key _ _ h]
  · next p p' => exact withParams_self (.weber p')
  · next p p' =>
    have e := withParams_self (d := d) (.portfolio p')
    obtain ⟨raw, tau, eta, alpha⟩ := p
    obtain ⟨raw', tau', eta', alpha'⟩ := p'
    obtain ⟨h1, rfl, rfl⟩ := h
    simp only at h1
    refine Eq.trans ?_ e
    simp only [Module.withParams, h1]
  · obtain ⟨rfl, rfl⟩ := h
    rfl

section
variable {G O : Type} {d : ℕ} {ext : TorchExt G} {T : Torch G O} {cfg : OCConfig} {fl : ℝ → ℝ} {args : Module d → DualizeArgs}
  {M0 : Module d} {D : DualLoss} {Z : Tensor ℝ × Option (Tensor ℝ)} {gen : G} {mi : ℤ}

theorem view_put {b : Box d G O} {u : OptView O} (h : u.params.length = b.mod.theta.length) : (b.put u).view = u := by
  have := theta_withParams b.mod h
  cases u
  simp only [Box.put, Box.view] at *
  rw [this]

theorem dual_eq {post : Bool} {b : Box d G O} (h : FitInv M0 D post Z b) (e i : Bool) :
    b.dual args D e i = { lossFor args D M0 e b.view with impSamp := i } := by
  simp only [Box.dual, lossFor, Box.view, withParams_of_sameShape h.1, h.2.1]

/-- the optimizer's variables in a fit -/
def FitAt (M0 : Module d) (D : DualLoss) (post : Bool) (Z : Tensor ℝ × Option (Tensor ℝ)) (e i : Bool) (gen : G) (v : OptView O) (oc : OCState)
    (s : St (Box d G O)) : Prop :=
  Inv (FitInv M0 D post Z) e i s ∧ s.w.gen = gen ∧ s.w.view = v ∧ s.w.oc = oc

/-- the environment of a pre-sampled fit -/
noncomputable abbrev preEnv (ext : TorchExt G) (T : Torch G O) (args : Module d → DualizeArgs) (D : DualLoss) (M0 : Module d) (cfg : OCConfig) (mi : ℤ) :
    Env (Box d G O) := fitEnv ext T args D (args M0).xi (args M0).xi_labels false cfg mi

/-- the variables after `zero_grad` -/
def noGrad {O : Type} (v : OptView O) : OptView O := { v with pgrad := none, lgrad := none }

theorem fwd_at (e i g : Bool) (v : OptView O) (oc : OCState) : Holds false (FitAt M0 D false Z e i gen v oc) (fwd (preEnv ext T args D M0 cfg mi) g)
    (fun x s => (∃ q, computeDual ext { lossFor args D M0 e v with impSamp := i } (args M0).xi (args M0).xi_labels Z.1 Z.2 = .ok q ∧ q.item = .ok x) ∧
      FitAt M0 D false Z e i gen v oc s ∧ s.w.tape = some ⟨{ lossFor args D M0 e v with impSamp := i }, gen, some Z⟩) := by
  rintro s ⟨⟨h1, h2, h3⟩, rfl, rfl, rfl⟩
  have hz := h1.2.2 rfl
  have hd := dual_eq (args := args) h1 e i
  simp only [M.bind_def, fwd, M.read, M.call, M.emit, M.modify, M.pure_def, h2, h3]
  have e1 : (preEnv ext T args D M0 cfg mi).forward e i s.training s.w =
      match computeDual ext { lossFor args D M0 e s.w.view with impSamp := i } (args M0).xi (args M0).xi_labels Z.1 Z.2 with
      | .error er => (.error er, { s.w with cache := some Z })
      | .ok q => (q.item, { s.w with cache := some Z, tape := some ⟨{ lossFor args D M0 e s.w.view with impSamp := i }, s.w.gen, some Z⟩ }) := by
    rw [← hd]
    simp only [fitEnv, Bool.false_eq_true, if_false, hz, preForward]
    cases computeDual ext (s.w.dual args D e i) (args M0).xi (args M0).xi_labels Z.1 Z.2 <;> rfl
  rw [e1]
  cases hq : computeDual ext { lossFor args D M0 e s.w.view with impSamp := i } (args M0).xi (args M0).xi_labels Z.1 Z.2 with
  | error er => exact Or.inr ⟨trivial, _, _, rfl⟩
  | ok q =>
    dsimp only
    cases hi : q.item with
    | error er => exact Or.inr ⟨trivial, _, _, rfl⟩
    | ok x => exact Or.inl ⟨x, _, rfl, ⟨q, rfl, hi⟩, ⟨⟨h1, rfl, rfl⟩, rfl, rfl, rfl⟩, rfl⟩

theorem closure_at (e : Bool) (v : OptView O) (oc : OCState) : Holds false (FitAt M0 D false Z e D.impSamp gen v oc)
    (closure (preEnv ext T args D M0 cfg mi) true)
    (fun x s => (∃ q, computeDual ext (lossFor args D M0 e v) (args M0).xi (args M0).xi_labels Z.1 Z.2 = .ok q ∧ q.item = .ok x) ∧
      FitAt M0 D false Z e D.impSamp gen (withGrad T v ⟨lossFor args D M0 e v, gen, some Z⟩) oc s) := by
  unfold closure
  refine (Holds.modify (Q := fun _ s => FitAt M0 D false Z e D.impSamp gen (noGrad v) oc s) fun s hs => ?_).bind fun _ => ?_
  · exact ⟨hs.1, hs.2.1, by rw [← hs.2.2.1]; rfl, hs.2.2.2⟩
  rw [if_pos rfl]
  refine (fwd_at e D.impSamp true (noGrad v) oc).bind fun x => ?_
  refine (Holds.call (Q := fun _ s => (∃ q, computeDual ext (lossFor args D M0 e v) (args M0).xi (args M0).xi_labels Z.1 Z.2 = .ok q ∧ q.item = .ok x) ∧
      FitAt M0 D false Z e D.impSamp gen (withGrad T v ⟨lossFor args D M0 e v, gen, some Z⟩) oc s) ?_).bind fun _ => Holds.pure fun s hs => hs
  rintro s ⟨h1, ⟨h2, h3, h4, h5⟩, h6⟩
  simp only [fitEnv, h6]
  refine Or.inl ⟨(), rfl, h1, h2, h3, ?_, h5⟩
  have e1 : s.w.pgrad = none := by have := congrArg OptView.pgrad h4; exact this
  have e2 : s.w.lgrad = none := by have := congrArg OptView.lgrad h4; exact this
  have e3 : s.w.mod.theta = v.params := by have := congrArg OptView.params h4; exact this
  have e4 : s.w.lam = v.lam := by have := congrArg OptView.lam h4; exact this
  have e5 : s.w.o = v.o := by have := congrArg OptView.o h4; exact this
  simp only [Box.view, e1, e2, e3, e4, e5, addGrad, addGrad1, withGrad]
  rfl

/-- evaluation without gradients -/
theorem closureEval_at (v : OptView O) (oc : OCState) : Holds false (FitAt M0 D false Z false false gen v oc)
    (closure (preEnv ext T args D M0 cfg mi) false)
    (fun x s => (∃ q, computeDual ext { lossFor args D M0 false v with impSamp := false } (args M0).xi (args M0).xi_labels Z.1 Z.2 = .ok q ∧
      q.item = .ok x) ∧ FitAt M0 D false Z false false gen (noGrad v) oc s) := by
  unfold closure
  refine (Holds.modify (Q := fun _ s => FitAt M0 D false Z false false gen (noGrad v) oc s) fun s hs => ?_).bind fun _ => ?_
  · exact ⟨hs.1, hs.2.1, by rw [← hs.2.2.1]; rfl, hs.2.2.2⟩
  rw [if_neg (by simp)]
  have h1 : Holds false (FitAt M0 D false Z false false gen (noGrad v) oc) (lossEval (preEnv ext T args D M0 cfg mi))
      (fun _ s => FitAt M0 D false Z false false gen (noGrad v) oc s) := by
    unfold lossEval lossTrain
    exact (Holds.modify (Q := fun _ s => FitAt M0 D false Z true false gen (noGrad v) oc s) fun s hs =>
      ⟨⟨hs.1.1, rfl, hs.1.2.2⟩, hs.2⟩).bind fun _ => Holds.modify fun s hs => ⟨⟨hs.1.1, rfl, hs.1.2.2⟩, hs.2⟩
  refine h1.bind fun _ => (fwd_at false false false (noGrad v) oc).bind fun x => ?_
  unfold lossTrain
  refine (Holds.modify (Q := fun _ s => (∃ q, computeDual ext { lossFor args D M0 false v with impSamp := false } (args M0).xi (args M0).xi_labels
    Z.1 Z.2 = .ok q ∧ q.item = .ok x) ∧ FitAt M0 D false Z false false gen (noGrad v) oc s) fun s hs => ?_).bind fun _ => Holds.pure fun s hs => hs
  exact ⟨hs.1, ⟨hs.2.1.1.1, rfl, hs.2.1.1.2.2⟩, hs.2.1.2⟩

theorem runProg_at (e : Bool) (oc : OCState) {p : StepProg O} (hp : KeepsLength p) : ∀ v : OptView O, Holds false
    (FitAt M0 D false Z e D.impSamp gen v oc) (runProg (preEnv ext T args D M0 cfg mi) p.lift) (fun _ s => ∃ w, StepRuns T
      (fun u x => ∃ q, computeDual ext (lossFor args D M0 e u) (args M0).xi (args M0).xi_labels Z.1 Z.2 = .ok q ∧ q.item = .ok x)
      (fun u => ⟨lossFor args D M0 e u, gen, some Z⟩) p v w ∧ FitAt M0 D false Z e D.impSamp gen w oc s) := by
  induction hp with
  | done => exact fun v => Holds.pure fun s hs => ⟨v, .done v, hs⟩
  | fail er => exact fun v s _ => Or.inr ⟨rfl, er, s, rfl⟩
  | act f next hf _ ih =>
    rintro v s ⟨h1, h2, rfl, h2'⟩
    have hv : (s.w.put (f s.w.view)).view = f s.w.view := view_put (hf s.w.view)
    rcases ih s.w.view (f s.w.view) { s with w := s.w.put (f s.w.view) } ⟨⟨put_inv _ h1.1, h1.2⟩, h2, hv, h2'⟩ with ⟨a, s', h3, w, h4, h5⟩ | h3
    · exact Or.inl ⟨a, s', h3, w, .act _ _ _ _ h4, h5⟩
    · exact Or.inr h3
  | eval next _ ih =>
    intro v
    refine (closure_at e v oc).bind fun x => ?_
    intro s hs
    rcases ih x _ s hs.2 with ⟨a, s', h3, w, h4, h5⟩ | h3
    · exact Or.inl ⟨a, s', h3, w, .eval _ _ _ _ hs.1 h4, h5⟩
    · exact Or.inr h3

theorem stepC_at (hT : InPlace T) (e : Bool) (v : OptView O) (oc : OCState) : Holds false (FitAt M0 D false Z e D.impSamp gen v oc)
    (stepC (preEnv ext T args D M0 cfg mi))
    (fun _ s => ∃ w, PreUpdate ext T args D M0 gen Z e v w ∧ FitAt M0 D false Z e D.impSamp gen w oc s) := by
  unfold stepC
  refine (Holds.read (Q := fun p s => p = (T.prog v).lift ∧ FitAt M0 D false Z e D.impSamp gen v oc s) fun s hs => ⟨?_, hs⟩).bind fun p => ?_
  · show (T.prog s.w.view).lift = _
    rw [hs.2.2.1]
  refine Holds.bind (R := fun _ s => ∃ w, PreUpdate ext T args D M0 gen Z e v w ∧ FitAt M0 D false Z e D.impSamp gen w oc s) ?_
    fun _ => Holds.modify fun s hs => hs
  rintro s ⟨rfl, hs⟩
  exact runProg_at e oc (hT.prog v) v s hs

theorem repeatM_at (hT : InPlace T) (e : Bool) (oc : OCState) (n : ℕ) : ∀ v : OptView O, Holds false (FitAt M0 D false Z e D.impSamp gen v oc)
    (repeatM (stepC (preEnv ext T args D M0 cfg mi)) n)
    (fun _ s => ∃ w, Iterated (PreUpdate ext T args D M0 gen Z e) n v w ∧ FitAt M0 D false Z e D.impSamp gen w oc s) := by
  induction n with
  | zero => exact fun v => Holds.pure fun s hs => ⟨v, .zero v, hs⟩
  | succ n ih =>
    intro v
    refine (stepC_at hT e v oc).bind fun _ => ?_
    rintro s ⟨w, h1, h2⟩
    rcases ih w s h2 with ⟨a, s', h3, u, h4, h5⟩ | h3
    · exact Or.inl ⟨a, s', h3, u, .succ _ _ _ _ h1 h4, h5⟩
    · exact Or.inr h3

theorem preEval_at (v : OptView O) (oc : OCState) : Holds false (FitAt M0 D false Z false D.impSamp gen v oc) (preEval (preEnv ext T args D M0 cfg mi))
    (fun x s => ∃ q u, q.item = .ok x ∧ FitAt M0 D false Z false D.impSamp gen u oc s ∧ if cfg.metric = "grad".toList then
      computeDual ext (lossFor args D M0 false v) (args M0).xi (args M0).xi_labels Z.1 Z.2 = .ok q ∧
        u = withGrad T v ⟨lossFor args D M0 false v, gen, some Z⟩
    else
      computeDual ext { lossFor args D M0 false v with impSamp := false } (args M0).xi (args M0).xi_labels Z.1 Z.2 = .ok q ∧
        u = { v with pgrad := none, lgrad := none }) := by
  unfold preEval
  refine (Holds.read (Q := fun is s => is = D.impSamp ∧ FitAt M0 D false Z false D.impSamp gen v oc s) fun s hs => ⟨hs.1.2.2, hs⟩).bind fun is => ?_
  by_cases his : is = D.impSamp
  swap
  · exact fun s hs => absurd hs.1 his
  have hgm : (preEnv ext T args D M0 cfg mi).gradMetric = decide (cfg.metric = "grad".toList) := rfl
  by_cases hg : cfg.metric = "grad".toList
  · rw [hgm, if_pos (decide_eq_true hg)]
    refine ((closure_at false v oc).weaken (fun s hs => hs.2) fun _ _ hs => hs).bind fun x => ?_
    refine (Holds.modify (Q := fun _ s => (∃ q, computeDual ext (lossFor args D M0 false v) (args M0).xi (args M0).xi_labels Z.1 Z.2 = .ok q ∧
      q.item = .ok x) ∧ FitAt M0 D false Z false D.impSamp gen (withGrad T v ⟨lossFor args D M0 false v, gen, some Z⟩) oc s) fun s hs => ?_).bind
      fun _ => Holds.pure fun s hs => ?_
    · exact ⟨hs.1, ⟨hs.2.1.1, hs.2.1.2.1, his⟩, hs.2.2⟩
    · obtain ⟨⟨q, h1, h2⟩, h3⟩ := hs
      exact ⟨q, _, h2, h3, by rw [if_pos hg]; exact ⟨h1, rfl⟩⟩
  · rw [hgm, if_neg (by rw [decide_eq_true_eq]; exact hg)]
    refine (Holds.modify (Q := fun _ s => FitAt M0 D false Z false false gen v oc s) fun s hs => ⟨⟨hs.2.1.1, hs.2.1.2.1, rfl⟩, hs.2.2⟩).bind fun _ => ?_
    refine (closureEval_at v oc).bind fun x => ?_
    refine (Holds.modify (Q := fun _ s => (∃ q, computeDual ext { lossFor args D M0 false v with impSamp := false } (args M0).xi (args M0).xi_labels
      Z.1 Z.2 = .ok q ∧ q.item = .ok x) ∧ FitAt M0 D false Z false D.impSamp gen (noGrad v) oc s) fun s hs => ?_).bind
      fun _ => Holds.pure fun s hs => ?_
    · exact ⟨hs.1, ⟨hs.2.1.1, hs.2.1.2.1, his⟩, hs.2.2⟩
    · obtain ⟨⟨q, h1, h2⟩, h3⟩ := hs
      exact ⟨q, _, h2, h3, by rw [if_neg hg]; exact ⟨h1, rfl⟩⟩

/-- the end of an iteration -/
theorem finish_at {post e i : Bool} (v : OptView O) (oc : OCState) (k : ℕ) (L : List (XNum ℝ)) (x : XNum ℝ) :
    Holds false (FitAt M0 D post Z e i gen v oc) (finish (fitEnv ext T args D (args M0).xi (args M0).xi_labels post cfg mi) k L x)
      (fun r s => r.1 = L ++ [x] ∧ ∃ oc', Verdict cfg mi k x v oc oc' r.2 ∧ FitAt M0 D post Z e i gen v oc' s) := by
  unfold finish
  refine (Holds.emit (Q := fun _ s => FitAt M0 D post Z e i gen v oc s) fun s hs => hs).bind fun _ => ?_
  by_cases hx : x = .nan
  · subst hx
    rw [if_pos (show (XNum.nan : XNum ℝ).isNan = true from rfl)]
    exact Holds.pure fun s hs => ⟨rfl, oc, by simp [Verdict], hs⟩
  · have : x.isNan = false := by cases x <;> first | rfl | exact absurd rfl hx
    rw [this, if_neg (by simp)]
    refine (Holds.call (Q := fun b s => ∃ oc', Verdict cfg mi k x v oc oc' b ∧ FitAt M0 D post Z e i gen v oc' s) fun s hs => ?_).bind fun b =>
      (Holds.emit (Q := fun _ s => ∃ oc', Verdict cfg mi k x v oc oc' b ∧ FitAt M0 D post Z e i gen v oc' s) fun s hs => hs).bind fun _ =>
        Holds.pure fun s hs => ⟨rfl, hs⟩
    obtain ⟨h1, h2, rfl, rfl⟩ := hs
    simp only [fitEnv]
    cases hv : (ocCall cfg s.w.oc ⟨0, fun _ => s.w.lam, s.w.lgrad, [(s.w.mod.theta, s.w.pgrad)], mi⟩ k).1 with
    | error er => exact Or.inr ⟨rfl, er, rfl⟩
    | ok b =>
      refine Or.inl ⟨b, rfl, _, ?_, ⟨h1, h2, rfl, rfl⟩⟩
      unfold Verdict
      rw [if_neg hx]
      exact Prod.ext hv rfl

theorem preBody_at (hT : InPlace T) (v : OptView O) (oc : OCState) (k : ℕ) (L : List (XNum ℝ)) :
    Holds false (FitAt M0 D false Z false D.impSamp gen v oc) (preBody (preEnv ext T args D M0 cfg mi) k L)
      (fun r s => ∃ x u oc', r.1 = L ++ [x] ∧ PreIter ext T cfg mi args D M0 gen Z k (v, oc) (u, oc') x r.2 ∧
        FitAt M0 D false Z false D.impSamp gen u oc' s) := by
  unfold preBody
  refine (stepC_at hT false v oc).bind fun _ => ?_
  rintro s ⟨w, h1, h2⟩
  have h3 := (preEval_at (T := T) (cfg := cfg) (mi := mi) w oc).bind (f := fun x => finish (preEnv ext T args D M0 cfg mi) k L x)
    (Q := fun r s => ∃ x u oc', r.1 = L ++ [x] ∧ PreIter ext T cfg mi args D M0 gen Z k (v, oc) (u, oc') x r.2 ∧
        FitAt M0 D false Z false D.impSamp gen u oc' s) fun x => by
      rintro s ⟨q, u, h3, h4, h5⟩
      rcases finish_at (args := args) (cfg := cfg) (mi := mi) (ext := ext) (T := T) u oc k L x s h4 with ⟨r, s', h6, h7, oc', h8, h9⟩ | h6
      · exact Or.inl ⟨r, s', h6, x, u, oc', h7, ⟨w, q, h1, h3, h8, h5⟩, h9⟩
      · exact Or.inr h6
  exact h3 s h2

/-- the loop -/
theorem trainLoop_trained {W σ : Type} {body : ℕ → List (XNum ℝ) → M W (List (XNum ℝ) × Bool)} {P : σ → St W → Prop}
    {Iter : ℕ → σ → σ → XNum ℝ → Bool → Prop}
    (h : ∀ a k L, Holds false (P a) (body k L) (fun r s => ∃ x b, r.1 = L ++ [x] ∧ Iter k a b x r.2 ∧ P b s)) (n m : ℕ) :
    ∀ k a L, 0 < m → k + m = n → Holds false (P a) (trainLoop body (List.range' k m) L)
      (fun L' s => ∃ x b, L'.getLast? = some x ∧ Trained Iter n k a b x ∧ P b s) := by
  induction m with
  | zero => exact fun k a L hm => absurd hm (by simp)
  | succ m ih =>
    intro k a L _ hkn
    rw [List.range'_succ]
    refine (h a k L).bind fun ⟨L', b⟩ => ?_
    cases b
    · rintro s ⟨x, c, h1, h2, h3⟩
      simp only at h1 h2
      rcases Nat.eq_zero_or_pos m with rfl | hm
      · exact Or.inl ⟨L', s, rfl, x, c, by simp [h1], .last k a c x false (by omega) (Or.inr (by omega)) h2, h3⟩
      · rcases ih (k + 1) c L' hm (by omega) s h3 with ⟨L2, s', h4, y, e, h5, h6, h7⟩ | h4
        · exact Or.inl ⟨L2, s', h4, y, e, h5, .next k a c e x y (by omega) h2 h6, h7⟩
        · exact Or.inr h4
    · rintro s ⟨x, c, h1, h2, h3⟩
      simp only at h1 h2
      exact Or.inl ⟨L', s, rfl, x, c, by simp [h1], .last k a c x true (by omega) (Or.inl rfl) h2, h3⟩

theorem guess_at (post e : Bool) (v : OptView O) (oc : OCState) : Holds false (FitAt M0 D post Z e D.impSamp gen v oc)
    (guessDual (fitEnv ext T args D (args M0).xi (args M0).xi_labels post cfg mi))
    (fun _ s => ∃ w, DualGuessed args D M0 v w ∧ FitAt M0 D post Z e D.impSamp gen w oc s) := by
  rintro s ⟨h, rfl, rfl, rfl⟩
  have hd : initialGuess (s.w.dual args D false false) (args M0).xi (args M0).xi_labels =
      (initialGuess (lossFor args D M0 false s.w.view) (args M0).xi (args M0).xi_labels).map fun D' => { D' with impSamp := false } := by
    rw [dual_eq h.1 false false]
    unfold initialGuess
    simp only [lossFor]
    cases D.rho with
    | nan => rfl
    | num r =>
      dsimp only
      split
      · cases D.cost.value _ _ _ _ <;> rfl
      · rfl
  unfold guessDual
  simp only [M.bind_def, M.call, M.emit, M.modify, fitEnv, hd]
  cases hi : initialGuess (lossFor args D M0 false s.w.view) (args M0).xi (args M0).xi_labels with
  | error er => exact Or.inr ⟨trivial, er, _, rfl⟩
  | ok D' => exact Or.inl ⟨(), _, rfl, _, ⟨D', hi, rfl⟩, h, rfl, rfl, rfl⟩

theorem reset_at (hT : InPlace T) (v : OptView O) (oc : OCState) : Holds false (FitAt M0 D false Z false D.impSamp gen v oc)
    (resetOpt (preEnv ext T args D M0 cfg mi)) (fun _ s => ∃ w, LbdReset T v w ∧ FitAt M0 D false Z false D.impSamp gen w oc s) := by
  unfold resetOpt
  have hrl : (preEnv ext T args D M0 cfg mi).resetLbd = T.resetLbd.map fun f b =>
    match f b.view with
    | .error e => (.error e, b)
    | .ok v => (.ok (), b.put v) := rfl
  cases hr : T.resetLbd with
  | none =>
    have : (preEnv ext T args D M0 cfg mi).resetLbd = none := by rw [hrl, hr]; rfl
    rw [this]
    exact Holds.pure fun s hs => ⟨v, by unfold LbdReset; rw [hr], hs⟩
  | some f =>
    rw [hr, Option.map_some] at hrl
    rw [hrl]
    refine (Holds.call (Q := fun _ s => ∃ w, LbdReset T v w ∧ FitAt M0 D false Z false D.impSamp gen w oc s) ?_).bind fun _ => Holds.modify fun s hs => hs
    rintro s ⟨h1, h2, rfl, h3⟩
    cases hf : f s.w.view with
    | error e => exact Or.inr ⟨rfl, e, by simp only [hf]⟩
    | ok w =>
      refine Or.inl ⟨(), by simp only [hf], w, ?_, ?_⟩
      · unfold LbdReset
        rw [hr]
        exact hf
      · simp only [hf]
        exact ⟨⟨put_inv _ h1.1, h1.2⟩, h2, view_put (hT.reset f hr _ _ hf), h3⟩

/-! ## Post-sampled training -/

/-- the environment of a post-sampled fit -/
noncomputable abbrev postEnv (ext : TorchExt G) (T : Torch G O) (args : Module d → DualizeArgs) (D : DualLoss) (M0 : Module d) (cfg : OCConfig) (mi : ℤ) :
    Env (Box d G O) := fitEnv ext T args D (args M0).xi (args M0).xi_labels true cfg mi

theorem postForward_keeps_sampler {D' D'' : DualLoss} {xi : Tensor ℝ} {y : Option (Tensor ℝ)} {g g' : G} {q : DualVal}
    (h : postForward ext D' xi y false g = .ok (q, D'', g')) : D''.sampler = D'.sampler := by
  unfold postForward at h
  cases hs : D'.sampler with
  | none => rw [hs] at h; cases h
  | some s =>
    rw [hs] at h
    simp only [Bool.false_eq_true, if_false, ok_bind] at h
    have fin : ∀ {a : Except PyErr DualVal} {E : DualLoss} {g1 : G}, E.sampler = some s →
        (a >>= fun v => (.ok (v, E, g1) : Except PyErr (DualVal × DualLoss × G))) = .ok (q, D'', g') → D''.sampler = some s := by
      intro a E g1 hE h
      cases a with
      | error e => cases h
      | ok v => cases h; exact hE
    cases hr : D'.rho with
    | nan =>
      simp only [hr] at h
      exact fin rfl h
    | num r =>
      simp only [hr] at h
      split at h
      · cases h
      · split at h
        · cases hp : D'.primal xi.unsqueeze0 (maybeUnsqueeze y) with
          | error e => rw [hp] at h; cases h
          | ok t =>
            rw [hp, ok_bind] at h
            cases hl : reduceLossBatch D'.reduction t.squeeze0 with
            | error e => rw [hl] at h; cases h
            | ok l => rw [hl, ok_bind] at h; cases h; rfl
        · exact fin rfl h

theorem postStep_at (hT : InPlace T) (hst : Steady ext D (args M0).xi (args M0).xi_labels) (gen : G) (v : OptView O) (oc : OCState) :
    Holds false (FitAt M0 D true Z false D.impSamp gen v oc) (postStep (postEnv ext T args D M0 cfg mi))
      (fun x s => ∃ b, PostUpdate ext T args D M0 x (v, gen) b ∧ FitAt M0 D true Z false D.impSamp b.2 b.1 oc s) := by
  rintro s ⟨⟨h1, h2, h3⟩, rfl, rfl, rfl⟩
  have hd := dual_eq (args := args) h1 false D.impSamp
  unfold postStep
  simp only [M.bind_def, M.modify, fwd, M.read, M.call, M.emit, M.pure_def, h2, h3]
  have e1 : (postEnv ext T args D M0 cfg mi).forward false D.impSamp s.training ((postEnv ext T args D M0 cfg mi).zeroGrad s.w) =
      match postForward ext (lossFor args D M0 false s.w.view) (args M0).xi (args M0).xi_labels true s.w.gen with
      | .error e => (.error e, { s.w with pgrad := none, lgrad := none })
      | .ok (q, D', g) => (q.item, { s.w with
          pgrad := none, lgrad := none, sampler := D'.sampler, gen := g,
          tape := some ⟨lossFor args D M0 false s.w.view, D.seeded ext s.w.gen, none⟩ }) := by
    have hd' : ((postEnv ext T args D M0 cfg mi).zeroGrad s.w).dual args D false D.impSamp = lossFor args D M0 false s.w.view := hd
    simp only [postEnv, fitEnv, if_true] at hd' ⊢
    rw [hd']
    rfl
  rw [e1]
  cases hq : postForward ext (lossFor args D M0 false s.w.view) (args M0).xi (args M0).xi_labels true s.w.gen with
  | error er => exact Or.inr ⟨trivial, _, _, rfl⟩
  | ok r =>
    obtain ⟨q, D', g⟩ := r
    dsimp only
    cases hi : q.item with
    | error er => exact Or.inr ⟨trivial, _, _, rfl⟩
    | ok x =>
      have h4 : D'.sampler = D.sampler := by
        rw [postForward_steady (D := lossFor args D M0 false s.w.view) hst] at hq
        have h := postForward_keeps_sampler hq
        exact h
      have e2 : (postEnv ext T args D M0 cfg mi).backward { s.w with
          pgrad := none, lgrad := none, sampler := D'.sampler, gen := g,
          tape := some ⟨lossFor args D M0 false s.w.view, D.seeded ext s.w.gen, none⟩ } = (.ok (), { s.w with
            pgrad := (T.backward ⟨lossFor args D M0 false s.w.view, D.seeded ext s.w.gen, none⟩).1, lgrad := (T.backward ⟨lossFor args D M0 false s.w.view, D.seeded ext s.w.gen, none⟩).2,
            sampler := D'.sampler, gen := g, tape := none }) := rfl
      dsimp only
      rw [e2]
      dsimp only
      have e3 : ∀ b : Box d G O, (postEnv ext T args D M0 cfg mi).step b = match T.step b.view with
        | .error e => (.error e, b)
        | .ok v => (.ok (), b.put v) := fun _ => rfl
      rw [e3]
      have e4 : ({ s.w with
            pgrad := (T.backward ⟨lossFor args D M0 false s.w.view, D.seeded ext s.w.gen, none⟩).1, lgrad := (T.backward ⟨lossFor args D M0 false s.w.view, D.seeded ext s.w.gen, none⟩).2,
            sampler := D'.sampler, gen := g, tape := none } : Box d G O).view =
          withGrad T s.w.view ⟨lossFor args D M0 false s.w.view, D.seeded ext s.w.gen, none⟩ := rfl
      rw [e4]
      cases hst : T.step (withGrad T s.w.view ⟨lossFor args D M0 false s.w.view, D.seeded ext s.w.gen, none⟩) with
      | error er => exact Or.inr ⟨trivial, _, _, rfl⟩
      | ok u =>
        refine Or.inl ⟨x, _, rfl, (u, g), ⟨q, D', hq, hi, hst⟩, ⟨put_inv _ ⟨h1.1, h4, fun h => by cases h⟩, rfl, rfl⟩, rfl, ?_, rfl⟩
        exact view_put (hT.step _ _ hst)

theorem postPretrain_at (hT : InPlace T) (hst : Steady ext D (args M0).xi (args M0).xi_labels) (oc : OCState) (n : ℕ) :
    ∀ (a : OptView O × G) (L : List (XNum ℝ)), Holds false (FitAt M0 D true Z false D.impSamp a.2 a.1 oc)
      (postPretrain (postEnv ext T args D M0 cfg mi) n L)
      (fun _ s => ∃ b, Iterated (fun a b => ∃ x, PostUpdate ext T args D M0 x a b) n a b ∧ FitAt M0 D true Z false D.impSamp b.2 b.1 oc s) := by
  induction n with
  | zero => exact fun a L => Holds.pure fun s hs => ⟨a, .zero a, hs⟩
  | succ n ih =>
    intro a L
    refine (postStep_at hT hst a.2 a.1 oc).bind fun x => ?_
    refine (Holds.emit (Q := fun _ s => ∃ b, PostUpdate ext T args D M0 x a b ∧ FitAt M0 D true Z false D.impSamp b.2 b.1 oc s) fun s hs => hs).bind fun _ => ?_
    rintro s ⟨b, h1, h2⟩
    rcases ih b (L ++ [x]) s h2 with ⟨y, s', h3, c, h4, h5⟩ | h3
    · exact Or.inl ⟨y, s', h3, c, .succ _ _ _ _ ⟨x, h1⟩ h4, h5⟩
    · exact Or.inr h3

theorem postBody_at (hT : InPlace T) (hst : Steady ext D (args M0).xi (args M0).xi_labels) (a : (OptView O × G) × OCState) (k : ℕ)
    (L : List (XNum ℝ)) : Holds false (FitAt M0 D true Z false D.impSamp a.1.2 a.1.1 a.2) (postBody (postEnv ext T args D M0 cfg mi) k L)
      (fun r s => ∃ x b, r.1 = L ++ [x] ∧ PostIter ext T cfg mi args D M0 k a b x r.2 ∧ FitAt M0 D true Z false D.impSamp b.1.2 b.1.1 b.2 s) := by
  unfold postBody
  refine (postStep_at hT hst a.1.2 a.1.1 a.2).bind fun x => ?_
  rintro s ⟨b, h1, h2⟩
  rcases finish_at (args := args) (cfg := cfg) (mi := mi) (ext := ext) (T := T) b.1 a.2 k L x s h2 with ⟨r, s', h3, h4, oc', h5, h6⟩ | h3
  · exact Or.inl ⟨r, s', h3, x, (b, oc'), h4, ⟨h1, h5⟩, h6⟩
  · exact Or.inr h3

/-! ## Whole fits -/

theorem optimPre_at (hT : InPlace T) {p n : ℤ} (hn : 0 < n) {s0 : Sampler} {g : G} (hs : D.sampler = some s0) (v0 : OptView O) (oc : OCState)
    (hZ : Z = ((s0.sample ext D.nSamples g).1, (s0.sample ext D.nSamples g).2.1)) (hgen : gen = (s0.sample ext D.nSamples g).2.2) :
    Holds false (fun s => s.imp = D.impSamp ∧ SameShape M0 s.w.mod ∧ s.w.sampler = D.sampler ∧ s.w.gen = g ∧ s.w.view = v0 ∧ s.w.oc = oc)
      (optimPre (preEnv ext T args D M0 cfg mi) p n) (fun L s => EndsWith (fun x => ∃ v1 v2 v3 v4 oc',
        Iterated (PreUpdate ext T args D M0 gen Z true) p.toNat v0 v1 ∧ DualGuessed args D M0 v1 v2 ∧ LbdReset T v2 v3 ∧
        Trained (PreIter ext T cfg mi args D M0 gen Z) n.toNat 0 (v3, oc) (v4, oc') x ∧ FitAt M0 D false Z false D.impSamp gen v4 oc' s) L) := by
  unfold optimPre
  refine (Holds.call (Q := fun _ s => s.imp = D.impSamp ∧ FitInv M0 D false Z s.w ∧ s.w.gen = gen ∧ s.w.view = v0 ∧ s.w.oc = oc) ?_).bind fun _ => ?_
  · rintro s ⟨h1, h2, h3, rfl, h5, h6⟩
    have h7 : s.w.sampler = some s0 := h3.trans hs
    simp only [fitEnv, h7]
    exact Or.inl ⟨(), rfl, h1, ⟨h2, by rw [hs], fun _ => by rw [hZ]⟩, hgen.symm, h5, h6⟩
  refine (Holds.modify (Q := fun _ s => FitAt M0 D false Z true D.impSamp gen v0 oc s) fun s hs => ⟨⟨hs.2.1, rfl, hs.1⟩, hs.2.2⟩).bind fun _ => ?_
  refine (repeatM_at hT true oc p.toNat v0).bind fun _ => ?_
  refine Holds.bind (R := fun _ s => ∃ v1 v2, Iterated (PreUpdate ext T args D M0 gen Z true) p.toNat v0 v1 ∧ DualGuessed args D M0 v1 v2 ∧
    FitAt M0 D false Z true D.impSamp gen v2 oc s) ?_ fun _ => ?_
  · rintro s ⟨v1, h1, h2⟩
    rcases guess_at (ext := ext) (T := T) (cfg := cfg) (mi := mi) false true v1 oc s h2 with ⟨a, s', h3, v2, h4, h5⟩ | h3
    · exact Or.inl ⟨a, s', h3, v1, v2, h1, h4, h5⟩
    · exact Or.inr h3
  refine (Holds.modify (Q := fun _ s => ∃ v1 v2, Iterated (PreUpdate ext T args D M0 gen Z true) p.toNat v0 v1 ∧ DualGuessed args D M0 v1 v2 ∧
    FitAt M0 D false Z false D.impSamp gen v2 oc s) ?_).bind fun _ => ?_
  · rintro s ⟨v1, v2, h1, h2, h3⟩
    exact ⟨v1, v2, h1, h2, ⟨h3.1.1, rfl, h3.1.2.2⟩, h3.2⟩
  refine Holds.bind (R := fun _ s => ∃ v1 v2 v3, Iterated (PreUpdate ext T args D M0 gen Z true) p.toNat v0 v1 ∧ DualGuessed args D M0 v1 v2 ∧
    LbdReset T v2 v3 ∧ FitAt M0 D false Z false D.impSamp gen v3 oc s) ?_ fun _ => ?_
  · rintro s ⟨v1, v2, h1, h2, h3⟩
    rcases reset_at (ext := ext) (args := args) (cfg := cfg) (mi := mi) hT v2 oc s h3 with ⟨a, s', h4, v3, h5, h6⟩ | h4
    · exact Or.inl ⟨a, s', h4, v1, v2, v3, h1, h2, h5, h6⟩
    · exact Or.inr h4
  rintro s ⟨v1, v2, v3, h1, h2, h3, h4⟩
  have hl := trainLoop_trained (P := fun (a : OptView O × OCState) s => FitAt M0 D false Z false D.impSamp gen a.1 a.2 s)
    (Iter := PreIter ext T cfg mi args D M0 gen Z) (body := preBody (preEnv ext T args D M0 cfg mi)) (fun a k L => by
      refine (preBody_at hT a.1 a.2 k L).weaken (fun _ hs => hs) fun r s hs => ?_
      obtain ⟨x, u, oc', h5, h6, h7⟩ := hs
      exact ⟨x, (u, oc'), h5, h6, h7⟩) n.toNat n.toNat 0 (v3, oc) [] (by omega) (by omega)
  rw [List.range_eq_range']
  rcases hl s h4 with ⟨L, s', h5, x, b, h6, h7, h8⟩ | h5
  · exact Or.inl ⟨L, s', h5, x, h6, v1, v2, v3, b.1, b.2, h1, h2, h3, h7, h8⟩
  · exact Or.inr h5

theorem optimPost_at (hT : InPlace T) (hst : Steady ext D (args M0).xi (args M0).xi_labels) {p n : ℤ} (hn : 0 < n) (v0 : OptView O) (oc : OCState) :
    Holds false (fun s => s.imp = D.impSamp ∧ FitInv M0 D true Z s.w ∧ s.w.gen = gen ∧ s.w.view = v0 ∧ s.w.oc = oc)
      (optimPost (postEnv ext T args D M0 cfg mi) p n) (fun L s => EndsWith (fun x => ∃ v1 g1 v2 v3 g3 oc',
        Iterated (fun a b => ∃ x, PostUpdate ext T args D M0 x a b) p.toNat (v0, gen) (v1, g1) ∧ DualGuessed args D M0 v1 v2 ∧
        Trained (PostIter ext T cfg mi args D M0) n.toNat 0 ((v2, g1), oc) ((v3, g3), oc') x ∧ FitAt M0 D true Z false D.impSamp g3 v3 oc' s) L) := by
  unfold optimPost
  refine (Holds.modify (Q := fun _ s => FitAt M0 D true Z false D.impSamp gen v0 oc s) fun s hs => ⟨⟨hs.2.1, rfl, hs.1⟩, hs.2.2⟩).bind fun _ => ?_
  refine (postPretrain_at hT hst oc p.toNat (v0, gen) []).bind fun L => ?_
  refine Holds.bind (R := fun _ s => ∃ v1 g1 v2, Iterated (fun a b => ∃ x, PostUpdate ext T args D M0 x a b) p.toNat (v0, gen) (v1, g1) ∧
    DualGuessed args D M0 v1 v2 ∧ FitAt M0 D true Z false D.impSamp g1 v2 oc s) ?_ fun _ => ?_
  · rintro s ⟨b, h1, h2⟩
    rcases guess_at (ext := ext) (T := T) (cfg := cfg) (mi := mi) true false b.1 oc s h2 with ⟨a, s', h3, v2, h4, h5⟩ | h3
    · exact Or.inl ⟨a, s', h3, b.1, b.2, v2, h1, h4, h5⟩
    · exact Or.inr h3
  refine (Holds.read (Q := fun e s => e = false ∧ ∃ v1 g1 v2, Iterated (fun a b => ∃ x, PostUpdate ext T args D M0 x a b) p.toNat (v0, gen) (v1, g1) ∧
    DualGuessed args D M0 v1 v2 ∧ FitAt M0 D true Z false D.impSamp g1 v2 oc s) ?_).bind fun e => ?_
  · rintro s ⟨v1, g1, v2, h1, h2, h3⟩
    exact ⟨h3.1.2.1, v1, g1, v2, h1, h2, h3⟩
  by_cases he : e = false
  swap
  · exact fun s hs => absurd hs.1 he
  subst he
  simp only [Bool.and_false, Bool.false_eq_true, if_false]
  refine (Holds.modify (Q := fun _ s => ∃ v1 g1 v2, Iterated (fun a b => ∃ x, PostUpdate ext T args D M0 x a b) p.toNat (v0, gen) (v1, g1) ∧
    DualGuessed args D M0 v1 v2 ∧ FitAt M0 D true Z false D.impSamp g1 v2 oc s) ?_).bind fun _ => ?_
  · rintro s ⟨-, v1, g1, v2, h1, h2, h3⟩
    exact ⟨v1, g1, v2, h1, h2, ⟨h3.1.1, rfl, h3.1.2.2⟩, h3.2⟩
  rintro s ⟨v1, g1, v2, h1, h2, h4⟩
  have hl := trainLoop_trained (P := fun (a : (OptView O × G) × OCState) s => FitAt M0 D true Z false D.impSamp a.1.2 a.1.1 a.2 s)
    (Iter := PostIter ext T cfg mi args D M0) (body := postBody (postEnv ext T args D M0 cfg mi)) (fun a k L => postBody_at hT hst a k L)
    n.toNat n.toNat 0 ((v2, g1), oc) L (by omega) (by omega)
  rw [List.range_eq_range']
  rcases hl s h4 with ⟨L', s', h5, x, b, h6, h7, h8⟩ | h5
  · exact Or.inl ⟨L', s', h5, x, h6, v1, g1, v2, b.1.1, b.1.2, b.2, h1, h2, h7, h8⟩
  · exact Or.inr h5

/-- **C101** Whatever the problem, the optimizer (updating parameters in place), the schedule and the optimality condition, a pre-sampled training that
returns is the documented algorithm.  From the initial parameters and multiplier: the pre-training steps, on the loss without robustness; the initial
guess of the multiplier at the module reached; the reset of the optimizer's state for the multiplier, if it has one; then steps on the robust loss,
each followed by the verdict of the condition, until it says stop, the loss is NaN or the iterations are over.  All evaluations are at the present
parameters and multiplier, on the samples drawn once at the start.  The result is read at the end of the last iteration (the field `intercept` is
always `0`: it does not contain the trained bias). -/
theorem C101_presampled (hT : InPlace T) {g g' : G} (hD : dualize ext (args M0) g = .ok (D, g')) {s0 : Sampler} (hs : D.sampler = some s0)
    (hpost : (args M0).post_sample = false) {steps : ℤ ⊕ (ℤ × ℤ)} {p q : ℤ} (hi : interpretSteps fl split03 (toSteps steps) = .ok (p, q))
    {n : ℕ} (hn : (toSteps steps).iterations = n) (hn0 : 0 < n) (oc : OCState) {M : Module d} {r : Solved (List ℝ)}
    (h : solveTorch ext T cfg fl args M0 steps oc g = .ok (M, r)) :
    ∃ Z gen v1 v2 v3 v4 oc', s0.sample ext D.nSamples g' = (Z.1, Z.2, gen) ∧
      Iterated (PreUpdate ext T args D M0 gen Z true) p.toNat ⟨M0.theta, D.lam, none, none, T.o0⟩ v1 ∧ DualGuessed args D M0 v1 v2 ∧
      LbdReset T v2 v3 ∧ Trained (PreIter ext T cfg n args D M0 gen Z) n 0 (v3, oc) (v4, oc') r.robust_loss ∧
      r.coef = v4.params ∧ r.dual_var = (if (args M0).rho.isPos then v4.lam else 0) ∧ M = M0.withParams v4.params ∧ r.intercept = some [0] := by
  have key := solveDual_holds (out := fitReadout (d := d) (G := G) (O := O)) (presample := true)
    (rhoPos := (args M0).rho.isPos) (P := fun st => st = startState T M0 D g' oc) (ok := false) hi
    (env := preEnv ext T args D M0 cfg (toSteps steps).iterations)
    (h := by
      simp only [if_true]
      refine (optimPre_at (mi := (toSteps steps).iterations) (ext := ext) (T := T) (args := args) (cfg := cfg) (M0 := M0) hT (p := p)
        (n := (toSteps steps).iterations) (by omega) (g := g') hs ⟨M0.theta, D.lam, none, none, T.o0⟩ oc rfl rfl).weaken ?_ fun _ _ hs => hs
      rintro st rfl
      exact ⟨rfl, sameShape_refl M0, rfl, rfl, rfl, rfl⟩)
  unfold solveTorch at h
  rw [hD] at h
  simp only [ok_bind] at h
  have er : solveRun ext T cfg fl args D M0 steps oc g' = solveDual (preEnv ext T args D M0 cfg (toSteps steps).iterations) fitReadout true
      (args M0).rho.isPos fl (toSteps steps) (startState T M0 D g' oc) := by
    simp only [solveRun, hpost]
    rfl
  rw [er] at h
  rcases key _ rfl with ⟨r', st, h1, h2, h3, h4, v1, v2, v3, v4, oc', h5, h6, h7, h8, h9⟩ | ⟨-, e, st, h1⟩
  · rw [h1] at h
    simp only [Except.ok.injEq, Prod.mk.injEq] at h
    obtain ⟨rfl, rfl⟩ := h
    have h10 : st.w.view = v4 := h9.2.2.1
    rw [hn, Int.toNat_natCast] at h8
    refine ⟨_, _, v1, v2, v3, v4, oc', rfl, h5, h6, h7, h8, ?_, ?_, ?_, h3⟩
    · rw [h2, ← h10]; rfl
    · rw [h4, ← h10]; rfl
    · rw [← h10]
      exact (withParams_of_sameShape h9.1.1.1).symm
  · rw [h1] at h
    cases h

/-- **C101** The same for post-sampled training, except that each step resets the sampler and draws its own samples (the same ones at all steps if the
sampler has a seed, C126), that the pre-training steps are already on the robust loss, and that the optimizer's state for the multiplier is not reset.  (The loss reported is the one before the last step.) -/
theorem C101_postsampled (hT : InPlace T) {g g' : G} (hD : dualize ext (args M0) g = .ok (D, g')) (hpost : (args M0).post_sample = true)
    {steps : ℤ ⊕ (ℤ × ℤ)} {p q : ℤ} (hi : interpretSteps fl split03 (toSteps steps) = .ok (p, q))
    {n : ℕ} (hn : (toSteps steps).iterations = n) (hn0 : 0 < n) (oc : OCState) {M : Module d} {r : Solved (List ℝ)}
    (h : solveTorch ext T cfg fl args M0 steps oc g = .ok (M, r)) :
    ∃ v1 g1 v2 v3 g3 oc', Iterated (fun a b => ∃ x, PostUpdate ext T args D M0 x a b) p.toNat (⟨M0.theta, D.lam, none, none, T.o0⟩, g') (v1, g1) ∧
      DualGuessed args D M0 v1 v2 ∧ Trained (PostIter ext T cfg n args D M0) n 0 ((v2, g1), oc) ((v3, g3), oc') r.robust_loss ∧
      r.coef = v3.params ∧ r.dual_var = (if (args M0).rho.isPos then v3.lam else 0) ∧ M = M0.withParams v3.params ∧ r.intercept = some [0] := by
  have key := solveDual_holds (out := fitReadout (d := d) (G := G) (O := O)) (presample := false)
    (rhoPos := (args M0).rho.isPos) (P := fun st => st = startState T M0 D g' oc) (ok := false) hi
    (env := postEnv ext T args D M0 cfg (toSteps steps).iterations)
    (h := by
      simp only [Bool.false_eq_true, if_false]
      refine (optimPost_at (mi := (toSteps steps).iterations) (ext := ext) (T := T) (args := args) (cfg := cfg) (M0 := M0) (D := D) (gen := g')
        (Z := (scalar 0, none)) hT (dualize_steady hD) (p := p) (n := (toSteps steps).iterations) (by omega) ⟨M0.theta, D.lam, none, none, T.o0⟩ oc).weaken ?_ fun _ _ hs => hs
      rintro st rfl
      exact ⟨rfl, ⟨sameShape_refl M0, rfl, fun h => by cases h⟩, rfl, rfl, rfl⟩)
  unfold solveTorch at h
  rw [hD] at h
  simp only [ok_bind] at h
  have er : solveRun ext T cfg fl args D M0 steps oc g' = solveDual (postEnv ext T args D M0 cfg (toSteps steps).iterations) fitReadout false
      (args M0).rho.isPos fl (toSteps steps) (startState T M0 D g' oc) := by
    simp only [solveRun, hpost]
    rfl
  rw [er] at h
  rcases key _ rfl with ⟨r', st, h1, h2, h3, h4, v1, g1, v2, v3, g3, oc', h5, h6, h8, h9⟩ | ⟨-, e, st, h1⟩
  · rw [h1] at h
    simp only [Except.ok.injEq, Prod.mk.injEq] at h
    obtain ⟨rfl, rfl⟩ := h
    have h10 : st.w.view = v3 := h9.2.2.1
    rw [hn, Int.toNat_natCast] at h8
    refine ⟨v1, g1, v2, v3, g3, oc', h5, h6, h8, ?_, ?_, ?_, h3⟩
    · rw [h2, ← h10]; rfl
    · rw [h4, ← h10]; rfl
    · rw [← h10]
      exact (withParams_of_sameShape h9.1.1.1).symm
  · rw [h1] at h
    cases h

end

/-- one step of gradient descent in place, counting the steps -/
def countStep (v : OptView ℕ) : OptView ℕ :=
  { v with params := v.params.mapIdx fun i p => p - (v.pgrad.getD []).getD i 0, lam := v.lam - v.lgrad.getD 0, o := v.o + 1 }

/-- gradient descent in place, forgetting its steps at the reset -/
def countTorch (G : Type) : Torch G ℕ where
  o0 := 0
  backward t := (some [t.loss.lam, 1], some 1)
  step v := .ok (countStep v)
  prog _ := .eval fun _ => .act countStep fun _ => .done
  resetLbd := some fun v => .ok { v with o := 0 }
  composite := true

theorem count_good {G : Type} : GoodTorch (countTorch G) :=
  ⟨fun _ => .eval _ fun _ => .act _ _ fun _ => .done, fun v => ⟨_, rfl, fun h => h, fun h => h⟩, fun f hf v => by cases hf; exact ⟨_, rfl⟩,
    fun _ _ => rfl, fun _ _ _ _ => rfl⟩

theorem count_inPlace {G : Type} : InPlace (countTorch G) :=
  ⟨fun _ => .eval _ fun _ => .act _ _ (fun v => by simp [countStep]) fun _ => .done, fun v v' h => by cases h; simp [countStep],
    fun f hf v v' h => by cases hf; cases h; rfl⟩

/-- a pre- or post-sampled linear regression to which the theorems apply: it returns -/
example (oc : OCState) (X : Fin 2 → Fin 1 → ℝ) (y : Fin 2 → ℝ) (post : Bool) : ∃ D g' s p q M r,
    dualize counterExt (torchArgs (onesGrad 1) .linreg EstKind.linreg.defaults post false (matT X) (some (matT fun i (_ : Fin 1) => y i))
      (.mse ⟨fun _ _ => 3, some fun _ => 1⟩)) 7 = .ok (D, g') ∧ D.sampler = some s ∧
    interpretSteps (fun x => x) split03 (toSteps (trainSteps .linreg EstKind.linreg.defaults post)) = .ok (p, q) ∧
    0 < (toSteps (trainSteps .linreg EstKind.linreg.defaults post)).iterations ∧
    solveTorch counterExt (countTorch ℕ) defaultCond (fun x => x) (torchArgs (onesGrad 1) .linreg
      EstKind.linreg.defaults post false (matT X) (some (matT fun i (_ : Fin 1) => y i))) (.mse ⟨fun _ _ => 3, some fun _ => 1⟩)
      (trainSteps .linreg EstKind.linreg.defaults post) oc 7 = .ok (M, r) := by
  have h' := default_fitReady_labelled .linreg (by simp)
  have ha := torch_argsFit (onesGrad_shapes 1) .linreg EstKind.linreg.defaults post (mc := false) (X := matT X)
    (y := some (matT fun i (_ : Fin 1) => y i)) (k := 1) (M0 := .mse ⟨fun _ _ => 3, some fun _ => 1⟩) rfl (by intro t ht; cases ht; rfl) ⟨rfl, rfl, rfl⟩
  have hr := torch_costReady (grads := onesGrad 1) (e := .linreg) (post := post) (mc := false) (X := matT X)
    (y := some (matT fun i (_ : Fin 1) => y i)) (M0 := .mse ⟨fun _ _ => 3, some fun _ => 1⟩) h'
  obtain ⟨D, g', s, hD, hs, -⟩ := costReady_dualize (ext := counterExt) hr 7
  obtain ⟨M, r, h1, -⟩ := C86_fits_return_partial (ext := counterExt) (fl := fun x => x) count_good
    ha hr h'.rho (trainSteps_pos h'.iter .linreg post) (defaultCond_ready oc _ _) 7
  have hi : ∃ z, interpretSteps (fun x => x) split03 (toSteps (trainSteps .linreg EstKind.linreg.defaults post)) = .ok z := ⟨_, rfl⟩
  obtain ⟨⟨p, q⟩, hi⟩ := hi
  exact ⟨D, g', s, p, q, M, r, hD, hs, hi, trainSteps_pos h'.iter .linreg post, h1⟩

end Skwdro
