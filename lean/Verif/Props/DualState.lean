import Verif.Model.DualState
import Verif.Lemmas.Dual

/-! # C38–C40: stored samples, modes, gradient flags -/

namespace Skwdro
open Spec Tensor

section C38
variable {G : Type} (ext : TorchExt G)

theorem cache_snoc (h : List PreCall) (k : PreCall) :
    cacheAfter ext (h ++ [k]) = (preForward ext k.loss (cacheAfter ext h) k.xi k.xi_labels k.zeta k.zeta_labels).1 := by
  simp [cacheAfter]

theorem cache_keep (h tail : List PreCall) (ht : ∀ k ∈ tail, k.zeta = none) :
    cacheAfter ext (h ++ tail) = cacheAfter ext h := by
  induction tail using List.reverseRecOn with
  | nil => simp
  | append_singleton l k ih =>
    rw [← List.append_assoc, cache_snoc, ih fun a ha => ht a (by simp [ha])]
    have := ht k (by simp)
    unfold preForward
    rw [this]
    cases cacheAfter ext h with
    | none => rfl
    | some p => rfl

/-- **C38** (before) A pre-sampled loss that was never given samples refuses, with a ValueError, every evaluation without
samples, whatever evaluations were attempted before. -/
theorem C38_no_samples (h : List PreCall) (hn : ∀ k ∈ h, k.zeta = none) (D : DualLoss) (xi : Tensor ℝ)
    (xl zl : Option (Tensor ℝ)) :
    (preForward ext D (cacheAfter ext h) xi xl none zl).2 = .error .valueError := by
  have : cacheAfter ext h = none := by simpa [cacheAfter] using cache_keep ext [] h hn
  rw [this]; rfl

/-- **C38** (reuse) For a positive (or NaN) radius: after an evaluation with samples `z, zl`, followed by any number of
evaluations without samples, an evaluation without samples gives exactly the outcome of the evaluation with `z, zl`,
whatever happened earlier and however the loss changed in between.  (Missing: radius 0, see below.) -/
theorem C38_reuse_partial (h tail : List PreCall) (k : PreCall) (z : Tensor ℝ) (hz : k.zeta = some z)
    (ht : ∀ a ∈ tail, a.zeta = none) (D : DualLoss) (hr : D.rho = .nan ∨ ∃ r, 0 < r ∧ D.rho = .num r) (xi : Tensor ℝ)
    (xl zl' : Option (Tensor ℝ)) (c : Cache) :
    (preForward ext D (cacheAfter ext (h ++ [k] ++ tail)) xi xl none zl').2 =
      (preForward ext D c xi xl (some z) k.zeta_labels).2 := by
  rw [cache_keep ext _ _ ht, cache_snoc]
  have : (preForward ext k.loss (cacheAfter ext h) k.xi k.xi_labels k.zeta k.zeta_labels).1 = some (z, k.zeta_labels) := by
    simp only [preForward, hz]
  rw [this]
  rcases hr with hr | ⟨r, h0, hr⟩
  · simp only [preForward, hr]
  · simp only [preForward, hr, if_neg h0.le.not_gt, if_neg h0.ne']

/-- **C38** (most recent) An evaluation with samples never looks at stored ones: its outcome does not depend on them. -/
theorem C38_explicit (D : DualLoss) (c c' : Cache) (xi z : Tensor ℝ) (xl zl : Option (Tensor ℝ)) :
    (preForward ext D c xi xl (some z) zl).2 = (preForward ext D c' xi xl (some z) zl).2 := rfl

/-- **C38** (violated for radius 0) With radius 0 and a loss returning one value per point, as for every wrapped model, an
evaluation without samples fails with an AssertionError after samples were provided, although the evaluation with these
samples succeeds. -/
theorem C38_zero_radius_false {m : ℕ} (D : DualLoss) (hr : D.rho = .num 0)
    (hred : D.reduction = .mean) (xi : Tensor ℝ) (xl zl zl' : Option (Tensor ℝ)) (z : Tensor ℝ) (L : Fin m → ℝ)
    (hL : Returns (D.primal xi.unsqueeze0 (maybeUnsqueeze xl)) (fun t => IsTen t (fun (_ : Fin 1) i (_ : Fin 1) => L i))) :
    (preForward ext D (cacheAfter ext [⟨D, xi, xl, some z, zl⟩]) xi xl none zl').2 = .error .assertionError ∧
    ∃ v, (preForward ext D none xi xl (some z) zl).2 = .ok v := by
  obtain ⟨t, ht, hT⟩ := hL
  constructor
  · have : cacheAfter ext [⟨D, xi, xl, some z, zl⟩] = some (z, zl) := rfl
    rw [this]
    simp only [preForward, hr, lt_irrefl, if_false, if_true, ht, ok_bind]
    have h3 : reduceLossBatch D.reduction t = .error .assertionError := by
      unfold reduceLossBatch
      rw [if_neg (by simp [Tensor.dim, hT.1])]
    rw [h3]; rfl
  · refine ⟨.val (addScalar (0 * D.lam) t.squeeze0.mean), ?_⟩
    have hs : (t.squeeze0).shape = [m, 1] := by simp [squeeze0, hT.1]
    simp only [preForward, computeDual, hr, true_or, if_true, ermBranch, ht, ok_bind, reduceLossBatch, hred, Tensor.dim, hs,
      List.length_cons, List.length_nil]

/-- non-vacuity of C38: a one-dimensional loss `z` with radius `r`, evaluated at the point 7 -/
noncomputable def exPre (r : ℝ) : DualLoss :=
  ⟨fun z _ => .ok z, fun a b => (a, b), ⟨.normCost, .fin 2, 2, .nan⟩, .num r, 1, 1, .mean, false, false, none, false, 1⟩

example : (preForward ext (exPre 0) (cacheAfter ext [⟨exPre 0, mat (fun (_ : Fin 1) (_ : Fin 1) => 7), none,
    some (ten (fun (_ : Fin 2) (_ : Fin 1) (_ : Fin 1) => 8)), none⟩]) (mat (fun (_ : Fin 1) (_ : Fin 1) => 7)) none none none).2 =
      .error .assertionError :=
  (C38_zero_radius_false ext (m := 1) (exPre 0) rfl rfl _ none none none _ (fun _ => 7)
    ⟨_, rfl, rfl, fun _ _ _ => by simp [unsqueeze0, mat]⟩).1

/-- non-vacuity: a history whose only call raised for want of samples -/
example := C38_no_samples ext [⟨exPre 1, mat (fun (_ : Fin 1) (_ : Fin 1) => 7), none, none, none⟩] (by simp) (exPre 1)
  (mat (fun (_ : Fin 1) (_ : Fin 1) => 7)) none none

/-- non-vacuity: two sampled calls and one without samples, radius 1 -/
example := C38_reuse_partial ext [⟨exPre 1, mat (fun (_ : Fin 1) (_ : Fin 1) => 7), none,
    some (ten (fun (_ : Fin 2) (_ : Fin 1) (_ : Fin 1) => 8)), none⟩]
  [⟨exPre 1, mat (fun (_ : Fin 1) (_ : Fin 1) => 6), none, none, none⟩]
  ⟨exPre 1, mat (fun (_ : Fin 1) (_ : Fin 1) => 7), none, some (ten (fun (_ : Fin 2) (_ : Fin 1) (_ : Fin 1) => 9)), none⟩
  _ rfl (by simp) (exPre 1) (Or.inr ⟨1, one_pos, rfl⟩) (mat (fun (_ : Fin 1) (_ : Fin 1) => 7)) none none none

end C38

section C39

/-- flags after a sequence of mode calls on a new loss -/
def modesAfter (h : List ModeCall) : Modes := h.foldl (fun s c => c.run s) initModes

theorem modes_snoc (h : List ModeCall) (c : ModeCall) : modesAfter (h ++ [c]) = c.run (modesAfter h) := by
  simp [modesAfter]

/-- **C39** (what happens instead) After any sequence of calls, both flags only depend on the last call: they are on after
`train(True)` and off after `eval()`, `train()` and `train(False)`.  In particular `train()` does leave ERM mode.
(Missing: `eval()` entering ERM mode, `train(True)` leaving it.) -/
theorem C39_last_call_partial (h : List ModeCall) (c : ModeCall) :
    modesAfter (h ++ [c]) = match c with
      | .train (some true) => ⟨true, true⟩
      | _ => ⟨false, false⟩ := by
  rw [modes_snoc]
  rcases c with _ | _ | _ | _ <;> rfl

/-- **C39** (violated) `eval()` never puts the loss in ERM mode, after any history. -/
theorem C39_eval_false (h : List ModeCall) : (modesAfter (h ++ [.eval])).erm = false := by
  rw [C39_last_call_partial]

/-- **C39** (violated) `train(True)` always puts the loss in ERM mode, after any history. -/
theorem C39_train_true_false (h : List ModeCall) : (modesAfter (h ++ [.train (some true)])).erm = true := by
  rw [C39_last_call_partial]

/-- **C39** (violated) `train()` turns torch's training flag off, after any history. -/
theorem C39_train_flag_false (h : List ModeCall) : (modesAfter (h ++ [.train none])).training = false := by
  rw [C39_last_call_partial]

/-- **C39** (violated, consequence) after `eval()` the loss still evaluates to its robust value: the flag read by the
evaluation is the one of a freshly built loss. -/
theorem C39_eval_value_false {G : Type} (ext : TorchExt G) (h : List ModeCall) (D : DualLoss) (hD : D.ermMode = initModes.erm)
    (xi zeta : Tensor ℝ) (xl zl : Option (Tensor ℝ)) :
    computeDual ext { D with ermMode := (modesAfter (h ++ [.eval])).erm } xi xl zeta zl = computeDual ext D xi xl zeta zl := by
  rw [C39_eval_false, show false = initModes.erm from rfl, ← hD]

/-- non-vacuity: a loss fresh from its constructor, after `train(True)` then `eval()` -/
example {G : Type} (ext : TorchExt G) := C39_eval_value_false ext [.train (some true)] (exPre 1) rfl
  (mat (fun (_ : Fin 1) (_ : Fin 1) => 7)) (ten (fun (_ : Fin 2) (_ : Fin 1) (_ : Fin 1) => 8)) none none

end C39

section C40

/-- **C40** (what is kept) Whatever the history, the flags of `rho` and `epsilon` and the number of parameters never change. -/
theorem C40_hyper_partial (h : List GradCall) (s : Flags) :
    let s' := h.foldl (fun s c => c.run s) s
    s'.rho = s.rho ∧ s'.epsilon = s.epsilon ∧ s'.primal.length = s.primal.length := by
  induction h using List.reverseRecOn with
  | nil => exact ⟨rfl, rfl, rfl⟩
  | append_singleton l c ih =>
    simp only [List.foldl_append, List.foldl_cons, List.foldl_nil]
    generalize l.foldl (fun s c => c.run s) s = s1 at ih
    have hd : ∀ ok, (displacementDirectionFlags ok s1).rho = s1.rho ∧ (displacementDirectionFlags ok s1).epsilon = s1.epsilon ∧
        (displacementDirectionFlags ok s1).primal.length = s1.primal.length := by
      intro ok; cases ok <;> simp [displacementDirectionFlags, freeze]
    cases c with
    | evaluate D ok =>
      simp only [GradCall.run]
      split
      · exact ⟨(hd ok).1.trans ih.1, (hd ok).2.1.trans ih.2.1, (hd ok).2.2.trans ih.2.2⟩
      · exact ih
    | initDual D ok =>
      simp only [GradCall.run]
      split
      · exact ⟨(hd ok).1.trans ih.1, (hd ok).2.1.trans ih.2.1, (hd ok).2.2.trans ih.2.2⟩
      · exact ih

/-- **C40** (a new loss) The constructor makes the radius and the regularisation trainable exactly when asked to tune them, the
multiplier trainable unless the radius is `<= 0`, and leaves the user's parameters and mode alone. -/
theorem C40_constructed (primal : List Bool) (training : Bool) (rho : Radius) (hypertuning : Bool) :
    let s := initFlags primal training rho hypertuning
    (s.rho = true ↔ hypertuning = true) ∧ (s.epsilon = true ↔ hypertuning = true) ∧
      (s.lam = true ↔ ∀ r, rho = .num r → 0 < r) ∧ s.primal = primal ∧ s.training = training := by
  refine ⟨Iff.rfl, Iff.rfl, ?_, rfl, rfl⟩
  cases rho with
  | nan => simp [initFlags]
  | num r => simp [initFlags]

/-- non-vacuity: a robust loss of radius 1 on a model with a frozen and a trainable parameter -/
example := C40_constructed [false, true] true (.num 1) false

/-- **C40** (hyper-parameters of a new loss) Unless asked to tune them, no history of evaluations and initialisations, failing or
not, makes the radius or the regularisation of a new loss trainable; if asked, none freezes them. -/
theorem C40_hyper_constructed (primal : List Bool) (training : Bool) (rho : Radius) (hypertuning : Bool) (h : List GradCall) :
    let s' := h.foldl (fun s c => c.run s) (initFlags primal training rho hypertuning)
    s'.rho = hypertuning ∧ s'.epsilon = hypertuning ∧ s'.primal.length = primal.length :=
  C40_hyper_partial h _

/-- non-vacuity: an initialisation that fails followed by two evaluations -/
example := C40_hyper_constructed [false, true] true (.num 1) false
  [.initDual (exPre 1) false, .evaluate (exPre 1) true, .evaluate (exPre 1) true]

/-- **C40** (non-positive radius) A new loss of radius `<= 0`: no history of its evaluations and initialisations changes any
flag; in particular the multiplier stays frozen and the frozen parameters of the user stay frozen. -/
theorem C40_nonpositive (primal : List Bool) (training : Bool) {r : ℝ} (hr : r ≤ 0) (hypertuning : Bool) (h : List GradCall)
    (hh : ∀ c ∈ h, ∃ D ok, D.rho = .num r ∧ (c = .evaluate D ok ∨ c = .initDual D ok)) :
    let s := initFlags primal training (.num r) hypertuning
    h.foldl (fun s c => c.run s) s = s ∧ s.lam = false := by
  refine ⟨?_, by simp [initFlags, hr]⟩
  generalize initFlags primal training (.num r) hypertuning = s
  induction h with
  | nil => rfl
  | cons c l ih =>
    obtain ⟨D, ok, hD, hc⟩ := hh c (by simp)
    have e : c.run s = s := by
      rcases hc with rfl | rfl
      · simp [GradCall.run, reachesDisplacement, hD, not_lt.mpr hr]
      · simp [GradCall.run, initNeedsGrads, hD, not_lt.mpr hr]
    simp only [List.foldl_cons, e]
    exact ih fun c hc => hh c (List.mem_cons_of_mem _ hc)

/-- non-vacuity: radius 0, an evaluation and an initialisation -/
example := C40_nonpositive [false, true] false le_rfl false [.evaluate { exPre 1 with rho := .num 0 } true, .initDual { exPre 1 with rho := .num 0 } true]
  (by simp)

/-- **C40** (nothing frozen) If no call fails, the model is in training mode and neither a parameter nor the multiplier is
frozen, then no history changes any flag.  (Missing: models with frozen parameters, in evaluation mode, or failing.) -/
theorem C40_trainable_partial (h : List GradCall) (s : Flags) (hs : s.primal = s.primal.map (fun _ => true))
    (hl : s.lam = true) (ht : s.training = true)
    (hok : ∀ c ∈ h, match c with | .evaluate _ ok => ok = true | .initDual _ ok => ok = true) :
    h.foldl (fun s c => c.run s) s = s := by
  induction h with
  | nil => rfl
  | cons c l ih =>
    have e : c.run s = s := by
      have hd : displacementDirectionFlags true s = s := by
        obtain ⟨p, l, r, e, t⟩ := s
        simp only at hs hl ht
        subst hl ht
        simp only [displacementDirectionFlags, freeze]
        rw [hs]; simp
      have := hok c (by simp)
      cases c with
      | evaluate D ok => simp only at this; subst this; simp only [GradCall.run, hd, ite_self]
      | initDual D ok => simp only at this; subst this; simp only [GradCall.run, hd, ite_self]
    rw [List.foldl_cons, e]
    exact ih fun c hc => hok c (by simp [hc])

/-- non-vacuity: a loss with two trainable parameters, evaluated then initialised -/
example := C40_trainable_partial [.evaluate (exPre 1) true, .initDual (exPre 1) true] ⟨[true, true], true, false, false, true⟩
  rfl rfl rfl (by simp)

/-- **C40** (no importance sampling) Evaluating the robust loss with importance sampling off, in ERM mode, or with radius
`<= 0`, changes no flag, whether it fails or not. -/
theorem C40_plain_partial (D : DualLoss) (ok : Bool) (s : Flags)
    (h : D.impSamp = false ∨ D.ermMode = true ∨ D.rho = .nan ∨ ∃ r ≤ 0, D.rho = .num r) :
    (GradCall.evaluate D ok).run s = s := by
  have : reachesDisplacement D = false := by
    unfold reachesDisplacement
    rcases h with h | h | h | ⟨r, h0, h⟩
    · split <;> simp [h]
    · split <;> simp [h]
    · simp [h]
    · simp [h, h0]
  simp [GradCall.run, this]

/-- non-vacuity: a loss without importance sampling whose first parameter is frozen -/
example := C40_plain_partial (exPre 1) true ⟨[false, true], true, false, false, true⟩ (Or.inl rfl)

/-- the flag `reachesDisplacement` is faithful: when it is off, the evaluation does not look at gradients at all -/
theorem reachesDisplacement_spec {G : Type} (ext : TorchExt G) (D : DualLoss) (h : reachesDisplacement D = false) (gr)
    (xi zeta : Tensor ℝ) (xl zl : Option (Tensor ℝ)) :
    computeDual ext { D with grads := gr } xi xl zeta zl = computeDual ext D xi xl zeta zl := by
  cases hr : D.rho with
  | nan => simp only [computeDual, hr, ermBranch]
  | num r =>
    simp only [computeDual, hr]
    split
    · rfl
    · next h1 =>
      split
      · next h2 =>
        have hi : D.impSamp = false := by
          simp only [not_or, Bool.not_eq_true] at h1
          simpa [reachesDisplacement, hr, h1.1, h1.2, h2] using h
        simp only [hi, Bool.false_eq_true, if_false]
        rfl
      · rfl

/-- **C40** (violated) One importance-sampled evaluation, or one initialisation of the multiplier, of a positive radius:
every parameter the user froze becomes trainable, and a model in evaluation mode ends in training mode. -/
theorem C40_unfreezes_false (D : DualLoss) {r : ℝ} (hr : D.rho = .num r) (h0 : 0 < r) (s : Flags) :
    let s' : Flags := { s with primal := s.primal.map (fun _ => true), lam := true, training := true }
    (GradCall.initDual D true).run s = s' ∧
    (D.impSamp = true → D.ermMode = false → (GradCall.evaluate D true).run s = s') := by
  have h1 : initNeedsGrads D = true := by simp [initNeedsGrads, hr, h0]
  constructor
  · simp [GradCall.run, h1, displacementDirectionFlags, freeze]
  · intro hi he
    have h2 : reachesDisplacement D = true := by simp [reachesDisplacement, hr, h0, h0.ne', hi, he]
    simp [GradCall.run, h2, displacementDirectionFlags, freeze]

/-- non-vacuity: a loss whose first parameter is frozen -/
example := C40_unfreezes_false (exPre 1) rfl one_pos ⟨[false, true], true, false, false, true⟩

/-- **C40** (violated on failure) If differentiating the user's loss raises, all parameters and the multiplier are left
frozen and the model is left in evaluation mode. -/
theorem C40_failure_freezes_false (D : DualLoss) {r : ℝ} (hr : D.rho = .num r) (h0 : 0 < r) (s : Flags) :
    (GradCall.initDual D false).run s = { s with primal := s.primal.map (fun _ => false), lam := false, training := false } := by
  have h1 : initNeedsGrads D = true := by simp [initNeedsGrads, hr, h0]
  simp [GradCall.run, h1, displacementDirectionFlags, freeze]

/-- non-vacuity: a loss with two trainable parameters -/
example := C40_failure_freezes_false (exPre 1) rfl one_pos ⟨[true, true], true, false, false, true⟩

/-- non-vacuity: a model with one frozen and one trainable parameter -/
example : (GradCall.initDual ⟨fun z _ => .ok z, fun a b => (a, b), ⟨.normCost, .fin 2, 2, .nan⟩, .num 1, 1, 1, .mean, false, true,
    none, false, 1⟩ true).run ⟨[false, true], true, false, false, false⟩ = ⟨[true, true], true, false, false, true⟩ := by
  rw [(C40_unfreezes_false _ rfl one_pos _).1]; rfl

end C40
end Skwdro
