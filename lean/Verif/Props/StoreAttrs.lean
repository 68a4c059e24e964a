import Verif.Props.Store

/-! # C117: the attributes assigned by a fit that returns -/

namespace Skwdro
open Spec Tensor

variable {G : Type}

/-- **C117** After any history of calls of `fit`, a call with the dedicated solver that returns has assigned its coefficients and its
multiplier, the regressions their intercept, the classifier its classes, the portfolio its threshold: reading them gives those of this
call. -/
theorem C117_dedicated_linreg (ext : TorchExt G) (solve : Oracle) (before : List (FitRun Unit)) {c : LinCall G}
    (hr : route .linreg c.P.solver = .ok .dedicated) {f : Fitted c.d} (hf : c.outcome ext solve = .ok f) :
    let s := replay newStore (before ++ [c.run ext solve])
    s.coef = some f.coef ∧ s.intercept = some f.intercept ∧ s.dual_var = some f.dual_var := by
  intro s
  simp only [s, replay_append, replay_cons]
  generalize replay newStore before = s0
  unfold LinCall.outcome linregFit at hf
  split at hf
  · cases hf
  next h0 =>
  obtain ⟨co, hco, hf⟩ := bind_ok hf
  rw [hr, ok_bind] at hf
  dsimp only at hf
  obtain ⟨r, h1, hf⟩ := bind_ok hf
  obtain ⟨t, h2, hf⟩ := bind_ok hf
  cases hf
  unfold LinCall.run linregRun
  rw [if_neg h0, hco, ok_bind, hr, andThen_ok]
  dsimp only
  rw [h1, ok_bind, h2, andThen_ok]
  exact ⟨rfl, rfl, rfl⟩

theorem C117_dedicated_logistic {L : Type} [LinearOrder L] (ext : TorchExt G) (solve : Oracle) (before : List (FitRun L)) {c : LogCall G L}
    (hr : route .logistic c.P.solver = .ok .dedicated) {f : LogFitted L c.d} (hf : c.outcome ext solve = .ok f) :
    let s := replay newStore (before ++ [c.run ext solve])
    s.coef = some f.coef ∧ s.intercept = some f.intercept ∧ s.dual_var = some f.dual_var ∧ s.classes = some f.classes := by
  intro s
  simp only [s, replay_append, replay_cons]
  generalize replay newStore before = s0
  unfold LogCall.outcome logisticFit at hf
  split at hf
  · cases hf
  next h0 =>
  dsimp only at hf
  split at hf
  · cases hf
  next hc =>
  obtain ⟨co, hco, hf⟩ := bind_ok hf
  rw [hr, ok_bind] at hf
  dsimp only at hf
  split at hf
  · cases hf
  next h2c =>
  obtain ⟨rho, h1, hf⟩ := bind_ok hf
  obtain ⟨r, h2, hf⟩ := bind_ok hf
  obtain ⟨t, h3, hf⟩ := bind_ok hf
  cases hf
  unfold LogCall.run logisticRun
  rw [if_neg h0]
  dsimp only
  rw [if_neg hc, hco, ok_bind, hr, andThen_ok]
  dsimp only
  rw [if_neg h2c, h1, ok_bind, h2, ok_bind, h3, andThen_ok]
  exact ⟨rfl, rfl, rfl, rfl⟩

theorem C117_dedicated_newsvendor (ext : TorchExt G) (solve : Oracle) (before : List (FitRun Unit)) {c : NvCall G}
    (hr : route .newsvendor c.P.solver = .ok .dedicated) {f : Fitted 1} (hf : c.outcome ext solve = .ok f) :
    let s := replay newStore (before ++ [c.run ext solve])
    s.coef = some f.coef ∧ s.dual_var = some f.dual_var := by
  intro s
  simp only [s, replay_append, replay_cons]
  generalize replay newStore before = s0
  unfold NvCall.outcome newsvendorFit at hf
  split at hf
  · cases hf
  next h0 =>
  obtain ⟨co, hco, hf⟩ := bind_ok hf
  rw [hr, ok_bind] at hf
  dsimp only at hf
  obtain ⟨r, h1, hf⟩ := bind_ok hf
  obtain ⟨⟨t, u⟩, h2, hf⟩ := bind_ok hf
  unfold NvCall.run newsvendorRun
  rw [if_neg h0, hco, ok_bind, hr, andThen_ok]
  dsimp only
  rw [h1, ok_bind, h2, andThen_ok]
  cases t <;> cases hf <;> exact ⟨rfl, rfl⟩

theorem C117_dedicated_portfolio (ext : TorchExt G) (solve : Oracle) (before : List (FitRun Unit)) {c : PfCall G}
    (hr : route .portfolio c.P.solver = .ok .dedicated) {f : Fitted c.m} (hf : c.outcome ext solve = .ok f) :
    let s := replay newStore (before ++ [c.run ext solve])
    s.coef = some f.coef ∧ s.tau = some f.tau ∧ s.dual_var = some f.dual_var := by
  intro s
  simp only [s, replay_append, replay_cons]
  generalize replay newStore before = s0
  unfold PfCall.outcome portfolioFit at hf
  split at hf
  · cases hf
  next h0 =>
  obtain ⟨u, hreg, hf⟩ := bind_ok hf
  obtain ⟨co, hco, hf⟩ := bind_ok hf
  rw [hr, ok_bind] at hf
  dsimp only at hf
  obtain ⟨rho, h1, hf⟩ := bind_ok hf
  obtain ⟨r, h2, hf⟩ := bind_ok hf
  obtain ⟨t, h3, hf⟩ := bind_ok hf
  cases hf
  unfold PfCall.run portfolioRun
  rw [if_neg h0, hreg, andThen_ok, hco, ok_bind, hr, ok_bind, andThen_ok]
  dsimp only
  rw [h1, ok_bind, h2, ok_bind, h3, andThen_ok]
  exact ⟨rfl, rfl, rfl⟩

/-- attributes left by the torch branch: the multiplier and the robust loss are those training returned -/
theorem torchWrites_values {L : Type} {d : ℕ} {ext : TorchExt G} {grads : Autograd d} {train : InPlace d} {e : EstKind} {P : EstParams}
    {post mc : Bool} {X : Tensor ℝ} {y : Option (Tensor ℝ)} {M0 : Module d} {g : G} {keep : Bool}
    {read : Module d → Except PyErr (List (Write L))} (hread : ∀ M w, read M = .ok w → (∀ v, Write.dual_var v ∉ w) ∧ ∀ v, Write.robust_loss v ∉ w)
    (hok : (torchWrites ext grads train e P post mc X y M0 g keep read).2 = .ok ()) :
    ∃ r M, train (torchArgs grads e P post mc X y) M0 (trainSteps e P post) = (.ok r, M) ∧
      ∀ (s : Store L) (w : List (Write L)), (s.after (w ++ (torchWrites ext grads train e P post mc X y M0 g keep read).1, .ok ())).dual_var =
        some (some (Tensor.scalar r.dual_var)) ∧
        (s.after (w ++ (torchWrites ext grads train e P post mc X y M0 g keep read).1, .ok ())).robust_loss = some r.robust_loss := by
  have hdv : ∀ (w : List (Write L)) (s : Store L), (∀ v, Write.dual_var v ∉ w) → (w.foldl Store.write s).dual_var = s.dual_var := by
    intro w
    induction w with
    | nil => exact fun _ _ => rfl
    | cons a w ih =>
      intro s h
      refine (ih (s.write a) fun v hv => h v (List.mem_cons_of_mem _ hv)).trans ?_
      cases a <;> first | rfl | exact absurd (List.mem_cons_self ..) (h _)
  unfold torchWrites at hok ⊢
  dsimp only at hok ⊢
  cases hD : dualize ext (torchArgs grads e P post mc X y M0) g with
  | error x => rw [hD] at hok; cases hok
  | ok D =>
    rw [hD] at hok
    simp only [andThen_ok, List.nil_append] at hok ⊢
    cases ht : train (torchArgs grads e P post mc X y) M0 (trainSteps e P post) with
    | mk r M =>
      rw [ht] at hok
      cases r with
      | error x => cases hok
      | ok r =>
        dsimp only at hok ⊢
        cases hw : read M with
        | error x => rw [hw] at hok; cases hok
        | ok w =>
          refine ⟨r, M, rfl, fun s w0 => ?_⟩
          obtain ⟨n1, n2⟩ := hread M w hw
          simp only [andThen_ok, Store.after, List.foldl_append]
          refine ⟨?_, ?_⟩
          · rw [show ∀ s : Store L, List.foldl Store.write s [.fitted] = s.write .fitted from fun _ => rfl]
            refine (show ∀ s : Store L, (s.write .fitted).dual_var = s.dual_var from fun _ => rfl) _ |>.trans ?_
            rw [hdv w _ n1]
            rfl
          · rw [show ∀ s : Store L, List.foldl Store.write s [.fitted] = s.write .fitted from fun _ => rfl]
            refine (show ∀ s : Store L, (s.write .fitted).robust_loss = s.robust_loss from fun _ => rfl) _ |>.trans ?_
            rw [(foldl_write_other (w := w)).1 n2]
            rfl

theorem reads_keep {L : Type} {d : ℕ} (b : Bool) {read : Module d → Except PyErr (List (Write L))}
    (h : read = linregRead ∨ read = orderRead ∨ read = weightsRead ∨ read = positionRead ∨ read = layerRead b) :
    ∀ M w, read M = .ok w → (∀ v, Write.dual_var v ∉ w) ∧ ∀ v, Write.robust_loss v ∉ w := by
  intro M w hw
  rcases h with rfl | rfl | rfl | rfl | rfl
  · cases M <;> simp only [linregRead, reduceCtorEq, Except.ok.injEq] at hw
    subst hw; simp
  · cases M <;> simp only [orderRead, reduceCtorEq, Except.ok.injEq] at hw
    subst hw; simp
  · cases M <;> simp only [weightsRead, reduceCtorEq, Except.ok.injEq] at hw
    subst hw; simp
  · cases M <;> simp only [positionRead, reduceCtorEq, Except.ok.injEq] at hw
    subst hw; simp
  · unfold layerRead at hw
    cases h2 : logisticRead b M with
    | error x => rw [h2] at hw; cases hw
    | ok t => rw [h2] at hw; cases hw; simp

/-- **C117** After any history of calls of `fit`, a call with a torch solver that returns has assigned `dual_var_` and `robust_loss_`, with
the values training returned in this call. -/
theorem C117_torch_linreg (ext : TorchExt G) (solve : Oracle) (before : List (FitRun Unit)) {c : LinCall G} (hc : c.Good) {post : Bool}
    (hr : route .linreg c.P.solver = .ok (.torch post)) {f : Fitted c.d} (hf : c.outcome ext solve = .ok f) :
    let s := replay newStore (before ++ [c.run ext solve])
    ∃ r M, c.train (torchArgs c.grads .linreg c.P post false (matT c.X) (some (matT fun i (_ : Fin 1) => c.y i))) (.mse (c.init 1 true))
        (trainSteps .linreg c.P post) = (.ok r, M) ∧
      s.dual_var = some (some (Tensor.scalar r.dual_var)) ∧ s.robust_loss = some r.robust_loss := by
  intro s
  have ho := C117_linreg_outcome ext solve hc
  rw [hf] at ho
  simp only [s, replay_append, replay_cons]
  generalize replay newStore before = s0
  unfold LinCall.outcome linregFit at hf
  split at hf
  · cases hf
  next h0 =>
  obtain ⟨co, hco, -⟩ := bind_ok hf
  unfold LinCall.run linregRun at ho ⊢
  rw [if_neg h0, hco, ok_bind, hr, andThen_ok] at ho ⊢
  obtain ⟨r, M, h1, h2⟩ := torchWrites_values (reads_keep (L := Unit) true (.inl rfl)) ho
  exact ⟨r, M, h1, h2 s0 [.data]⟩

theorem C117_torch_logistic {L : Type} [LinearOrder L] (ext : TorchExt G) (solve : Oracle) (before : List (FitRun L)) {c : LogCall G L}
    (hc : c.Good) {post : Bool} (hr : route .logistic c.P.solver = .ok (.torch post)) {f : LogFitted L c.d}
    (hf : c.outcome ext solve = .ok f) :
    let s := replay newStore (before ++ [c.run ext solve])
    ∃ mc y M0 r M, c.train (torchArgs c.grads .logistic c.P post mc (matT c.X) (some y)) M0 (trainSteps .logistic c.P post) = (.ok r, M) ∧
      (mc = true ↔ 2 < f.classes.length) ∧
      s.dual_var = some (some (Tensor.scalar r.dual_var)) ∧ s.robust_loss = some r.robust_loss := by
  intro s
  have ho := C117_logistic_outcome ext solve hc
  rw [hf] at ho
  simp only [s, replay_append, replay_cons]
  generalize replay newStore before = s0
  have hcls : f.classes = npUnique c.y := by
    clear ho
    unfold LogCall.outcome logisticFit at hf
    split at hf
    · cases hf
    dsimp only at hf
    split at hf
    · cases hf
    obtain ⟨co, -, hf⟩ := bind_ok hf
    rw [hr, ok_bind] at hf
    dsimp only at hf
    split at hf <;> obtain ⟨M, -, hf⟩ := bind_ok hf <;> obtain ⟨t, -, hf⟩ := bind_ok hf <;> cases hf <;> rfl
  unfold LogCall.outcome logisticFit at hf
  split at hf
  · cases hf
  next h0 =>
  dsimp only at hf
  split at hf
  · cases hf
  next hlt =>
  obtain ⟨co, hco, -⟩ := bind_ok hf
  unfold LogCall.run logisticRun at ho ⊢
  rw [if_neg h0] at ho ⊢
  dsimp only at ho ⊢
  rw [if_neg hlt, hco, ok_bind, hr, andThen_ok] at ho ⊢
  dsimp only at ho ⊢
  by_cases h2c : (npUnique c.y).length = 2
  · rw [if_pos h2c] at ho ⊢
    obtain ⟨r, M, h1, h2⟩ := torchWrites_values (reads_keep (L := L) c.P.fit_intercept (.inr (.inr (.inr (.inr rfl))))) ho
    exact ⟨_, _, _, r, M, h1, by rw [hcls]; simp only [Bool.false_eq_true, false_iff]; omega, h2 s0 _⟩
  · rw [if_neg h2c] at ho ⊢
    obtain ⟨r, M, h1, h2⟩ := torchWrites_values (reads_keep (L := L) c.P.fit_intercept (.inr (.inr (.inr (.inr rfl))))) ho
    exact ⟨_, _, _, r, M, h1, by rw [hcls]; simp only [true_iff]; omega, h2 s0 _⟩

theorem C117_torch_newsvendor (ext : TorchExt G) (solve : Oracle) (before : List (FitRun Unit)) {c : NvCall G} (hc : c.Good) {post : Bool}
    (hr : route .newsvendor c.P.solver = .ok (.torch post)) {f : Fitted 1} (hf : c.outcome ext solve = .ok f) :
    let s := replay newStore (before ++ [c.run ext solve])
    ∃ r M, c.train (torchArgs c.grads .newsvendor c.P post false (matT fun i (_ : Fin 1) => rowMeans c.X i) none)
        (.newsvendor c.P.k c.P.u c.theta0) (trainSteps .newsvendor c.P post) = (.ok r, M) ∧
      s.dual_var = some (some (Tensor.scalar r.dual_var)) ∧ s.robust_loss = some r.robust_loss := by
  intro s
  have ho : (c.run ext solve).2 = .ok () := by
    unfold NvCall.outcome at hf
    unfold NvCall.run
    rcases newsvendorRun_cases (L := Unit) (ext := ext) (grads := c.grads) (solve := solve) hc (theta0 := c.theta0) (P := c.P) (X := c.X)
      (g := c.g) with ⟨x, h1, -⟩ | ⟨f', h1, h2, -⟩
    · rw [h1] at hf; cases hf
    · exact h2
  simp only [s, replay_append, replay_cons]
  generalize replay newStore before = s0
  unfold NvCall.outcome newsvendorFit at hf
  split at hf
  · cases hf
  next h0 =>
  obtain ⟨co, hco, -⟩ := bind_ok hf
  unfold NvCall.run newsvendorRun at ho ⊢
  rw [if_neg h0, hco, ok_bind, hr, andThen_ok] at ho ⊢
  obtain ⟨r, M, h1, h2⟩ := torchWrites_values (reads_keep (L := Unit) true (.inr (.inl rfl))) ho
  exact ⟨r, M, h1, h2 s0 []⟩

theorem C117_torch_portfolio (ext : TorchExt G) (solve : Oracle) (before : List (FitRun Unit)) {c : PfCall G} (hc : c.Good) {post : Bool}
    (hr : route .portfolio c.P.solver = .ok (.torch post)) {f : Fitted c.m} (hf : c.outcome ext solve = .ok f) :
    let s := replay newStore (before ++ [c.run ext solve])
    ∃ r M, c.train (torchArgs c.grads .portfolio c.P post false (matT c.X) none)
        (.portfolio { c.p0 with eta := c.P.eta, alpha := c.P.alpha }) (trainSteps .portfolio c.P post) = (.ok r, M) ∧
      s.dual_var = some (some (Tensor.scalar r.dual_var)) ∧ s.robust_loss = some r.robust_loss := by
  intro s
  have ho : (c.run ext solve).2 = .ok () := by
    unfold PfCall.outcome at hf
    unfold PfCall.run
    rcases portfolioRun_cases (L := Unit) (ext := ext) (grads := c.grads) (solve := solve) hc (p0 := c.p0) (P := c.P) (C := c.C) (D := c.D)
      (X := c.X) (g := c.g) with ⟨x, h1, -⟩ | ⟨f', h1, h2, -⟩
    · rw [h1] at hf; cases hf
    · exact h2
  simp only [s, replay_append, replay_cons]
  generalize replay newStore before = s0
  unfold PfCall.outcome portfolioFit at hf
  split at hf
  · cases hf
  next h0 =>
  obtain ⟨u, hreg, hf⟩ := bind_ok hf
  obtain ⟨co, hco, -⟩ := bind_ok hf
  unfold PfCall.run portfolioRun at ho ⊢
  rw [if_neg h0, hreg, andThen_ok, hco, ok_bind, hr, ok_bind, andThen_ok] at ho ⊢
  obtain ⟨r, M, h1, h2⟩ := torchWrites_values (reads_keep (L := Unit) true (.inr (.inr (.inl rfl)))) ho
  exact ⟨r, M, h1, h2 s0 [.data]⟩

theorem C117_torch_weber (ext : TorchExt G) (before : List (FitRun Unit)) {c : WebCall G} (hc : c.Good) {post : Bool}
    (hr : route .weber c.P.solver = .ok (.torch post)) {f : Fitted c.d} (hf : c.outcome ext = .ok f) :
    let s := replay newStore (before ++ [c.run ext])
    ∃ r M, c.train (torchArgs c.grads .weber c.P post false (matT c.X) (some (matT fun i (_ : Fin 1) => c.w i))) (.weber c.pos0)
        (trainSteps .weber c.P post) = (.ok r, M) ∧
      s.dual_var = some (some (Tensor.scalar r.dual_var)) ∧ s.robust_loss = some r.robust_loss := by
  intro s
  have ho : (c.run ext).2 = .ok () := by
    unfold WebCall.outcome at hf
    unfold WebCall.run
    rcases weberRun_cases (L := Unit) (ext := ext) (grads := c.grads) hc (pos0 := c.pos0) (P := c.P) (X := c.X) (w := c.w)
      (g := c.g) with ⟨x, h1, -⟩ | ⟨f', h1, h2, -⟩
    · rw [h1] at hf; cases hf
    · exact h2
  simp only [s, replay_append, replay_cons]
  generalize replay newStore before = s0
  unfold WebCall.outcome weberFit at hf
  split at hf
  · cases hf
  next h0 =>
  unfold WebCall.run weberRun at ho ⊢
  rw [if_neg h0, hr, andThen_ok] at ho ⊢
  obtain ⟨r, M, h1, h2⟩ := torchWrites_values (reads_keep (L := Unit) true (.inr (.inr (.inr (.inl rfl))))) ho
  exact ⟨r, M, h1, h2 s0 []⟩

end Skwdro
