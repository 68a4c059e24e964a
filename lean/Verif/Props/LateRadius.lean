import Verif.Props.SessionFits
import Verif.Props.Dedicated
import Verif.Props.WitSolvers

/-! # C131: a negative radius, or one that is a text, set after construction -/

namespace Skwdro

open Spec

/-! ### Training -/

section
variable {W Θ α β : Type} {env : Env W}

theorem M.bind_ok {m : M W α} {f : α → M W β} {s s' : St W} {b : β} (h : (m >>= f) s = (.ok b, s')) :
    ∃ a s1, m s = (.ok a, s1) ∧ f a s1 = (.ok b, s') := by
  rcases M.bind_inv h with ⟨a, s1, h1, h2⟩ | ⟨e, -, h2⟩
  · exact ⟨a, s1, h1, h2⟩
  · cases h2

/-- outside ERM mode every evaluation of the loss raises -/
def Refuses (env : Env W) : Prop := ∀ imp training w v, (env.forward false imp training w).1 ≠ .ok v

theorem fwd_refuses (hr : Refuses env) {g : Bool} {s s' : St W} {v} (hs : s.erm = false) : fwd env g s ≠ (.ok v, s') := by
  intro h
  unfold fwd at h
  have hb := M.bind_ok h; clear h; obtain ⟨a, s1, h1, h⟩ := hb
  obtain ⟨ha, rfl⟩ := M.read_inv h1
  have hb := M.bind_ok h; clear h; obtain ⟨b, s2, h1, h⟩ := hb
  obtain ⟨-, rfl⟩ := M.read_inv h1
  have hb := M.bind_ok h; clear h; obtain ⟨c, s3, h1, h⟩ := hb
  obtain ⟨-, rfl⟩ := M.read_inv h1
  have hb := M.bind_ok h; clear h; obtain ⟨x, s4, h1, h⟩ := hb
  obtain ⟨hx, -⟩ := M.call_inv h1
  simp only [Except.ok.injEq] at ha
  rw [ha, hs] at hx
  exact hr _ _ _ _ hx.symm

theorem closure_refuses (hr : Refuses env) {back : Bool} {s s' : St W} {v} (hs : s.erm = false) : closure env back s ≠ (.ok v, s') := by
  intro h
  unfold closure at h
  have hb := M.bind_ok h; clear h; obtain ⟨a, s1, h1, h⟩ := hb
  obtain ⟨-, rfl⟩ := M.modify_inv h1
  split at h
  · obtain ⟨x, s2, h1, h⟩ := M.bind_ok h
    exact fwd_refuses hr (by exact hs) h1
  · obtain ⟨x, s2, h1, h⟩ := M.bind_ok h
    rw [lossEval_eq] at h1
    have hb := M.bind_ok h; clear h; obtain ⟨y, s3, h2, h⟩ := hb
    simp only [Prod.mk.injEq] at h1
    obtain ⟨-, rfl⟩ := h1
    exact fwd_refuses hr rfl h2

theorem preBody_refuses (hr : Refuses env) {i : ℕ} {l : List (XNum ℝ)} {s s' : St W} {v} (hs : s.erm = false) : preBody env i l s ≠ (.ok v, s') := by
  intro h
  unfold preBody at h
  have hb := M.bind_ok h; clear h; obtain ⟨a, s1, h1, h⟩ := hb
  have h1s : s1.erm = false := by rw [(stepC_spec h1).1.1, hs]
  have hb := M.bind_ok h; clear h; obtain ⟨x, s2, h2, -⟩ := hb
  unfold preEval at h2
  have hb := M.bind_ok h2; clear h2; obtain ⟨y, s3, h3, h2⟩ := hb
  obtain ⟨-, rfl⟩ := M.read_inv h3
  split at h2
  · obtain ⟨z, s4, h4, -⟩ := M.bind_ok h2
    exact closure_refuses hr h1s h4
  · obtain ⟨z, s4, h4, h2⟩ := M.bind_ok h2
    obtain ⟨-, rfl⟩ := M.modify_inv h4
    have hb := M.bind_ok h2; clear h2; obtain ⟨z, s5, h5, -⟩ := hb
    exact closure_refuses hr (by exact h1s) h5

theorem postStep_refuses (hr : Refuses env) {s s' : St W} {v} (hs : s.erm = false) : postStep env s ≠ (.ok v, s') := by
  intro h
  unfold postStep at h
  have hb := M.bind_ok h; clear h; obtain ⟨a, s1, h1, h⟩ := hb
  obtain ⟨-, rfl⟩ := M.modify_inv h1
  have hb := M.bind_ok h; clear h; obtain ⟨x, s2, h2, -⟩ := hb
  exact fwd_refuses hr (by exact hs) h2

theorem trainLoop_refuses {body : ℕ → List (XNum ℝ) → M W (List (XNum ℝ) × Bool)} {s s' : St W}
    (hb : ∀ i l v s', body i l s ≠ (.ok v, s')) {is : List ℕ} {l l' : List (XNum ℝ)} (h : trainLoop body is l s = (.ok l', s')) : l' = l := by
  cases is with
  | nil =>
    obtain ⟨h1, -⟩ := M.pure_inv h
    simpa using h1
  | cons i is =>
    unfold trainLoop at h
    have hb := M.bind_ok h; clear h; obtain ⟨x, s1, h1, -⟩ := hb
    exact absurd h1 (hb _ _ _ _)

theorem optimPre_refuses (hr : Refuses env) {p n : ℤ} {s s' : St W} {l : List (XNum ℝ)} (h1 : optimPre env p n s = (.ok l, s')) : l = [] := by
  unfold optimPre at h1
  have hb := M.bind_ok h1; clear h1; obtain ⟨a, s3, h2, h1⟩ := hb
  have hb := M.bind_ok h1; clear h1; obtain ⟨a, s4, h2, h1⟩ := hb
  have hb := M.bind_ok h1; clear h1; obtain ⟨a, s5, h2, h1⟩ := hb
  have hb := M.bind_ok h1; clear h1; obtain ⟨a, s6, h2, h1⟩ := hb
  have hb := M.bind_ok h1; clear h1; obtain ⟨a, s7, h2, h1⟩ := hb
  obtain ⟨-, rfl⟩ := M.modify_inv h2
  have hb := M.bind_ok h1; clear h1; obtain ⟨a, s8, h3, h1⟩ := hb
  have hs8 : s8.erm = false := (resetOpt_spec h3).1.1
  exact trainLoop_refuses (fun i l v s' => preBody_refuses hr hs8) h1

theorem optimPost_refuses (hr : Refuses env) {p n : ℤ} {s s' : St W} {l : List (XNum ℝ)} (h1 : optimPost env p n s = (.ok l, s')) : l = [] := by
  unfold optimPost at h1
  have hb := M.bind_ok h1; clear h1; obtain ⟨a, s3, h2, h1⟩ := hb
  obtain ⟨-, rfl⟩ := M.modify_inv h2
  have hb := M.bind_ok h1; clear h1; obtain ⟨l0, s4, h2, h1⟩ := hb
  have hl0 : l0 = [] := by
    cases hp : p.toNat with
    | zero =>
      rw [hp] at h2
      obtain ⟨h3, -⟩ := M.pure_inv h2
      simpa using h3
    | succ k =>
      rw [hp] at h2
      unfold postPretrain at h2
      obtain ⟨x, s5, h3, -⟩ := M.bind_ok h2
      exact absurd h3 (postStep_refuses hr rfl)
  have hb := M.bind_ok h1; clear h1; obtain ⟨a, s5, h2, h1⟩ := hb
  have hb := M.bind_ok h1; clear h1; obtain ⟨e, s6, h2, h1⟩ := hb
  have hbody : ∀ (t : St W), t.erm = false → ∀ i l v s', postBody env i l t ≠ (.ok v, s') := by
    intro t ht i l v s' h
    unfold postBody at h
    obtain ⟨x, s9, h3, -⟩ := M.bind_ok h
    exact postStep_refuses hr ht h3
  split at h1
  · have hb := M.bind_ok h1; clear h1; obtain ⟨a, s7, h2, h1⟩ := hb
    have hb := M.bind_ok h1; clear h1; obtain ⟨a, s8, h2, h1⟩ := hb
    obtain ⟨-, rfl⟩ := M.modify_inv h2
    rw [trainLoop_refuses (hbody _ rfl) h1, hl0]
  · have hb := M.bind_ok h1; clear h1; obtain ⟨a, s7, h2, h1⟩ := hb
    obtain ⟨-, rfl⟩ := M.modify_inv h2
    rw [trainLoop_refuses (hbody _ rfl) h1, hl0]

theorem solveDual_refuses (hr : Refuses env) (out : Readout W Θ) (pre rhoPos : Bool) (fl : ℝ → ℝ) (sched : Steps) {s s' : St W} {r : Solved Θ} :
    solveDual env out pre rhoPos fl sched s ≠ (.ok r, s') := by
  intro h
  unfold solveDual at h
  have hb := M.bind_ok h; clear h; obtain ⟨⟨p, q⟩, s1, -, h⟩ := hb
  dsimp only at h
  split at h
  · have hb := M.bind_ok h; clear h; obtain ⟨losses, s2, h1, h⟩ := hb
    have hl := optimPre_refuses hr h1
    subst hl
    have hb := M.bind_ok h; clear h; obtain ⟨a, s3, h1, h⟩ := hb
    have hb := M.bind_ok h; clear h; obtain ⟨a, s4, h1, h⟩ := hb
    have hb := M.bind_ok h; clear h; obtain ⟨a, s5, h1, h⟩ := hb
    simp [M.raise] at h
  · have hb := M.bind_ok h; clear h; obtain ⟨losses, s2, h1, h⟩ := hb
    have hl := optimPost_refuses hr h1
    subst hl
    have hb := M.bind_ok h; clear h; obtain ⟨a, s3, h1, h⟩ := hb
    have hb := M.bind_ok h; clear h; obtain ⟨a, s4, h1, h⟩ := hb
    have hb := M.bind_ok h; clear h; obtain ⟨a, s5, h1, h⟩ := hb
    simp [M.raise] at h

end

section
variable {G O : Type} {d : ℕ} {ext : TorchExt G} {T : Torch G O} {cfg : OCConfig} {fl : ℝ → ℝ}

/-- **C131** Training with torch never succeeds at a negative radius, whatever the optimizer, schedule, optimality condition, module and data. -/
theorem C131_training (args : Module d → DualizeArgs) (M0 : Module d) {r : ℝ} (hrho : (args M0).rho = .num r) (hr : r < 0)
    (steps : ℤ ⊕ (ℤ × ℤ)) (oc : OCState) (g : G) (v : Module d × Solved (List ℝ)) :
    solveTorch ext T cfg fl args M0 steps oc g ≠ .ok v := by
  intro h
  unfold solveTorch at h
  cases hD : dualize ext (args M0) g with
  | error e => rw [hD] at h; cases h
  | ok p =>
    obtain ⟨D, g'⟩ := p
    rw [hD] at h
    simp only [ok_bind] at h
    have hDr : D.rho = .num r := by
      obtain ⟨parsed, obj, c, s, -, -, -, -, rfl⟩ := dualize_ok hD
      exact hrho
    cases hq : solveRun ext T cfg fl args D M0 steps oc g' with
    | mk a s =>
      rw [hq] at h
      cases a with
      | error e => cases h
      | ok a =>
        refine solveDual_refuses (env := fitEnv ext T args D (args M0).xi (args M0).xi_labels (args M0).post_sample cfg (toSteps steps).iterations)
          ?_ _ _ _ _ _ hq
        intro imp training w v hv
        have hb : (w.dual args D false imp).rho = .num r := hDr
        simp only [fitEnv] at hv
        split at hv
        · split at hv
          · cases hv
          · rename_i x h1
            exact (C31_negative_postsampled ext hb hr true w.gen).1 _ h1
        · split at hv
          · cases hv
          · rename_i z zl hz
            have := ((C31_invalid_radius_partial ext (D := w.dual args D false imp) (xi := (args M0).xi) (xl := (args M0).xi_labels) rfl z zl w.cache).1 r hb hr).2.1
            split at hv
            · cases hv
            · rename_i h1
              rw [h1] at this
              cases this

theorem fitTorch_refuses (grads : Autograd d) (e : EstKind) {P : EstParams} {r : ℝ} (hrho : P.rho = .num r) (hr : r < 0) (post mc : Bool)
    (X : Tensor ℝ) (y : Option (Tensor ℝ)) (M0 : Module d) (oc : OCState) (g g' : G) (v : Module d) :
    fitTorch ext grads (realTrainer ext T cfg fl oc g') e P post mc X y M0 g ≠ .ok v := by
  intro h
  unfold fitTorch at h
  cases hD : dualize ext (torchArgs grads e P post mc X y M0) g with
  | error e => rw [hD] at h; cases h
  | ok p =>
    rw [hD] at h
    simp only [ok_bind, realTrainer] at h
    cases hs : solveTorch ext T cfg fl (torchArgs grads e P post mc X y) M0 (trainSteps e P post) oc g' with
    | error e => rw [hs] at h; cases h
    | ok v => exact C131_training _ M0 (by show P.rho = _; exact hrho) hr _ oc g' v hs

end

/-! ### Convex programs -/

section
variable {solve : Oracle} {n d : ℕ}

theorem exact_none (hs : ExactSolver solve) {V : Type} {Q : Program V} (h : ∀ v, Q.Feasible v → ∃ w, Q.Feasible w ∧ Q.objective w < Q.objective v) :
    solve V Q = none := by
  cases hv : solve V Q with
  | none => rfl
  | some v =>
    obtain ⟨h1, h2⟩ := (hs V Q).1 v hv
    obtain ⟨w, hw, hlt⟩ := h v h1
    exact absurd (h2 w hw) (not_le.2 hlt)

theorem logistic_unbounded (hs : ExactSolver solve) {r kappa : ℝ} (hr : r < 0) (hk : 0 ≤ kappa) (X : Fin n → Fin d → ℝ) (y : Fin n → ℝ) :
    solve _ (logisticProgram r kappa X y) = none := by
  refine exact_none hs fun v hv => ⟨Function.update v ⟨d, by omega⟩ (v ⟨d, by omega⟩ + 1), ?_, ?_⟩
  · rw [logisticProgram_feasible] at hv ⊢
    obtain ⟨h1, h2⟩ := hv
    have e1 : (fun j : Fin d => Function.update v ⟨d, by omega⟩ (v ⟨d, by omega⟩ + 1) ⟨j, by omega⟩) = fun j : Fin d => v ⟨j, by omega⟩ := by
      funext j
      rw [Function.update_of_ne]
      intro h
      have := Fin.mk.inj h
      omega
    have e2 : Function.update v ⟨d, by omega⟩ (v ⟨d, by omega⟩ + 1) ⟨d + 1 + n, by omega⟩ = v ⟨d + 1 + n, by omega⟩ := by
      rw [Function.update_of_ne]
      intro h
      have := Fin.mk.inj h
      omega
    have e3 : (fun i : Fin n => Function.update v ⟨d, by omega⟩ (v ⟨d, by omega⟩ + 1) ⟨d + 1 + i, by omega⟩) = fun i : Fin n => v ⟨d + 1 + i, by omega⟩ := by
      funext j
      rw [Function.update_of_ne]
      intro h
      have := Fin.mk.inj h
      omega
    rw [e1, e2, e3, Function.update_self]
    exact ⟨by linarith, fun i => ⟨by nlinarith [(h2 i).1], (h2 i).2⟩⟩
  · rw [logisticProgram_objective, logisticProgram_objective]
    have e3 : (fun i : Fin n => Function.update v ⟨d, by omega⟩ (v ⟨d, by omega⟩ + 1) ⟨d + 1 + i, by omega⟩) = fun i : Fin n => v ⟨d + 1 + i, by omega⟩ := by
      funext j
      rw [Function.update_of_ne]
      intro h
      have := Fin.mk.inj h
      omega
    rw [e3, Function.update_self]
    linarith

theorem logistic0_unbounded (hs : ExactSolver solve) {r kappa : ℝ} (hr : r < 0) (hk : 0 ≤ kappa) (X : Fin n → Fin d → ℝ) (y : Fin n → ℝ) :
    solve _ (logisticProgram0 r kappa X y) = none := by
  refine exact_none hs fun v hv => ⟨Function.update v ⟨d, by omega⟩ (v ⟨d, by omega⟩ + 1), ?_, ?_⟩
  · rw [logisticProgram0_feasible] at hv ⊢
    obtain ⟨h1, h2⟩ := hv
    have e1 : (fun j : Fin d => Function.update v ⟨d, by omega⟩ (v ⟨d, by omega⟩ + 1) ⟨j, by omega⟩) = fun j : Fin d => v ⟨j, by omega⟩ := by
      funext j
      rw [Function.update_of_ne]
      intro h
      have := Fin.mk.inj h
      omega
    have e3 : (fun i : Fin n => Function.update v ⟨d, by omega⟩ (v ⟨d, by omega⟩ + 1) ⟨d + 1 + i, by omega⟩) = fun i : Fin n => v ⟨d + 1 + i, by omega⟩ := by
      funext j
      rw [Function.update_of_ne]
      intro h
      have := Fin.mk.inj h
      omega
    rw [e1, e3, Function.update_self]
    exact ⟨by linarith, fun i => ⟨by nlinarith [(h2 i).1], (h2 i).2⟩⟩
  · rw [logisticProgram0_objective, logisticProgram0_objective]
    have e3 : (fun i : Fin n => Function.update v ⟨d, by omega⟩ (v ⟨d, by omega⟩ + 1) ⟨d + 1 + i, by omega⟩) = fun i : Fin n => v ⟨d + 1 + i, by omega⟩ := by
      funext j
      rw [Function.update_of_ne]
      intro h
      have := Fin.mk.inj h
      omega
    rw [e3, Function.update_self]
    linarith

theorem logisticDedicated_refuses (hs : ExactSolver solve) {r kappa : ℝ} (hr : r < 0) (hk : 0 ≤ kappa) (X : Fin n → Fin d → ℝ) (y : Fin n → ℝ) (b : Bool)
    (v : SolverResult SVal) : logisticDedicated solve r kappa X y b ≠ .ok v := by
  unfold logisticDedicated
  rw [logistic_unbounded hs hr hk, logistic0_unbounded hs hr hk]
  intro h
  split at h
  · cases h
  · split at h <;> cases h

theorem linregAt_refuses {r : ℝ} (hr : r < 0) (X : Fin n → Fin d → ℝ) (y : Fin n → ℝ) (b : Bool) (v : SolverResult SVal) :
    linregAt solve (.num r) X y b ≠ .ok v := by
  unfold linregAt linregDedicated
  simp only [if_neg (not_lt.2 hr.le)]
  intro h
  cases h

theorem portfolio_unbounded (hs : ExactSolver solve) {J : ℕ} {r : ℝ} (hr : r < 0) (C : Fin J → Fin d → ℝ) (D : Fin J → ℝ) (q : XNum ℝ) (eta alpha : ℝ)
    (X : Fin n → Fin d → ℝ) : solve _ (portfolioProgram C D q eta alpha r X) = none := by
  refine exact_none hs fun v hv => ⟨{ v with lam := v.lam + 1 }, ?_, ?_⟩
  · unfold Program.Feasible portfolioProgram at hv ⊢
    simp only [List.mem_append, List.mem_cons, List.not_mem_nil, or_false, List.mem_map, List.mem_flatMap, List.mem_finRange, true_and] at hv ⊢
    have h0 := hv _ (Or.inl (Or.inl (Or.inr rfl)))
    rintro c ((h | h) | h)
    · rcases h with rfl | rfl
      · exact hv _ (Or.inl (Or.inl (Or.inl rfl)))
      · dsimp only at h0 ⊢
        linarith
    · obtain ⟨j, rfl⟩ := h
      exact hv _ (Or.inl (Or.inr ⟨j, rfl⟩))
    · obtain ⟨i, k, h⟩ := h
      rcases h with rfl | rfl | rfl
      · exact hv _ (Or.inr ⟨i, k, Or.inl rfl⟩)
      · have := hv _ (Or.inr ⟨i, k, Or.inr (Or.inl rfl)⟩)
        dsimp only at this ⊢
        linarith
      · exact hv _ (Or.inr ⟨i, k, Or.inr (Or.inr rfl)⟩)
  · unfold portfolioProgram
    dsimp only
    linarith

theorem portfolioDedicated_refuses (hs : ExactSolver solve) {J : ℕ} {r : ℝ} (hr : r < 0) (C : Fin J → Fin d → ℝ) (D : Fin J → ℝ) (p : XNum ℝ)
    (eta alpha : ℝ) (X : Fin n → Fin d → ℝ) (v : SolverResult SVal) : portfolioDedicated solve C D p eta alpha r X ≠ .ok v := by
  unfold portfolioDedicated
  intro h
  split at h
  · cases h
  · split at h
    · cases h
    · cases hq : pfQ p with
      | error e => rw [hq] at h; cases h
      | ok q =>
        rw [hq] at h
        simp only [ok_bind, portfolio_unbounded hs hr] at h
        split at h <;> cases h

end

/-! ### The fits -/

section
variable {G O : Type} {ext : TorchExt G} {T : Torch G O} {fl : ℝ → ℝ} {grads : (d : ℕ) → Autograd d} {solve : Oracle} {draws : Draws G}

/-- **C131** With a convex solver that is exact, every fit at a negative radius raises, whatever the estimator, the other arguments, the data,
the optimizer and the generator, except the dedicated news vendor. -/
theorem C131_fits (hs : ExactSolver solve) (e : EstKind) {P : EstParams} {r : ℝ} (hrho : P.rho = .num r) (hr : r < 0)
    (he : e = .newsvendor → P.solver ≠ "dedicated".toList) (co : CondObj) (D : FitData) (g : G) (f : AnyFit) :
    estFit ext T fl grads solve draws e P co D g ≠ .ok f := by
  intro h
  have hm : ∀ {α : Type} {x : Except PyErr α} {k : α → AnyFit}, x.map k = .ok f → ∃ a, x = .ok a := by
    intro α x k hx
    cases x with
    | error _ => cases hx
    | ok a => exact ⟨a, rfl⟩
  cases e with
  | logistic =>
    obtain ⟨a, h⟩ := hm h
    unfold logisticFit at h
    split at h
    · cases h
    dsimp only at h
    split at h
    · cases h
    cases hc : cost_from_str P.cost with
    | error _ => rw [hc] at h; cases h
    | ok c =>
      cases hR : route .logistic P.solver with
      | error _ => rw [hc, hR] at h; cases h
      | ok R =>
        rw [hc, hR] at h
        simp only [ok_bind] at h
        cases R with
        | dedicated =>
          dsimp only at h
          split at h
          · cases h
          · rw [hrho] at h
            simp only [Radius.toNum, ok_bind] at h
            cases hd : logisticDedicated solve r 1000 D.X (fun i => encodeBinary (npUnique D.y) (D.y i)) P.fit_intercept with
            | error _ => rw [hd] at h; cases h
            | ok v => exact logisticDedicated_refuses hs hr (by norm_num) _ _ _ v hd
        | torch post =>
          dsimp only at h
          split at h
          · refine absurd h ?_
            intro h
            obtain ⟨v, hv, -⟩ := bind_ok h
            exact fitTorch_refuses _ _ hrho hr _ _ _ _ _ _ _ _ v hv
          · obtain ⟨v, hv, -⟩ := bind_ok h
            exact fitTorch_refuses _ _ hrho hr _ _ _ _ _ _ _ _ v hv
  | linreg =>
    obtain ⟨a, h⟩ := hm h
    unfold linregFit at h
    split at h
    · cases h
    cases hc : cost_from_str P.cost with
    | error _ => rw [hc] at h; cases h
    | ok c =>
      cases hR : route .linreg P.solver with
      | error _ => rw [hc, hR] at h; cases h
      | ok R =>
        rw [hc, hR] at h
        simp only [ok_bind] at h
        cases R with
        | dedicated =>
          dsimp only at h
          rw [hrho] at h
          obtain ⟨v, hv, -⟩ := bind_ok h
          exact linregAt_refuses hr _ _ _ v hv
        | torch post =>
          dsimp only at h
          obtain ⟨v, hv, -⟩ := bind_ok h
          exact fitTorch_refuses _ _ hrho hr _ _ _ _ _ _ _ _ v hv
  | weber =>
    obtain ⟨a, h⟩ := hm h
    unfold weberFit at h
    split at h
    · cases h
    cases hR : route .weber P.solver with
    | error _ => rw [hR] at h; cases h
    | ok R =>
      rw [hR] at h
      simp only [ok_bind] at h
      cases R with
      | dedicated => cases h
      | torch post =>
        dsimp only at h
        obtain ⟨v, hv, -⟩ := bind_ok h
        exact fitTorch_refuses _ _ hrho hr _ _ _ _ _ _ _ _ v hv
  | portfolio =>
    obtain ⟨a, h⟩ := hm h
    unfold portfolioFit at h
    split at h
    · cases h
    obtain ⟨-, -, h⟩ := bind_ok h
    cases hc : cost_from_str P.cost with
    | error _ => rw [hc] at h; cases h
    | ok c =>
      cases hR : route .portfolio P.solver with
      | error _ => rw [hc, hR] at h; cases h
      | ok R =>
        rw [hc, hR] at h
        simp only [ok_bind] at h
        cases R with
        | dedicated =>
          dsimp only at h
          rw [hrho] at h
          simp only [Radius.toNum, ok_bind] at h
          obtain ⟨v, hv, -⟩ := bind_ok h
          exact portfolioDedicated_refuses hs hr _ _ _ _ _ _ v hv
        | torch post =>
          dsimp only at h
          obtain ⟨v, hv, -⟩ := bind_ok h
          exact fitTorch_refuses _ _ hrho hr _ _ _ _ _ _ _ _ v hv
  | newsvendor =>
    obtain ⟨a, h⟩ := hm h
    unfold newsvendorFit at h
    split at h
    · cases h
    cases hc : cost_from_str P.cost with
    | error _ => rw [hc] at h; cases h
    | ok c =>
      cases hR : route .newsvendor P.solver with
      | error _ => rw [hc, hR] at h; cases h
      | ok R =>
        rw [hc, hR] at h
        simp only [ok_bind] at h
        cases R with
        | dedicated =>
          refine he rfl ?_
          revert hR
          unfold route
          intro hR
          split at hR
          · cases hR
          · dsimp only at hR
            repeat' split at hR
            all_goals first | assumption | cases hR
        | torch post =>
          dsimp only at h
          obtain ⟨v, hv, -⟩ := bind_ok h
          exact fitTorch_refuses _ _ hrho hr _ _ _ _ _ _ _ _ v hv

/-- **C131** The dedicated news vendor does not: at a negative radius, on two or more non-negative demands, its fit returns, with an order of zero. -/
theorem C131_newsvendor_false {n d : ℕ} {P : EstParams} {r : ℝ} (hrho : P.rho = .num r) (hr : r < 0) (hP : P.solver = "dedicated".toList)
    (hc : ∃ c, cost_from_str P.cost = .ok c) (hn : 2 ≤ n) (hd : 0 < d) (X : Fin n → Fin d → ℝ) (hX : ∀ i j, 0 ≤ X i j)
    (gr : Autograd 1) (train : Trainer 1) (theta0 : ℝ) (g : G) :
    ∃ f cT, newsvendorFit ext gr solve train theta0 P X g = .ok f ∧ f.coef = some cT ∧ IsScalar cT 0 := by
  classical
  obtain ⟨c, hc⟩ := hc
  have hr' : route .newsvendor P.solver = .ok .dedicated := by rw [(C66_route_partial .newsvendor P.solver).2.1 hP]; rfl
  have hpos : ∀ x ∈ List.ofFn (rowMeans X), 0 ≤ x := by
    intro x hx
    obtain ⟨i, rfl⟩ := List.mem_ofFn.1 hx
    exact div_nonneg (Finset.sum_nonneg fun j _ => hX i j) (Nat.cast_nonneg _)
  have hlen : (npSort (List.ofFn (rowMeans X))).length = n := by
    rw [(npSort_perm _).length_eq, List.length_ofFn]
  have hsp : ∀ x ∈ npSort (List.ofFn (rowMeans X)), 0 ≤ x := fun x hx => hpos x ((npSort_perm _).mem_iff.1 hx)
  have hA : ∀ i, 0 ≤ nvA (npSort (List.ofFn (rowMeans X))) i := fun i =>
    List.sum_nonneg fun x hx => hsp x (List.mem_of_mem_take hx)
  have hnr : (n : ℝ) * r < 0 := mul_neg_of_pos_of_neg (by exact_mod_cast (by omega : 0 < n)) hr
  have hl : ∃ i ∈ List.range ((npSort (List.ofFn (rowMeans X))).length - 1), nvLower r (npSort (List.ofFn (rowMeans X))) i := by
    refine ⟨0, List.mem_range.2 (by omega), ?_⟩
    unfold nvLower
    rw [hlen]
    have h1 : 0 ≤ (npSort (List.ofFn (rowMeans X))).getD (0 + 1) 0 := by
      rw [List.getD_eq_getElem _ _ (by omega)]
      exact hsp _ (List.getElem_mem _)
    linarith [hA 0]
  have hu : ¬ ∃ i ∈ List.range ((npSort (List.ofFn (rowMeans X))).length - 1), nvUpper r (npSort (List.ofFn (rowMeans X))) i := by
    rintro ⟨i, -, hi⟩
    unfold nvUpper at hi
    rw [hlen] at hi
    linarith [hA i]
  have hsol : newsvendorDedicated solve P.k P.u r (some (List.ofFn (rowMeans X))) = wrapResult (.tuple [some (.num 0), some (.num 0)]) := by
    unfold newsvendorDedicated
    simp only [not_true, if_false, if_true, hl, hu, not_false_iff]
  refine ⟨{ coef := some (Tensor.scalar 0), dual_var := some (Tensor.scalar 0) }, Tensor.scalar 0, ?_, rfl, ⟨rfl, rfl⟩⟩
  unfold newsvendorFit
  rw [if_neg (by omega), hc, hr', hrho]
  have hw : ∃ q, wrapResult (.tuple [some (SVal.num 0), some (SVal.num 0)]) = .ok q ∧ unpack2 q = .ok (some (.num 0), some (.num 0)) := ⟨_, rfl, rfl⟩
  obtain ⟨q, hq, hu2⟩ := hw
  simp only [ok_bind, newsvendorAt, hsol, hq, hu2]
  simp [SVal.toTensor, SVal.toNum]

/-! ### Programs -/

variable {Data Res : Type}

theorem map_ne_ok {α β : Type} {x : Except PyErr α} {k : α → β} (h : ∀ a, x ≠ .ok a) : ∃ e, x.map k = .error e := by
  cases x with
  | error e => exact ⟨e, rfl⟩
  | ok a => exact absurd rfl (h a)

/-- **C131** In any program, with an exact convex solver: `set_params(rho=v)` on an existing estimator returns, also when `v` is read by `float` as a
negative number.  From then on, as long as `set_params` is not called on it again, cloning the estimator raises, and so does fitting it on any data,
whatever is done to other objects in between.  Missing: the dedicated news vendor (`C131_newsvendor_false`). -/
theorem C131_session_partial (hs : ExactSolver solve) {s : Session G} {a : ℕ} {e : EstObj} (he : s.ests[a]? = some e) {v : RhoArg} {r : ℝ}
    (hv : v.toFloat = .ok (.num r)) (hr : r < 0) :
    let F := realFits ext T fl grads solve draws
    (sessionStep F s (.setParams a [.rho v])).1 = .ok (.est a) ∧
    ∀ os : List (Op FitData), (∀ vs, Op.setParams a vs ∉ os) →
      let s' := sessionRun F (sessionStep F s (.setParams a [.rho v])).2 os
      (∃ x, (sessionStep F s' (.clone a)).1 = .error x) ∧
      ((e.kind = .newsvendor → e.args.rest.solver ≠ "dedicated".toList) → ∀ D, ∃ x, (sessionStep F s' (.fit a D)).1 = .error x) := by
  intro F
  have hal : a < s.ests.length := by
    by_contra h
    rw [List.getElem?_eq_none (by omega)] at he
    cases he
  have hset : sessionStep F s (.setParams a [.rho v]) = (.ok (.est a), s.putEst a ((Setting.rho v).apply e)) := by
    simp [sessionStep, he, Session.hasValue, setAll, Setting.known, Except.map]
  rw [hset]
  refine ⟨rfl, fun os hos => ?_⟩
  set e1 : EstObj := (Setting.rho v).apply e with he1
  have hget : (s.putEst a e1).ests[a]? = some e1 := by
    simp [Session.putEst, hal]
  obtain ⟨e', he', hk⟩ := C102_arguments_partial (F := F) hget os hos
  have hkind : e'.kind = e.kind := hk.kind
  have hrho : e'.args.rho = v ∨ e'.args.rho = .float (.num r) := by
    rcases hk.rho with h | ⟨q, hq, h⟩
    · exact Or.inl h
    · right
      have hq' : Writes v q := hq
      have : q = .num r := by
        cases hq' <;> simp only [RhoArg.toFloat, Except.ok.injEq] at hv <;> exact hv
      rw [h, this]
  have hfl : e'.args.rho.toFloat = .ok (.num r) := by
    rcases hrho with h | h <;> rw [h]
    · exact hv
    · rfl
  have hcon : ∃ x, constructArgs e'.kind e'.args = .error x := by
    unfold constructArgs
    have hcmp : (∃ x, e'.args.rho.compared = .error x) ∨ e'.args.rho.compared = .ok (.num r) := by
      revert hfl
      cases e'.args.rho with
      | int n => exact fun h => Or.inr h
      | float q => exact fun h => Or.inr h
      | text t => exact fun _ => Or.inl ⟨_, rfl⟩
    rcases hcmp with ⟨x, h⟩ | h
    · rw [h]; exact ⟨x, rfl⟩
    · rw [h]
      have hneg : (e'.args.withRadius (.num r)).rho.neg := hr
      have : ∃ x, construct e'.kind (e'.args.withRadius (.num r)) = .error x := by
        cases e'.kind <;> (unfold construct; dsimp only; rw [if_pos hneg]; exact ⟨_, rfl⟩)
      obtain ⟨x, hx⟩ := this
      simp only [ok_bind, hx, error_bind]
      exact ⟨_, rfl⟩
  refine ⟨?_, fun hd D => ?_⟩
  · obtain ⟨x, hx⟩ := hcon
    simp only [sessionStep, he', hx]
    split
    · exact ⟨_, rfl⟩
    · split
      · exact ⟨_, rfl⟩
      · split <;> exact ⟨_, rfl⟩
  · simp only [sessionStep, he', hfl]
    split
    · exact ⟨_, rfl⟩
    · unfold fitConverted
      have hsol : e'.args.rest.solver = e.args.rest.solver := (hk.rest (.solver e.args.rest.solver) (by simp) (by simp)).1 rfl
      have hno : ∀ co g f, estFit ext T fl grads solve draws e'.kind (e'.args.withRadius (.num r)) co D g ≠ .ok f := by
        intro co g f
        refine C131_fits hs _ rfl hr ?_ co D g f
        intro hkk
        show e'.args.rest.solver ≠ _
        rw [hsol]
        exact hd (hkind.symm.trans hkk)
      dsimp only
      split
      · exact ⟨_, rfl⟩
      · exact map_ne_ok (hno _ _)
      · split
        · exact ⟨_, rfl⟩
        · exact map_ne_ok (hno _ _)

/-- **C131** A radius given as a text is refused by every constructor. -/
theorem C131_text_constructor (F : Fits G Data Res) (s : Session G) (e : EstKind) (A : EstArgs) {t : Option Radius} (hA : A.rho = .text t)
    (c : Option (Option ℕ)) : ∃ x, (sessionStep F s (.construct e A c)).1 = .error x ∧ (sessionStep F s (.construct e A c)).2 = s := by
  have : constructArgs e A = .error .typeError := by unfold constructArgs; rw [hA]; rfl
  simp only [sessionStep, this]
  split <;> exact ⟨_, rfl, rfl⟩

/-- **C131** `set_params` accepts a text, whatever the fits: afterwards a fit does exactly what it does after setting the number written by the text, and
raises on valid data, leaving everything as it was, if the text writes no number. -/
theorem C131_text_set (F : Fits G Data Res) {s : Session G} {a : ℕ} {e : EstObj} (he : s.ests[a]? = some e)
    (hc : ∀ c, e.cond = some c → c < s.conds.length) (t : Option Radius) :
    let s1 := (sessionStep F s (.setParams a [.rho (.text t)])).2
    (sessionStep F s (.setParams a [.rho (.text t)])).1 = .ok (.est a) ∧
    (∃ x, sessionStep F s1 (.clone a) = (.error x, s1)) ∧
    ∀ D, (t = none → ∃ x, sessionStep F s1 (.fit a D) = (.error x, s1)) ∧
      ∀ r, t = some r → F.valid e.kind D = .ok () → sessionStep F s1 (.fit a D) = sessionStep F (sessionStep F s (.setParams a [.rho (.float r)])).2 (.fit a D) := by
  have hal : a < s.ests.length := by
    by_contra h
    rw [List.getElem?_eq_none (by omega)] at he
    cases he
  have hset : ∀ v, sessionStep F s (.setParams a [.rho v]) = (.ok (.est a), s.putEst a ((Setting.rho v).apply e)) := by
    intro v
    simp [sessionStep, he, Session.hasValue, setAll, Setting.known, Except.map]
  have hget : ∀ e1, (s.putEst a e1).ests[a]? = some e1 := by
    intro e1
    simp [Session.putEst, hal]
  simp only [hset]
  refine ⟨trivial, ?_, fun D => ⟨?_, ?_⟩⟩
  · have : ∀ e1 : EstObj, e1.args.rho = .text t → constructArgs e1.kind e1.args = .error .typeError := by
      intro e1 h1
      unfold constructArgs; rw [h1]; rfl
    simp only [sessionStep, hget, this ((Setting.rho (.text t)).apply e) rfl]
    split
    · exact ⟨_, rfl⟩
    · split
      · exact ⟨_, rfl⟩
      · split <;> exact ⟨_, rfl⟩
  · rintro rfl
    simp only [sessionStep, hget]
    split
    · exact ⟨_, rfl⟩
    · exact ⟨_, rfl⟩
  · rintro r rfl hval
    have hv : ∀ v, F.valid ((Setting.rho v).apply e).kind D = .ok () := fun v => by rw [apply_kind]; exact hval
    simp only [sessionStep, hget, hv]
    simp only [Setting.apply, RhoArg.toFloat, fitConverted, EstArgs.withRadius, Session.putEst, List.set_set]
    obtain ⟨ek, eA, ec⟩ := e
    cases ec with
    | none =>
      split
      · rfl
      · rfl
      · simp [Session.addCond]
    | some c =>
      have := hc c rfl
      split
      · rfl
      · rfl
      · simp [this]

end

/-- a Weber estimator built with radius `0`, then given the radius `-1`: accepted, and every later fit raises -/
example (g : ℕ) (D : FitData) :
    let F := realFits counterExt weightTorch (fun x => x) onesGrad witExact
      ⟨fun _ _ _ g => (⟨fun _ _ => 0, none⟩, g), fun g => (0, g), fun _ g => (⟨[], 0, 0, 0⟩, g)⟩
    (sessionStep F (noCond g) (.setParams 0 [.rho (.int (-1))])).1 = .ok (.est 0) ∧
    ∃ x, (sessionStep F (sessionStep F (noCond g) (.setParams 0 [.rho (.int (-1))])).2 (.fit 0 D)).1 = .error x := by
  intro F
  obtain ⟨h1, h2⟩ := C131_session_partial (ext := counterExt) (T := weightTorch) (fl := fun x => x) (grads := onesGrad)
    (draws := ⟨fun _ _ _ g => (⟨fun _ _ => 0, none⟩, g), fun g => (0, g), fun _ g => (⟨[], 0, 0, 0⟩, g)⟩)
    witExact_exact (s := noCond g) (a := 0) (e := ⟨.weber, wUser, none⟩) rfl (v := .int (-1)) (r := -1) (by simp [RhoArg.toFloat]) (by norm_num)
  exact ⟨h1, (h2 [] (by simp)).2 (by simp) D⟩

/-- the dedicated news vendor at radius `-1`, two demands: orders nothing -/
example (solve : Oracle) (train : Trainer 1) : ∃ f cT, newsvendorFit counterExt (onesGrad 1) solve train 0
    { EstKind.newsvendor.defaults with rho := .num (-1), solver := "dedicated".toList } (fun (_ : Fin 2) (_ : Fin 1) => 3) 0 = .ok f ∧
    f.coef = some cT ∧ IsScalar cT 0 :=
  C131_newsvendor_false (r := -1) rfl (by norm_num) rfl ⟨_, rfl⟩ le_rfl one_pos _ (fun _ _ => by norm_num) _ _ _ _

/-- the text `'0.5'`: refused by the constructor, accepted by `set_params`, read as `0.5` by `fit` -/
example (g : ℕ) (e : EstKind) (P : EstParams) :
    (∃ x, (sessionStep wFits (noCond g) (.construct e ⟨.text (some (.num (1 / 2))), P⟩ none)).1 = .error x) ∧
    (sessionStep wFits (noCond g) (.setParams 0 [.rho (.text (some (.num (1 / 2))))])).1 = .ok (.est 0) := by
  obtain ⟨x, h, -⟩ := C131_text_constructor wFits (noCond g) e ⟨.text (some (.num (1 / 2))), P⟩ rfl none
  exact ⟨⟨x, h⟩, (C131_text_set wFits (s := noCond g) (a := 0) (e := ⟨.weber, wUser, none⟩) rfl (by simp) _).1⟩

end Skwdro
