import Verif.Props.FitRaises
import Verif.Props.SessionFits

/-! # C107: reusing an optimality condition for several fits -/

namespace Skwdro
namespace Spec

/-- a training that can be made: shapes agree, the cost is supported, the radius is not negative, there is at least one iteration -/
structure JobReady (J : TorchJob) : Prop where
  fit : ∃ m k mc, ArgsFit J.args J.M0 m k mc
  cost : CostReady (J.args J.M0)
  rho : ∀ r, (J.args J.M0).rho = .num r → 0 ≤ r
  iter : 0 < (toSteps J.steps).iterations

/-- an optimality condition with documented settings -/
structure Documented (cfg : OCConfig) : Prop where
  metric : cfg.metric = "grad".toList ∨ cfg.metric = "param".toList
  mode : cfg.mode = "rel".toList ∨ cfg.mode = "abs".toList
  monitoring : cfg.monitoring ∈ L_AND_T ∨ cfg.monitoring ∈ L_OR_T ∨ cfg.monitoring ∈ JUST_L ∨ cfg.monitoring ∈ JUST_T

end Spec
open Spec Tensor

section
variable {G O : Type} {ext : TorchExt G} {T : Torch G O} {fl : ℝ → ℝ} {cfg : OCConfig}

/-- memory and generator after the trainings `Js`, one after the other, with the same condition -/
noncomputable def afterJobs (ext : TorchExt G) (T : Torch G O) (fl : ℝ → ℝ) (cfg : OCConfig) (Js : List TorchJob) (p : OCState × G) : OCState × G :=
  Js.foldl (fun p J => J.after ext T fl ⟨cfg, p.1⟩ p.2) p

theorem memFits_fresh (n : ℕ) : MemFits freshOC n := by
  refine ⟨fun a h => ?_, fun a h => ?_, fun h => ?_, fun h => ?_⟩ <;> simp [freshOC] at h

theorem documented_ready (hcfg : Documented cfg) {oc : OCState} {n : ℕ} {rho : Radius} (hm : cfg.metric = "param".toList → MemFits oc n)
    (hl : WatchesLamGrad cfg → rho ≠ .num 0) : CondReady cfg oc n rho := ⟨hcfg.metric, hcfg.mode, hcfg.monitoring, hm, hl⟩

/-- a training keeps the iterates remembered of the right size -/
theorem after_memFits (hT : GoodTorch T) (hcfg : Documented cfg) {J : TorchJob} (hJ : JobReady J)
    (hl : WatchesLamGrad cfg → (J.args J.M0).rho ≠ .num 0) {oc : OCState} (hm : cfg.metric = "param".toList → MemFits oc J.M0.theta.length) (g : G) :
    (∃ M r, solveTorch ext T cfg fl J.args J.M0 J.steps oc g = .ok (M, r)) ∧
      (cfg.metric = "param".toList → MemFits (J.after ext T fl ⟨cfg, oc⟩ g).1 J.M0.theta.length) := by
  obtain ⟨m, k, mc, ha⟩ := hJ.fit
  obtain ⟨D, g', s, hD, hs, hk⟩ := costReady_dualize (ext := ext) hJ.cost g
  rcases solveRun_holds (ok := true) (fl := fl) (fun _ => hT) hD ha hk hJ.rho hJ.iter oc hs (fun _ => documented_ready hcfg hm hl) with
    ⟨r, st, h1, h2, -⟩ | ⟨h, -⟩
  · refine ⟨⟨st.w.mod, r, by simp only [solveTorch, hD, ok_bind, h1]⟩, fun h => ?_⟩
    unfold TorchJob.after
    rw [hD]
    dsimp only
    rw [h1]
    exact (h2 rfl).memory h
  · cases h

/-- **C107** (partial: see `C107_other_size_false` for conditions on the motion of the parameters) A condition can serve any number of trainings, of whatever
estimators, data and radii, one after the other: each of them returns.  With a condition on the motion of the iterates the problems must have the same
number of parameters.  (At radius zero the condition must not look at the gradient of the multiplier, as in C86.) -/
theorem C107_reuse_partial (hT : GoodTorch T) (hcfg : Documented cfg) {Js : List TorchJob} {J : TorchJob} (hJ : ∀ K ∈ J :: Js, JobReady K)
    (hl : WatchesLamGrad cfg → ∀ K ∈ J :: Js, (K.args K.M0).rho ≠ .num 0)
    (hsize : cfg.metric = "param".toList → ∀ K ∈ Js, K.M0.theta.length = J.M0.theta.length) (g : G) :
    ∃ M r, solveTorch ext T cfg fl J.args J.M0 J.steps (afterJobs ext T fl cfg Js (freshOC, g)).1 (afterJobs ext T fl cfg Js (freshOC, g)).2 =
      .ok (M, r) := by
  have key : ∀ (Js : List TorchJob) (p : OCState × G), (∀ K ∈ Js, JobReady K) → (WatchesLamGrad cfg → ∀ K ∈ Js, (K.args K.M0).rho ≠ .num 0) →
      (cfg.metric = "param".toList → ∀ K ∈ Js, K.M0.theta.length = J.M0.theta.length) →
      (cfg.metric = "param".toList → MemFits p.1 J.M0.theta.length) →
      cfg.metric = "param".toList → MemFits (afterJobs ext T fl cfg Js p).1 J.M0.theta.length := by
    intro Js
    induction Js with
    | nil => intro p _ _ _ h; exact h
    | cons K Js ih =>
      intro p h1 h2 h3 h4
      refine ih _ (fun K' h => h1 K' (List.mem_cons_of_mem _ h)) (fun hw K' h => h2 hw K' (List.mem_cons_of_mem _ h))
        (fun hw K' h => h3 hw K' (List.mem_cons_of_mem _ h)) fun hm => ?_
      have := (after_memFits (ext := ext) (fl := fl) hT hcfg (h1 K List.mem_cons_self) (fun hw => h2 hw K List.mem_cons_self) (oc := p.1)
        (fun hm => by rw [h3 hm K List.mem_cons_self]; exact h4 hm) p.2).2 hm
      rwa [h3 hm K List.mem_cons_self] at this
  exact (after_memFits hT hcfg (hJ J List.mem_cons_self) (fun hw => hl hw J List.mem_cons_self)
    (key Js (freshOC, g) (fun K h => hJ K (List.mem_cons_of_mem _ h)) (fun hw K h => hl hw K (List.mem_cons_of_mem _ h)) hsize
      fun _ => memFits_fresh _) _).1

/-! ## A condition on the motion of the parameters remembers them -/

theorem trained_last {σ : Type} {Iter : ℕ → σ → σ → XNum ℝ → Bool → Prop} {P : σ → Prop} (hP : ∀ k s t x b, Iter k s t x b → P t) {n k : ℕ} {s t : σ}
    {x : XNum ℝ} (h : Trained Iter n k s t x) : P t := by
  induction h with
  | last k s t x b _ _ h => exact hP _ _ _ _ _ h
  | next k s t u x y _ _ _ ih => exact ih

/-- the verdict of a condition on the motion of the parameters -/
theorem verdict_remembers {v : OptView O} {n : ℤ} {k : ℕ} {x : XNum ℝ} {oc oc' : OCState} {b : Bool} (hm : cfg.metric = "param".toList) (ht : 0 < cfg.tolTheta)
    (hmon : cfg.monitoring ∈ JUST_T) (hx : x.isNan = false) (h : Verdict cfg n k x v oc oc' b) : oc'.t.t0.isSome = true := by
  unfold Verdict at h
  rw [if_neg (by rintro rfl; cases hx)] at h
  have hn : cfg.monitoring ∉ L_AND_T ∧ cfg.monitoring ∉ L_OR_T ∧ cfg.monitoring ∉ JUST_L := by
    simp only [JUST_T, List.mem_cons, List.not_mem_nil, or_false] at hmon
    rcases hmon with h | h <;> rw [h] <;> decide
  unfold ocCall checkAllParams at h
  rw [if_neg hn.1, if_neg hn.2.1, if_neg hn.2.2, if_pos hmon] at h
  have hT : (checkT cfg oc.t ⟨0, fun _ => v.lam, v.lgrad, [(v.params, v.pgrad)], n⟩).1.toOption.isSome = true →
      (checkT cfg oc.t ⟨0, fun _ => v.lam, v.lgrad, [(v.params, v.pgrad)], n⟩).2.t0.isSome = true := by
    unfold checkT
    rw [if_neg (by linarith), if_neg (by rw [hm]; decide), if_pos hm]
    simp only [flatParam]
    rw [if_neg (by simp)]
    dsimp only
    split
    · intro _; rfl
    · next h0 _ => split <;> (intro _; simp [h0])
    · intro h; cases h
    · next h0 _ _ => split <;> (intro _; simp [h0])
  cases hc : checkT cfg oc.t ⟨0, fun _ => v.lam, v.lgrad, [(v.params, v.pgrad)], n⟩ with
  | mk r t =>
    rw [hc] at h hT
    cases r with
    | error e => cases h
    | ok r => cases h; exact hT rfl

/-- memory of the condition, variables and result of a pre-sampled training, as in C101 -/
theorem solveRun_pre {d : ℕ} {args : Module d → DualizeArgs} {M0 : Module d} {D : DualLoss} (hT : InPlace T) {g' : G} {s0 : Sampler}
    (hs : D.sampler = some s0) (hpost : (args M0).post_sample = false) {steps : ℤ ⊕ (ℤ × ℤ)} {p q : ℤ}
    (hi : interpretSteps fl split03 (toSteps steps) = .ok (p, q))
    {n : ℕ} (hn : (toSteps steps).iterations = n) (hn0 : 0 < n) (oc : OCState) {r : Solved (List ℝ)}
    (h : (solveRun ext T cfg fl args D M0 steps oc g').1 = .ok r) :
    ∃ Z gen v3 v4 oc', Trained (PreIter ext T cfg n args D M0 gen Z) n 0 (v3, oc) (v4, oc') r.robust_loss ∧
      (solveRun ext T cfg fl args D M0 steps oc g').2.w.oc = oc' := by
  have key := solveDual_holds (out := fitReadout (d := d) (G := G) (O := O)) (presample := true)
    (rhoPos := (args M0).rho.isPos) (P := fun st => st = startState T M0 D g' oc) (ok := false) hi
    (env := preEnv ext T args D M0 cfg (toSteps steps).iterations)
    (h := by
      simp only [if_true]
      refine (optimPre_at (mi := (toSteps steps).iterations) (ext := ext) (T := T) (args := args) (cfg := cfg) (M0 := M0) hT (p := p)
        (n := (toSteps steps).iterations) (by omega) (g := g') hs ⟨M0.theta, D.lam, none, none, T.o0⟩ oc rfl rfl).weaken ?_ fun _ _ hs => hs
      rintro st rfl
      exact ⟨rfl, sameShape_refl M0, rfl, rfl, rfl, rfl⟩)
  have er : solveRun ext T cfg fl args D M0 steps oc g' = solveDual (preEnv ext T args D M0 cfg (toSteps steps).iterations) fitReadout true
      (args M0).rho.isPos fl (toSteps steps) (startState T M0 D g' oc) := by
    simp only [solveRun, hpost]
    rfl
  rw [er] at h ⊢
  rcases key _ rfl with ⟨r', st, h1, -, -, -, v1, v2, v3, v4, oc', h5, h6, h7, h8, h9⟩ | ⟨-, e, st, h1⟩
  · rw [h1] at h ⊢
    cases h
    rw [hn, Int.toNat_natCast] at h8
    exact ⟨_, _, v3, v4, oc', h8, h9.2.2.2⟩
  · rw [h1] at h
    cases h

/-- what a training with a condition on the motion of the parameters leaves in its memory -/
theorem after_remembers (hT : GoodTorch T) (hP : InPlace T) (hcfg : Documented cfg) (hm : cfg.metric = "param".toList) (ht : 0 < cfg.tolTheta)
    (hmon : cfg.monitoring ∈ JUST_T) {J : TorchJob} (hJ : JobReady J) (hnan : (J.args J.M0).rho ≠ .nan)
    (himp : (J.args J.M0).imp_samp = false ∨ (J.args J.M0).rho = .num 0) {oc : OCState} (hmem : MemFits oc J.M0.theta.length) (g : G) :
    (J.after ext T fl ⟨cfg, oc⟩ g).1.t.t0.isSome = true := by
  obtain ⟨m, k, mc, ha⟩ := hJ.fit
  obtain ⟨D, g', s, hD, hs, hk⟩ := costReady_dualize (ext := ext) hJ.cost g
  have hw : WatchesLamGrad cfg → (J.args J.M0).rho ≠ .num 0 := by
    rintro ⟨h, -⟩
    rw [hm] at h
    exact absurd h (by decide)
  have hDr : D.rho = (J.args J.M0).rho := by
    obtain ⟨parsed, obj, c, s, -, -, -, -, rfl⟩ := dualize_ok hD
    rfl
  have hi : D.impSamp = false ∨ (J.args J.M0).rho = .num 0 := by
    refine himp.imp (fun h => ?_) id
    by_contra h1
    have h2 := (C21_enabled_iff ext hD).1 (by simpa using h1)
    rw [h] at h2
    exact absurd h2.1 (by simp)
  obtain ⟨⟨p, q⟩, hi'⟩ : ∃ a, interpretSteps fl split03 (toSteps J.steps) = .ok a := by
    cases toSteps J.steps with
    | one n => exact ⟨_, if_pos (by unfold split03; norm_num)⟩
    | pair p n => exact ⟨_, rfl⟩
  obtain ⟨n, hn⟩ := Int.eq_ofNat_of_zero_le hJ.iter.le
  have hn0 : 0 < n := by have := hJ.iter; omega
  rcases solveRun_holds (ok := true) (fl := fl) (fun _ => hT) hD ha hk hJ.rho hJ.iter oc hs
    (fun _ => documented_ready hcfg (fun _ => hmem) hw) with ⟨r, st, h1, -⟩ | ⟨h, -⟩
  swap
  · cases h
  unfold TorchJob.after
  rw [hD]
  dsimp only
  cases hpost : (J.args J.M0).post_sample with
  | false =>
    obtain ⟨Z, gen, v3, v4, oc', h2, h3⟩ := solveRun_pre hP hs hpost hi' hn hn0 oc (r := r) (by rw [h1])
    rw [h3]
    refine trained_last (P := fun t : OptView O × OCState => t.2.t.t0.isSome = true) (fun k s t x b h => ?_) h2
    obtain ⟨w, q, -, hx, hv, hq⟩ := h
    rw [if_neg (by rw [hm]; decide)] at hq
    refine verdict_remembers hm ht hmon ?_ hv
    refine (computeDual_nan (imp := false) (fun h => by cases h) hq.1 hx false).2 ?_ (Or.inl rfl)
    rw [show ({ lossFor J.args D J.M0 false w with impSamp := false } : DualLoss).rho = D.rho from rfl, hDr]
    exact hnan
  | true =>
    obtain ⟨v1, g1, v2, v3, g3, oc', -, -, h2, -, h3⟩ := solveRun_post hP (dualize_steady hD) hpost hi' hn hn0 oc (r := r) (by rw [h1])
    rw [h3]
    refine trained_last (P := fun t : (OptView O × G) × OCState => t.2.t.t0.isSome = true) (fun k s t x b h => ?_) h2
    obtain ⟨⟨q, D', hq, hx, -⟩, hv⟩ := h
    refine verdict_remembers hm ht hmon ?_ hv
    have hr : (lossFor J.args D J.M0 false s.1.1).rho = (J.args J.M0).rho := hDr
    have hst := dualize_steady hD
    rw [postForward_steady (D := lossFor J.args D J.M0 false s.1.1) hst] at hq
    have := (postForward_nan (D := lossFor J.args D J.M0 false s.1.1) (imp := D.impSamp) (fun h => h) hq hx false).2
    rw [hr] at this
    exact this hnan hi

/-- **C107** (violated) A condition on the motion of the parameters cannot be used for a second problem with another number of parameters (more than one
each): whatever the two problems, the estimators and the optimizer, the first training returns and the second raises `RuntimeError`, as the condition still
remembers the parameters of the first. -/
theorem C107_other_size_false (hT : GoodTorch T) (hP : InPlace T) (hcfg : Documented cfg) (hm : cfg.metric = "param".toList) (ht : 0 < cfg.tolTheta)
    (hmon : cfg.monitoring ∈ JUST_T) {J K : TorchJob} (hJ : JobReady J) (hK : JobReady K)
    (hnan : (J.args J.M0).rho ≠ .nan ∧ (K.args K.M0).rho ≠ .nan) (himp : ((J.args J.M0).imp_samp = false ∨ (J.args J.M0).rho = .num 0) ∧
      ((K.args K.M0).imp_samp = false ∨ (K.args K.M0).rho = .num 0))
    (hne : J.M0.theta.length ≠ K.M0.theta.length) (h1 : 1 < J.M0.theta.length) (h2 : 1 < K.M0.theta.length) (g : G) :
    (∃ M r, solveTorch ext T cfg fl J.args J.M0 J.steps freshOC g = .ok (M, r)) ∧
      solveTorch ext T cfg fl K.args K.M0 K.steps (J.after ext T fl ⟨cfg, freshOC⟩ g).1 (J.after ext T fl ⟨cfg, freshOC⟩ g).2 = .error .runtimeError := by
  have hw : WatchesLamGrad cfg → (J.args J.M0).rho ≠ .num 0 := by
    rintro ⟨h, -⟩
    rw [hm] at h
    exact absurd h (by decide)
  obtain ⟨h3, h4⟩ := after_memFits (ext := ext) (fl := fl) hT hcfg hJ hw (oc := freshOC) (fun _ => memFits_fresh _) g
  obtain ⟨m, k, mc, ha⟩ := hK.fit
  refine ⟨h3, C86_other_sizes_false hT ha hK.cost ?_ himp.2 hK.iter hm ht hmon (h4 hm)
    (after_remembers hT hP hcfg hm ht hmon hJ hnan.1 himp.1 (memFits_fresh _) g) hne h1 h2 _⟩
  cases hr : (K.args K.M0).rho with
  | nan => exact absurd hr hnan.2
  | num r => exact ⟨r, rfl, hK.rho r hr⟩

end

end Skwdro
