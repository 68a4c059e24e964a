import Verif.Props.Reuse

/-! # C104, C107 for programs: fits one after the other -/

namespace Skwdro
namespace Spec

/-- estimators of labelled data -/
def labelled : EstKind → Bool
  | .portfolio | .newsvendor => false
  | _ => true

/-- number of parameters trained: weights and biases of a linear map (one output, or one per class beyond two), a position, portfolio weights with
the auxiliary threshold, an order -/
noncomputable def paramCount (e : EstKind) (fit_intercept : Bool) (D : FitData) : ℕ :=
  match e with
  | .logistic =>
    let K := if (npUnique D.y).length = 2 then 1 else (npUnique D.y).length
    K * D.d + if fit_intercept then K else 0
  | .linreg => D.d + 1
  | .weber => D.d
  | .portfolio => D.d + 1
  | .newsvendor => 1

/-- fresh modules are what was asked for -/
structure GoodDraws {G : Type} (draws : Draws G) : Prop where
  lin : ∀ d K b g, (draws.lin d K b g).1.bias.isSome = b
  portfolio : ∀ d g, (draws.portfolio d g).1.raw.length = d

/-- settings and data with which an estimator trains with torch (pre- or post-sampled) -/
structure EstReady (e : EstKind) (P : EstParams) (D : FitData) (post : Bool) : Prop where
  route : fitRoute e P D = .ok (.torch post)
  data : 0 < D.n ∧ 0 < D.d
  fit : FitReady P (labelled e)

/-- `fit(D)` on estimator `a` of the session trains with torch, with a documented condition: one that does not look at the gradient of a frozen
multiplier and, if it is on the motion of the iterates, is used for `N c` parameters only (`c` being the condition) -/
def CanFit {G : Type} (N : ℕ → ℕ) (s : Session G) (a : ℕ) (D : FitData) : Prop :=
  ∃ e r post, s.ests[a]? = some e ∧ e.args.rho.toFloat = .ok r ∧ EstReady e.kind (e.args.withRadius r) D post ∧
    ∀ c, e.cond = some c → ∃ co, s.conds[c]? = some co ∧ Documented co.cfg ∧ (WatchesLamGrad co.cfg → r ≠ .num 0) ∧
      (co.cfg.metric = "param".toList → paramCount e.kind e.args.rest.fit_intercept D = N c)

/-- conditions on the motion of iterates remember iterates of the number of parameters they are for (in particular if they remember nothing) -/
def Remembers {G : Type} (N : ℕ → ℕ) (s : Session G) : Prop :=
  ∀ c co, s.conds[c]? = some co → co.cfg.metric = "param".toList → MemFits co.mem (N c)

/-- importance sampling is not used: at radius zero, or with the pre-sampled solver of the linear models -/
def NoImportance (e : EstKind) (post : Bool) (r : Radius) : Prop := r = .num 0 ∨ ((e = .logistic ∨ e = .linreg) ∧ post = false)

end Spec
open Spec Tensor

section
variable {G O : Type} {ext : TorchExt G} {T : Torch G O} {fl : ℝ → ℝ} {grads : (d : ℕ) → Autograd d} {solve : Oracle} {draws : Draws G}

theorem params_length {d K : ℕ} (l : LinMap d K) : l.params.length = K * d + if l.bias.isSome then K else 0 := by
  unfold LinMap.params
  rw [List.length_append, List.length_flatten]
  congr 1
  · rw [List.map_ofFn, List.sum_ofFn]
    simp
  · cases l.bias <;> simp

theorem torchJob_binary {P : EstParams} {D : FitData} {post : Bool} {g : G} (h : (npUnique D.y).length = 2) :
    torchJob grads draws .logistic P D post g = (⟨D.d, torchArgs (grads D.d) .logistic P post false (matT D.X)
      (some (matT fun i (_ : Fin 1) => encodeBinary (npUnique D.y) (D.y i))), .softMargin (draws.lin D.d 1 P.fit_intercept g).1,
      trainSteps .logistic P post⟩, (draws.lin D.d 1 P.fit_intercept g).2) := if_pos h

theorem torchJob_multi {P : EstParams} {D : FitData} {post : Bool} {g : G} (h : (npUnique D.y).length ≠ 2) :
    torchJob grads draws .logistic P D post g = (⟨D.d, torchArgs (grads D.d) .logistic P post true (matT D.X)
      (some (matT fun i => encodeOneHot (npUnique D.y) (D.y i))), .crossEnt (draws.lin D.d (npUnique D.y).length P.fit_intercept g).1,
      trainSteps .logistic P post⟩, (draws.lin D.d (npUnique D.y).length P.fit_intercept g).2) := if_neg h

theorem torchJob_count (hd : GoodDraws draws) (e : EstKind) (P : EstParams) (D : FitData) (post : Bool) (g : G) :
    (torchJob grads draws e P D post g).1.M0.theta.length = paramCount e P.fit_intercept D := by
  cases e with
  | logistic =>
    by_cases h : (npUnique D.y).length = 2
    · rw [torchJob_binary h]
      simp [Module.theta, params_length, hd.lin, paramCount, h]
    · rw [torchJob_multi h]
      simp [Module.theta, params_length, hd.lin, paramCount, h]
  | linreg => simp [torchJob, Module.theta, params_length, hd.lin, paramCount]
  | weber => simp [torchJob, Module.theta, paramCount]
  | portfolio => simp [torchJob, Module.theta, paramCount, hd.portfolio]
  | newsvendor => rfl

theorem torchJob_ready (hg : ∀ d M, GradShapes (grads d M)) (hd : GoodDraws draws) {e : EstKind} {P : EstParams} {D : FitData} {post : Bool}
    (h : EstReady e P D post) (g : G) : JobReady (torchJob grads draws e P D post g).1 := by
  have key : ∀ {d : ℕ} (gr : Autograd d) (_ : ∀ M, GradShapes (gr M)) {mc : Bool} {X : Tensor ℝ} {y : Option (Tensor ℝ)} {M0 : Module d} {m k : ℕ}
      (_ : X.shape = [m, d]) (_ : ∀ t, y = some t → t.shape = [m, k]) (_ : ModFits M0 k y.isSome mc) (_ : FitReady P y.isSome),
      JobReady ⟨d, torchArgs gr e P post mc X y, M0, trainSteps e P post⟩ := by
    intro d gr hgr mc X y M0 m k hX hy hM hP
    exact ⟨⟨m, k, mc, torch_argsFit hgr e P post hX hy hM⟩, torch_costReady hP, h.fit.rho, trainSteps_pos h.fit.iter e post⟩
  have hf := h.fit
  cases e with
  | logistic =>
    unfold torchJob
    dsimp only
    split
    · exact key (k := 1) _ (hg _) rfl (by intro t ht; cases ht; rfl) ⟨rfl, rfl, rfl⟩ hf
    · exact key _ (hg _) rfl (by intro t ht; cases ht; rfl) ⟨rfl, rfl, rfl⟩ hf
  | linreg => exact key (k := 1) _ (hg _) rfl (by intro t ht; cases ht; rfl) ⟨rfl, rfl, rfl⟩ hf
  | weber => exact key (k := 1) _ (hg _) rfl (by intro t ht; cases ht; rfl) ⟨rfl, rfl, rfl⟩ hf
  | portfolio => exact key (k := 1) _ (hg _) rfl (by intro t ht; cases ht) ⟨rfl, rfl, hd.portfolio _ _⟩ hf
  | newsvendor => exact key (k := 1) _ (hg _) rfl (by intro t ht; cases ht) ⟨rfl, rfl, rfl⟩ hf

theorem torchJob_rho (e : EstKind) (P : EstParams) (D : FitData) (post : Bool) (g : G) :
    ((torchJob grads draws e P D post g).1.args (torchJob grads draws e P D post g).1.M0).rho = P.rho := by
  cases e with
  | logistic =>
    by_cases h : (npUnique D.y).length = 2
    · rw [torchJob_binary h]; rfl
    · rw [torchJob_multi h]; rfl
  | _ => rfl

/-- the outcome of `fit` is that of the training -/
theorem estFit_outcome (hd : GoodDraws draws) {e : EstKind} {P : EstParams} {D : FitData} {post : Bool} (h : EstReady e P D post) (co : CondObj) (g : G) :
    (estFit ext T fl grads solve draws e P co D g).map (fun _ => ()) =
      (solveTorch ext T co.cfg fl (torchJob grads draws e P D post g).1.args (torchJob grads draws e P D post g).1.M0
        (torchJob grads draws e P D post g).1.steps co.mem (torchJob grads draws e P D post g).2).map fun _ => () := by
  obtain ⟨hr, ⟨hn, hdim⟩, hP⟩ := h
  have hsh : ∀ {d : ℕ} {gr : Autograd d} {e : EstKind} {post mc : Bool} {X : Tensor ℝ} {y : Option (Tensor ℝ)} {M0 M : Module d} {g : G},
      fitTorch ext gr (realTrainer ext T co.cfg fl co.mem g) e P post mc X y M0 g = .ok M → SameShape M0 M := fun h =>
    fitTorch_ok (C89_architecture_kept co.mem _) h
  have key : ∀ {d : ℕ} {gr : Autograd d} {e : EstKind} {post mc : Bool} {X : Tensor ℝ} {y : Option (Tensor ℝ)} {M0 : Module d} {g : G},
      (∀ x, solveTorch ext T co.cfg fl (torchArgs gr e P post mc X y) M0 (trainSteps e P post) co.mem g = .error x →
        fitTorch ext gr (realTrainer ext T co.cfg fl co.mem g) e P post mc X y M0 g = .error x) ∧
      (∀ z, solveTorch ext T co.cfg fl (torchArgs gr e P post mc X y) M0 (trainSteps e P post) co.mem g = .ok z →
        fitTorch ext gr (realTrainer ext T co.cfg fl co.mem g) e P post mc X y M0 g = .ok z.1) := by
    intro d gr e post mc X y M0 g
    constructor <;> intro x hx <;> rw [fitTorch_runs, hx] <;> rfl
  obtain ⟨c, hcode⟩ := hP.code
  cases e with
  | weber =>
    simp only [fitRoute] at hr
    simp only [estFit, weberFit, hr, ok_bind, torchJob]
    rw [if_neg (by omega)]
    cases hs : solveTorch ext T co.cfg fl (torchArgs (grads D.d) .weber P post false (matT D.X) (some (matT fun i (_ : Fin 1) => D.y i)))
      (.weber fun _ => 0) (trainSteps .weber P post) co.mem g with
    | error x => rw [key.1 x hs]; rfl
    | ok z =>
      have h1 := key.2 z hs
      have h2 := hsh h1
      obtain ⟨M, r⟩ := z
      rw [h1]
      cases M <;> first | rfl | exact h2.elim
  | linreg =>
    simp only [fitRoute, hcode, ok_bind] at hr
    simp only [estFit, linregFit, hcode, hr, ok_bind, torchJob]
    rw [if_neg (by omega)]
    cases hs : solveTorch ext T co.cfg fl (torchArgs (grads D.d) .linreg P post false (matT D.X) (some (matT fun i (_ : Fin 1) => D.y i)))
      (.mse (draws.lin D.d 1 true g).1) (trainSteps .linreg P post) co.mem (draws.lin D.d 1 true g).2 with
    | error x => rw [key.1 x hs]; rfl
    | ok z =>
      have h1 := key.2 z hs
      have h2 := hsh h1
      obtain ⟨M, r⟩ := z
      rw [h1]
      cases M <;> first | rfl | exact h2.elim
  | portfolio =>
    simp only [fitRoute, hcode, ok_bind] at hr
    cases hreg : regAsFloat P with
    | error x => rw [hreg] at hr; cases hr
    | ok u =>
    rw [hreg, ok_bind] at hr
    simp only [estFit, portfolioFit, hcode, hr, hreg, ok_bind, torchJob]
    rw [if_neg (by omega)]
    cases hs : solveTorch ext T co.cfg fl (torchArgs (grads D.d) .portfolio P post false (matT D.X) none)
      (.portfolio { (draws.portfolio D.d g).1 with eta := P.eta, alpha := P.alpha }) (trainSteps .portfolio P post) co.mem (draws.portfolio D.d g).2 with
    | error x => rw [key.1 x hs]; rfl
    | ok z =>
      have h1 := key.2 z hs
      have h2 := hsh h1
      obtain ⟨M, r⟩ := z
      rw [h1]
      cases M <;> first | rfl | exact h2.elim
  | newsvendor =>
    simp only [fitRoute, hcode, ok_bind] at hr
    simp only [estFit, newsvendorFit, hcode, hr, ok_bind, torchJob]
    rw [if_neg (by omega)]
    cases hs : solveTorch ext T co.cfg fl (torchArgs (grads 1) .newsvendor P post false (matT fun i (_ : Fin 1) => rowMeans D.X i) none)
      (.newsvendor P.k P.u (draws.order g).1) (trainSteps .newsvendor P post) co.mem (draws.order g).2 with
    | error x => rw [key.1 x hs]; rfl
    | ok z =>
      have h1 := key.2 z hs
      have h2 := hsh h1
      obtain ⟨M, r⟩ := z
      rw [h1]
      cases M <;> first | rfl | exact h2.elim
  | logistic =>
    simp only [fitRoute] at hr
    split at hr
    · cases hr
    next hK =>
    cases hro : route .logistic P.solver with
    | error x => rw [hcode, hro] at hr; cases hr
    | ok ro =>
    rw [hcode, hro] at hr
    cases ro with
    | dedicated =>
      simp only [ok_bind] at hr
      split at hr <;> cases hr
    | torch post' =>
    cases hr
    have hb : ∀ {K : ℕ} (l : LinMap D.d K), l.bias.isSome = P.fit_intercept →
        ∃ t, (if P.fit_intercept then l.biasArray.map fun b => (some l.weightArray, some b) else .ok (some l.weightArray, none) :
          Except PyErr (Option (Tensor ℝ) × Option (Tensor ℝ))) = .ok t := by
      intro K l hl
      cases hf : P.fit_intercept with
      | false => exact ⟨_, rfl⟩
      | true =>
        rw [hf] at hl
        obtain ⟨b, hb⟩ := Option.isSome_iff_exists.1 hl
        exact ⟨_, by simp only [if_true, LinMap.biasArray, hb]; rfl⟩
    by_cases h2 : (npUnique D.y).length = 2
    · rw [torchJob_binary h2]
      dsimp only
      simp only [estFit]
      rw [show (if (npUnique D.y).length = 2 then 1 else (npUnique D.y).length) = 1 from if_pos h2]
      simp only [logisticFit, hcode, hro, ok_bind, if_pos h2, if_neg hK]
      rw [if_neg (show ¬(D.n = 0 ∨ D.d = 0) by omega)]
      cases hs : solveTorch ext T co.cfg fl (torchArgs (grads D.d) .logistic P post false (matT D.X)
        (some (matT fun i (_ : Fin 1) => encodeBinary (npUnique D.y) (D.y i)))) (.softMargin (draws.lin D.d 1 P.fit_intercept g).1)
        (trainSteps .logistic P post) co.mem (draws.lin D.d 1 P.fit_intercept g).2 with
      | error x => rw [key.1 x hs]; rfl
      | ok z =>
        have h1 := key.2 z hs
        have h3 := hsh h1
        obtain ⟨M, r⟩ := z
        rw [h1]
        cases M with
        | softMargin l =>
          obtain ⟨t, ht⟩ := hb l (by rw [← show _ = _ from h3, hd.lin])
          simp only [ok_bind, logisticRead, ht]
          rfl
        | _ => exact h3.elim
    · rw [torchJob_multi h2]
      dsimp only
      simp only [estFit]
      rw [show (if (npUnique D.y).length = 2 then 1 else (npUnique D.y).length) = (npUnique D.y).length from if_neg h2]
      simp only [logisticFit, hcode, hro, ok_bind, if_neg h2, if_neg hK]
      rw [if_neg (show ¬(D.n = 0 ∨ D.d = 0) by omega)]
      cases hs : solveTorch ext T co.cfg fl (torchArgs (grads D.d) .logistic P post true (matT D.X)
        (some (matT fun i => encodeOneHot (npUnique D.y) (D.y i)))) (.crossEnt (draws.lin D.d (npUnique D.y).length P.fit_intercept g).1)
        (trainSteps .logistic P post) co.mem (draws.lin D.d (npUnique D.y).length P.fit_intercept g).2 with
      | error x => rw [key.1 x hs]; rfl
      | ok z =>
        have h1 := key.2 z hs
        have h3 := hsh h1
        obtain ⟨M, r⟩ := z
        rw [h1]
        cases M with
        | crossEnt l =>
          obtain ⟨hK', h3⟩ := h3
          obtain ⟨t, ht⟩ := hb l (by rw [← h3, hd.lin])
          simp only [ok_bind, logisticRead, ht]
          rfl
        | _ => exact h3.elim

theorem fit_step {s : Session G} {a c : ℕ} {e : EstObj} {r : Radius} {D : FitData} {post : Bool} {co : CondObj} (he : s.ests[a]? = some e)
    (hr : e.args.rho.toFloat = .ok r) (h : EstReady e.kind (e.args.withRadius r) D post) (hc : c = e.cond.getD s.conds.length)
    (hco : (if e.cond.isNone then s.addCond ⟨stdCond, freshOC⟩ else s).conds[c]? = some co) :
    sessionStep (realFits ext T fl grads solve draws) s (.fit a D) =
      ((estFit ext T fl grads solve draws e.kind (e.args.withRadius r) co D s.gen).map .fitted,
        ⟨(if e.cond.isNone then s.addCond ⟨stdCond, freshOC⟩ else s).conds.set c
          ⟨co.cfg, ((torchJob grads draws e.kind (e.args.withRadius r) D post s.gen).1.after ext T fl co
            (torchJob grads draws e.kind (e.args.withRadius r) D post s.gen).2).1⟩,
          s.ests.set a ⟨e.kind, { e.args with rho := .float r }, some c⟩,
          ((torchJob grads draws e.kind (e.args.withRadius r) D post s.gen).1.after ext T fl co
            (torchJob grads draws e.kind (e.args.withRadius r) D post s.gen).2).2⟩) := by
  have hv : (realFits ext T fl grads solve draws).valid e.kind D = .ok () := by
    have := h.data
    simp only [realFits]
    rw [if_neg (by omega)]
  have ht : (realFits ext T fl grads solve draws).torch e.kind (e.args.withRadius r) D = .ok true := by
    simp only [realFits, h.route]
    rfl
  have hrun : (realFits ext T fl grads solve draws).run e.kind (e.args.withRadius r) co D s.gen =
      (estFit ext T fl grads solve draws e.kind (e.args.withRadius r) co D s.gen,
        (torchJob grads draws e.kind (e.args.withRadius r) D post s.gen).1.after ext T fl co
          (torchJob grads draws e.kind (e.args.withRadius r) D post s.gen).2) := by
    simp only [realFits, h.route]
  simp only [sessionStep, he, hv, hr, fitConverted]
  rw [show EstArgs.withRadius { e.args with rho := .float r } r = e.args.withRadius r from rfl]
  simp only [ht]
  rw [← hc]
  subst hc
  cases hcond : e.cond with
  | none =>
    rw [hcond] at hco
    simp only [Option.isNone_none, if_true] at hco ⊢
    rw [hco]
    dsimp only [Session.addCond]
    rw [hrun]
    rfl
  | some k =>
    rw [hcond] at hco
    simp only [Option.isNone_some, Bool.false_eq_true, if_false] at hco ⊢
    rw [hco]
    dsimp only
    rw [hrun]
    rfl

theorem stdCond_documented : Documented stdCond ∧ ¬ WatchesLamGrad stdCond ∧ stdCond.metric ≠ "param".toList := by
  refine ⟨⟨Or.inl rfl, Or.inl rfl, Or.inr (Or.inr (Or.inr (by simp [stdCond, JUST_T])))⟩, ?_, by decide⟩
  rintro ⟨-, -, h⟩
  revert h
  simp only [stdCond]
  decide

/-- a fit returns, and leaves others possible -/
theorem canFit_step (hT : GoodTorch T) (hg : ∀ d M, GradShapes (grads d M)) (hd : GoodDraws draws) {N : ℕ → ℕ} {s : Session G} {a : ℕ} {D : FitData}
    (hN : Remembers N s) (h : CanFit N s a D) :
    (∃ f, (sessionStep (realFits ext T fl grads solve draws) s (.fit a D)).1 = .ok (.fitted f)) ∧
      Remembers N (sessionStep (realFits ext T fl grads solve draws) s (.fit a D)).2 ∧
      ∀ b E, CanFit N s b E → CanFit N (sessionStep (realFits ext T fl grads solve draws) s (.fit a D)).2 b E := by
  obtain ⟨e, r, post, he, hr, hready, hcond⟩ := h
  obtain ⟨co, hco, hdoc, hl, hp, hm⟩ : ∃ co, (if e.cond.isNone then s.addCond ⟨stdCond, freshOC⟩ else s).conds[e.cond.getD s.conds.length]? = some co ∧
      Documented co.cfg ∧ (WatchesLamGrad co.cfg → r ≠ .num 0) ∧
      (co.cfg.metric = "param".toList → paramCount e.kind e.args.rest.fit_intercept D = N (e.cond.getD s.conds.length)) ∧
      (co.cfg.metric = "param".toList → MemFits co.mem (N (e.cond.getD s.conds.length))) := by
    cases hc : e.cond with
    | none =>
      refine ⟨⟨stdCond, freshOC⟩, by simp [Session.addCond], stdCond_documented.1, fun h => absurd h stdCond_documented.2.1,
        fun h => absurd h stdCond_documented.2.2, fun h => absurd h stdCond_documented.2.2⟩
    | some c =>
      obtain ⟨co, h1, h2, h3, h4⟩ := hcond c hc
      exact ⟨co, by simpa using h1, h2, h3, h4, hN c co h1⟩
  have hjob := torchJob_ready hg hd hready s.gen
  have hcount := torchJob_count (grads := grads) hd e.kind (e.args.withRadius r) D post s.gen
  have hmem : co.cfg.metric = "param".toList →
      MemFits co.mem (torchJob grads draws e.kind (e.args.withRadius r) D post s.gen).1.M0.theta.length := by
    intro h
    rw [hcount]
    exact (hp h).symm ▸ hm h
  obtain ⟨⟨M, res, h1⟩, h2⟩ := after_memFits (ext := ext) (fl := fl) hT hdoc hjob (fun hw => by rw [torchJob_rho]; exact hl hw) hmem
    (torchJob grads draws e.kind (e.args.withRadius r) D post s.gen).2
  rw [fit_step he hr hready rfl hco]
  generalize hs' : (if e.cond.isNone then s.addCond ⟨stdCond, freshOC⟩ else s).conds = cs at hco
  have hcs : ∀ (c : ℕ) (x : CondObj), s.conds[c]? = some x → cs[c]? = some x := by
    intro c x hx
    subst hs'
    split
    · exact (List.getElem?_append_left (List.getElem?_eq_some_iff.1 hx).1).trans hx
    · exact hx
  have hcsN : ∀ (c : ℕ) (x : CondObj), cs[c]? = some x → x.cfg.metric = "param".toList → MemFits x.mem (N c) := by
    intro c x hx hm
    subst hs'
    split at hx
    · rw [Session.addCond, List.getElem?_append] at hx
      split at hx
      · exact hN c x hx hm
      · have : x = ⟨stdCond, freshOC⟩ := by
          rw [List.getElem?_singleton] at hx
          split at hx
          · exact (Option.some.inj hx).symm
          · cases hx
        subst this
        exact absurd hm stdCond_documented.2.2
    · exact hN c x hx hm
  refine ⟨?_, ?_, ?_⟩
  · have := estFit_outcome (ext := ext) (T := T) (fl := fl) (grads := grads) (solve := solve) hd hready co s.gen
    rw [h1] at this
    cases hf : estFit ext T fl grads solve draws e.kind (e.args.withRadius r) co D s.gen with
    | error x => rw [hf] at this; cases this
    | ok f => exact ⟨f, rfl⟩
  · intro c x hx hm
    dsimp only at hx
    rw [List.getElem?_set] at hx
    split at hx
    · next hcc =>
      split at hx
      · cases hx
        have := h2 hm
        rw [hcount, show (e.args.withRadius r).fit_intercept = e.args.rest.fit_intercept from rfl, hp hm] at this
        exact hcc ▸ this
      · cases hx
    · exact hcsN c x hx hm
  · rintro b E ⟨e', r', post', he', hr', hready', hcond'⟩
    have hsame : ∀ (c : ℕ) (x : CondObj), cs[c]? = some x → ∃ y, (cs.set (e.cond.getD s.conds.length)
        ⟨co.cfg, ((torchJob grads draws e.kind (e.args.withRadius r) D post s.gen).1.after ext T fl co
            (torchJob grads draws e.kind (e.args.withRadius r) D post s.gen).2).1⟩)[c]? = some y ∧ y.cfg = x.cfg := by
      intro c x hx
      rw [List.getElem?_set]
      split
      · next hcc =>
        rw [if_pos (hcc ▸ (List.getElem?_eq_some_iff.1 hx).1)]
        refine ⟨_, rfl, ?_⟩
        rw [← hcc, hco] at hx
        cases hx
        rfl
      · exact ⟨x, hx, rfl⟩
    by_cases hab : a = b
    · subst hab
      rw [he] at he'
      cases he'
      rw [hr] at hr'
      cases hr'
      refine ⟨⟨e.kind, { e.args with rho := .float r }, some (e.cond.getD s.conds.length)⟩, r, post', ?_, rfl, hready', ?_⟩
      · dsimp only
        rw [List.getElem?_set, if_pos rfl, if_pos (List.getElem?_eq_some_iff.1 he).1]
      · intro c hc
        cases hc
        obtain ⟨y, hy, hcfg⟩ := hsame _ _ hco
        refine ⟨y, hy, hcfg ▸ hdoc, hcfg ▸ hl, fun hm => ?_⟩
        rw [hcfg] at hm
        cases hc : e.cond with
        | none =>
          rw [hc] at hs' hco
          subst hs'
          simp [Session.addCond] at hco
          subst hco
          exact absurd hm stdCond_documented.2.2
        | some c =>
          obtain ⟨co', h1, -, -, h4⟩ := hcond' c hc
          have := hcs _ _ h1
          rw [hc, Option.getD_some, this] at hco
          cases hco
          exact h4 hm
    · refine ⟨e', r', post', ?_, hr', hready', ?_⟩
      · dsimp only
        rw [List.getElem?_set, if_neg hab]
        exact he'
      · intro c hc
        obtain ⟨x, h3, h4, h5, h6⟩ := hcond' c hc
        obtain ⟨y, hy, hcfg⟩ := hsame c x (hcs c x h3)
        exact ⟨y, hy, hcfg ▸ h4, hcfg ▸ h5, hcfg ▸ h6⟩

/-- **C107** (partial: see `C107_refit_false` for conditions on the motion of the parameters) Whatever fits a program made before, of whatever
estimators sharing their conditions or not, on whatever data, a fit returns a fitted estimator.  Conditions on the motion of the iterates are used for
one number of parameters each, and no condition looks at the gradient of the multiplier in a fit at radius zero. -/
theorem C107_program_partial (hT : GoodTorch T) (hg : ∀ d M, GradShapes (grads d M)) (hd : GoodDraws draws) {N : ℕ → ℕ} {s : Session G}
    (hN : Remembers N s) {fs : List (ℕ × FitData)} (hfs : ∀ q ∈ fs, CanFit N s q.1 q.2) {a : ℕ} {D : FitData} (h : CanFit N s a D) :
    ∃ f, (sessionStep (realFits ext T fl grads solve draws)
      (sessionRun (realFits ext T fl grads solve draws) s (fs.map fun q => .fit q.1 q.2)) (.fit a D)).1 = .ok (.fitted f) := by
  induction fs generalizing s with
  | nil => exact (canFit_step hT hg hd hN h).1
  | cons q fs ih =>
    obtain ⟨-, h1, h2⟩ := canFit_step (ext := ext) (T := T) (fl := fl) (solve := solve) hT hg hd hN (hfs q List.mem_cons_self)
    exact ih h1 (fun q' hq' => h2 _ _ (hfs q' (List.mem_cons_of_mem _ hq'))) (h2 _ _ h)

theorem torchJob_imp (e : EstKind) (P : EstParams) (D : FitData) {post : Bool} (g : G) (h : NoImportance e post P.rho) :
    ((torchJob grads draws e P D post g).1.args (torchJob grads draws e P D post g).1.M0).imp_samp = false ∨
    ((torchJob grads draws e P D post g).1.args (torchJob grads draws e P D post g).1.M0).rho = .num 0 := by
  rw [torchJob_rho]
  rcases h with h | ⟨h | h, h'⟩
  · exact Or.inr h
  · subst h h'
    left
    by_cases h : (npUnique D.y).length = 2
    · rw [torchJob_binary h]; rfl
    · rw [torchJob_multi h]; rfl
  · subst h h'
    exact Or.inl rfl

section
variable {cfg : OCConfig} {s : Session G} {a b c : ℕ} {e e' : EstObj} {r r' : Radius} {D D' : FitData} {post post' : Bool}

/-- a first fit with a new condition on the motion of the parameters -/
theorem first_fit (hT : GoodTorch T) (hP : InPlace T) (hg : ∀ d M, GradShapes (grads d M)) (hd : GoodDraws draws) (hcfg : Documented cfg)
    (hm : cfg.metric = "param".toList) (ht : 0 < cfg.tolTheta) (hmon : cfg.monitoring ∈ JUST_T) (hco : s.conds[c]? = some ⟨cfg, freshOC⟩)
    (he : s.ests[a]? = some e) (hc : e.cond = some c) (hr : e.args.rho.toFloat = .ok r) (h : EstReady e.kind (e.args.withRadius r) D post)
    (hnan : r ≠ .nan) (hi : NoImportance e.kind post r) :
    ∃ f oc, (sessionStep (realFits ext T fl grads solve draws) s (.fit a D)).1 = .ok (.fitted f) ∧
      (sessionStep (realFits ext T fl grads solve draws) s (.fit a D)).2.conds[c]? = some ⟨cfg, oc⟩ ∧
      (sessionStep (realFits ext T fl grads solve draws) s (.fit a D)).2.ests = s.ests.set a ⟨e.kind, { e.args with rho := .float r }, some c⟩ ∧
      oc.t.t0.isSome = true ∧ MemFits oc (paramCount e.kind e.args.rest.fit_intercept D) := by
  have hco' : (if e.cond.isNone then s.addCond ⟨stdCond, freshOC⟩ else s).conds[c]? = some ⟨cfg, freshOC⟩ := by rw [hc]; simpa using hco
  have hjob := torchJob_ready hg hd h s.gen
  have hnw : ¬ WatchesLamGrad cfg := by
    rintro ⟨h, -⟩
    rw [hm] at h
    exact absurd h (by decide)
  obtain ⟨⟨M, res, h1⟩, h2⟩ := after_memFits (ext := ext) (fl := fl) hT hcfg hjob (fun hw => absurd hw hnw) (oc := freshOC) (fun _ => memFits_fresh _)
    (torchJob grads draws e.kind (e.args.withRadius r) D post s.gen).2
  have h3 := after_remembers (ext := ext) (fl := fl) hT hP hcfg hm ht hmon hjob (by rw [torchJob_rho]; exact hnan)
    (torchJob_imp _ _ _ _ (by exact hi)) (memFits_fresh _) (torchJob grads draws e.kind (e.args.withRadius r) D post s.gen).2
  have hout := estFit_outcome (ext := ext) (T := T) (fl := fl) (grads := grads) (solve := solve) hd h ⟨cfg, freshOC⟩ s.gen
  rw [h1] at hout
  rw [fit_step he hr h (by rw [hc]; rfl) hco']
  cases hf : estFit ext T fl grads solve draws e.kind (e.args.withRadius r) ⟨cfg, freshOC⟩ D s.gen with
  | error x => rw [hf] at hout; cases hout
  | ok f =>
    refine ⟨f, _, rfl, ?_, rfl, h3, ?_⟩
    · dsimp only
      rw [List.getElem?_set, if_pos rfl, if_pos (List.getElem?_eq_some_iff.1 hco').1]
    · have := h2 hm
      rwa [torchJob_count hd] at this

/-- **C107** (violated) Whatever the estimators `a` and `b`, which may be the same one, their settings and their data: if they use one condition on the
motion of the parameters (built anew) and have different numbers of parameters (more than one each), then after `a.fit` has returned, `b.fit` raises
`RuntimeError`.  In particular an estimator cannot be fitted again on data with other features. -/
theorem C107_refit_false (hT : GoodTorch T) (hP : InPlace T) (hg : ∀ d M, GradShapes (grads d M)) (hd : GoodDraws draws) (hcfg : Documented cfg)
    (hm : cfg.metric = "param".toList) (ht : 0 < cfg.tolTheta) (hmon : cfg.monitoring ∈ JUST_T) (hco : s.conds[c]? = some ⟨cfg, freshOC⟩)
    (he : s.ests[a]? = some e) (hc : e.cond = some c) (hr : e.args.rho.toFloat = .ok r) (h : EstReady e.kind (e.args.withRadius r) D post)
    (hnan : r ≠ .nan) (hi : NoImportance e.kind post r)
    (he' : s.ests[b]? = some e') (hc' : e'.cond = some c) (hr' : e'.args.rho.toFloat = .ok r') (h' : EstReady e'.kind (e'.args.withRadius r') D' post')
    (hnan' : r' ≠ .nan) (hi' : NoImportance e'.kind post' r')
    (hne : paramCount e.kind e.args.rest.fit_intercept D ≠ paramCount e'.kind e'.args.rest.fit_intercept D')
    (h1 : 1 < paramCount e.kind e.args.rest.fit_intercept D) (h2 : 1 < paramCount e'.kind e'.args.rest.fit_intercept D') :
    (∃ f, (sessionStep (realFits ext T fl grads solve draws) s (.fit a D)).1 = .ok (.fitted f)) ∧
      (sessionStep (realFits ext T fl grads solve draws) (sessionStep (realFits ext T fl grads solve draws) s (.fit a D)).2 (.fit b D')).1 =
        .error .runtimeError := by
  obtain ⟨f, oc, h3, h4, h5, h6, h7⟩ := first_fit (ext := ext) (fl := fl) (solve := solve) hT hP hg hd hcfg hm ht hmon hco he hc hr h hnan hi
  refine ⟨⟨f, h3⟩, ?_⟩
  generalize (sessionStep (realFits ext T fl grads solve draws) s (.fit a D)).2 = t at h4 h5
  obtain ⟨e2, he2, hk2, hr2, hrest, hc2⟩ : ∃ e2, t.ests[b]? = some e2 ∧ e2.kind = e'.kind ∧ e2.args.rho.toFloat = .ok r' ∧ e2.args.rest = e'.args.rest ∧
      e2.cond = some c := by
    rw [h5, List.getElem?_set]
    split
    · next hab =>
      subst hab
      rw [he] at he'
      cases he'
      rw [hr] at hr'
      cases hr'
      rw [if_pos (List.getElem?_eq_some_iff.1 he).1]
      exact ⟨_, rfl, rfl, rfl, rfl, rfl⟩
    · exact ⟨e', he', rfl, hr', rfl, hc'⟩
  have hw : e2.args.withRadius r' = e'.args.withRadius r' := by simp [EstArgs.withRadius, hrest]
  rw [← hk2, ← hw] at h'
  have hco2 : (if e2.cond.isNone then t.addCond ⟨stdCond, freshOC⟩ else t).conds[c]? = some ⟨cfg, oc⟩ := by rw [hc2]; simpa using h4
  rw [fit_step he2 hr2 h' (by rw [hc2]; rfl) hco2]
  have hjob := torchJob_ready hg hd h' t.gen
  obtain ⟨m, k, mc, ha⟩ := hjob.fit
  have hcount := torchJob_count (grads := grads) hd e2.kind (e2.args.withRadius r') D' post' t.gen
  rw [hw, show (e'.args.withRadius r').fit_intercept = e'.args.rest.fit_intercept from rfl, ← hw, hk2] at hcount
  have hrho := torchJob_rho (grads := grads) (draws := draws) e2.kind (e2.args.withRadius r') D' post' t.gen
  rw [← hk2] at hi'
  have hraise := C86_other_sizes_false (ext := ext) (fl := fl) hT ha hjob.cost (by
      rw [hrho]
      cases hq : (e2.args.withRadius r').rho with
      | nan => exact absurd hq hnan'
      | num q => exact ⟨q, rfl, h'.fit.rho q hq⟩) (torchJob_imp e2.kind (e2.args.withRadius r') D' t.gen hi')
    hjob.iter hm ht hmon h7 h6 (by rw [hk2, hcount]; exact hne) h1 (by rw [hk2, hcount]; exact h2) (torchJob grads draws e2.kind (e2.args.withRadius r') D' post' t.gen).2
  have hout := estFit_outcome (ext := ext) (T := T) (fl := fl) (grads := grads) (solve := solve) hd h' ⟨cfg, oc⟩ t.gen
  rw [hraise] at hout
  cases hf : estFit ext T fl grads solve draws e2.kind (e2.args.withRadius r') ⟨cfg, oc⟩ D' t.gen with
  | error x => rw [hf] at hout; cases hout; rfl
  | ok f => rw [hf] at hout; cases hout

/-- **C104** (violated) Once a condition on the motion of the parameters (built anew) was used by a fit, whatever the estimator, settings and data, no estimator using it can be cloned: the tensors it remembers are not copied by torch. -/
theorem C104_after_fit_false (hT : GoodTorch T) (hP : InPlace T) (hg : ∀ d M, GradShapes (grads d M)) (hd : GoodDraws draws) (hcfg : Documented cfg)
    (hm : cfg.metric = "param".toList) (ht : 0 < cfg.tolTheta) (hmon : cfg.monitoring ∈ JUST_T) (hco : s.conds[c]? = some ⟨cfg, freshOC⟩)
    (he : s.ests[a]? = some e) (hc : e.cond = some c) (hr : e.args.rho.toFloat = .ok r) (h : EstReady e.kind (e.args.withRadius r) D post)
    (hnan : r ≠ .nan) (hi : NoImportance e.kind post r) (he' : s.ests[b]? = some e') (hc' : e'.cond = some c) :
    (∃ f, (sessionStep (realFits ext T fl grads solve draws) s (.fit a D)).1 = .ok (.fitted f)) ∧
      (sessionStep (realFits ext T fl grads solve draws) (sessionStep (realFits ext T fl grads solve draws) s (.fit a D)).2 (.clone b)).1 =
        .error .runtimeError := by
  obtain ⟨f, oc, h3, h4, h5, h6, -⟩ := first_fit (ext := ext) (fl := fl) (solve := solve) hT hP hg hd hcfg hm ht hmon hco he hc hr h hnan hi
  refine ⟨⟨f, h3⟩, ?_⟩
  generalize (sessionStep (realFits ext T fl grads solve draws) s (.fit a D)).2 = t at h4 h5
  obtain ⟨e2, he2, hc2⟩ : ∃ e2, t.ests[b]? = some e2 ∧ e2.cond = some c := by
    rw [h5, List.getElem?_set]
    split
    · next hab =>
      subst hab
      rw [if_pos (List.getElem?_eq_some_iff.1 he).1]
      exact ⟨_, rfl, rfl⟩
    · exact ⟨e', he', hc'⟩
  refine C104_refused_false he2 hc2 h4 (Or.inl ?_)
  intro h
  rw [h] at h6
  cases h6

end

end

/-! ### Concrete cases -/

namespace RefitWit

/-- gradient descent in place, with a multiplier frozen at radius zero -/
noncomputable def frozenTorch : Torch ℕ ℕ :=
  { countTorch ℕ with backward := fun t => (some [t.loss.lam, 1], by classical exact if t.loss.rho = .num 0 then none else some 1) }

theorem frozen_good : GoodTorch frozenTorch := by
  refine ⟨(count_good (G := ℕ)).prog, (count_good (G := ℕ)).step, (count_good (G := ℕ)).reset, fun _ _ => rfl, fun t r h hr => ?_⟩
  simp only [frozenTorch]
  rw [if_neg (by rw [h]; simp [hr.ne'])]
  rfl

theorem frozen_frozen : FrozenLam frozenTorch :=
  ⟨fun t h => by simp [frozenTorch, h], fun v => .eval _ fun _ => .act _ _ (fun v h => h) fun _ => .done, fun v v' h h' => by cases h; exact h',
    fun f hf v v' h h' => by cases hf; cases h; exact h'⟩

/-- a condition on the motion of the parameters -/
noncomputable def moveCond : OCConfig := ⟨.fin 2, 1 / 10 ^ 6, 1 / 10 ^ 6, "theta".toList, "rel".toList, "param".toList⟩
/-- a condition on both gradients -/
noncomputable def bothCond : OCConfig := ⟨.fin 2, 1 / 10 ^ 6, 1 / 10 ^ 6, "theta_and_lambda".toList, "rel".toList, "grad".toList⟩

theorem moveCond_doc : Documented moveCond := ⟨Or.inr rfl, Or.inl rfl, Or.inr (Or.inr (Or.inr (by simp [moveCond, JUST_T])))⟩

/-- a pre-sampled linear regression -/
noncomputable abbrev linP (rho : ℤ) : EstArgs := ⟨.int rho, { EstKind.linreg.defaults with solver := preName }⟩
/-- two points in dimension `d` -/
noncomputable abbrev pts (d : ℕ) : FitData := ⟨2, d, fun i _ => i.1, fun i => 2 * i.1⟩

theorem lin_ready (rho : ℤ) (h : 0 ≤ rho) (d : ℕ) (hd : 0 < d) : EstReady .linreg ((linP rho).withRadius (.num rho)) (pts d) false := by
  have h' := default_fitReady_labelled .linreg (by simp)
  refine ⟨?_, ⟨by norm_num, hd⟩, ⟨h'.code, h'.cost, h'.sigma, ?_, h'.iter⟩⟩
  · obtain ⟨c, hc⟩ := h'.code
    simp only [fitRoute, EstArgs.withRadius]
    rw [hc, ok_bind]
    decide
  · intro r hr
    cases hr
    exact_mod_cast h

noncomputable def draws0 : Draws ℕ where
  lin _ _ b g := (⟨fun _ _ => 3, if b then some fun _ => 1 else none⟩, g + 1)
  order g := (1, g)
  portfolio d g := (⟨List.replicate d 0, 0, 1, 1⟩, g)

theorem draws0_good : GoodDraws draws0 := ⟨fun d K b g => by cases b <;> rfl, fun d g => by simp [draws0]⟩

/-- two linear regressions, one with a condition on the motion of the parameters, the other with the default one; a third without condition -/
noncomputable def sess (g : ℕ) : Session ℕ :=
  ⟨(Session.start g).conds ++ [⟨moveCond, freshOC⟩],
    [⟨.linreg, linP 1, some 5⟩, ⟨.linreg, linP 2, some 1⟩, ⟨.linreg, linP 3, none⟩], g⟩

theorem sess_remembers (N : ℕ → ℕ) (g : ℕ) : Remembers N (sess g) := by
  intro c co h hm
  rcases c with _ | _ | _ | _ | _ | _ | c <;> simp [sess, Session.start, List.replicate] at h <;> subst h <;>
    exact memFits_fresh _

/-- each of them can be fitted; with the first condition the data must have two features -/
theorem sess_can (g : ℕ) : CanFit (fun _ => 3) (sess g) 0 (pts 2) ∧ (∀ d, 0 < d → CanFit (fun _ => 3) (sess g) 1 (pts d)) ∧
    ∀ d, 0 < d → CanFit (fun _ => 3) (sess g) 2 (pts d) := by
  refine ⟨⟨_, _, false, rfl, rfl, lin_ready 1 (by norm_num) 2 (by norm_num), ?_⟩, fun d hd => ⟨_, _, false, rfl, rfl, lin_ready 2 (by norm_num) d hd, ?_⟩,
    fun d hd => ⟨_, _, false, rfl, rfl, lin_ready 3 (by norm_num) d hd, ?_⟩⟩
  · rintro c ⟨⟩
    exact ⟨_, rfl, moveCond_doc, fun h => absurd h.1 (by simp [moveCond]), fun _ => rfl⟩
  · rintro c ⟨⟩
    exact ⟨_, rfl, stdCond_documented.1, fun h => absurd h stdCond_documented.2.1, fun h => absurd h stdCond_documented.2.2⟩
  · rintro c ⟨⟩

example (solve : Oracle) (g : ℕ) := C107_program_partial (ext := counterExt) (fl := fun x => x) (solve := solve) (count_good (G := ℕ)) onesGrad_shapes
  draws0_good (sess_remembers _ g) (fs := [(0, pts 2), (1, pts 4), (2, pts 7), (1, pts 2), (2, pts 1)]) (by
    obtain ⟨h1, h2, h3⟩ := sess_can g
    intro q hq
    simp only [List.mem_cons, List.not_mem_nil, or_false] at hq
    rcases hq with rfl | rfl | rfl | rfl | rfl
    exacts [h1, h2 4 (by norm_num), h3 7 (by norm_num), h2 2 (by norm_num), h3 1 (by norm_num)]) (sess_can g).1

example (solve : Oracle) (g : ℕ) := C107_refit_false (ext := counterExt) (fl := fun x => x) (solve := solve) (count_good (G := ℕ)) count_inPlace
  onesGrad_shapes draws0_good moveCond_doc rfl (by norm_num [moveCond]) (by simp [moveCond, JUST_T]) (s := sess g) (c := 5) rfl (a := 0) rfl rfl rfl
  (lin_ready 1 (by norm_num) 2 (by norm_num)) (by simp) (Or.inr ⟨Or.inr rfl, rfl⟩) (b := 0) rfl rfl rfl (lin_ready 1 (by norm_num) 3 (by norm_num)) (by simp)
  (Or.inr ⟨Or.inr rfl, rfl⟩) (by simp [paramCount]) (by simp [paramCount]) (by simp [paramCount])

example (solve : Oracle) (g : ℕ) := C104_after_fit_false (ext := counterExt) (fl := fun x => x) (solve := solve) (count_good (G := ℕ)) count_inPlace
  onesGrad_shapes draws0_good moveCond_doc rfl (by norm_num [moveCond]) (by simp [moveCond, JUST_T]) (s := sess g) (c := 5) rfl (a := 0) rfl rfl rfl
  (lin_ready 1 (by norm_num) 2 (by norm_num)) (by simp) (Or.inr ⟨Or.inr rfl, rfl⟩) (b := 0) rfl rfl

/-- what these regressions train -/
noncomputable abbrev job (rho : ℤ) (d : ℕ) : TorchJob := (torchJob onesGrad draws0 .linreg ((linP rho).withRadius (.num rho)) (pts d) false 7).1

theorem job_rho (rho : ℤ) (d : ℕ) : ((job rho d).args (job rho d).M0).rho = .num rho := rfl

theorem job_ready (rho : ℤ) (h : 0 ≤ rho) (d : ℕ) (hd : 0 < d) : JobReady (job rho d) :=
  torchJob_ready onesGrad_shapes draws0_good (lin_ready rho h d hd) 7

example := C107_reuse_partial (ext := counterExt) (fl := fun x => x) (count_good (G := ℕ)) moveCond_doc (J := job 2 2) (Js := [job 1 2, job 3 2])
  (by
    intro K hK
    simp only [List.mem_cons, List.not_mem_nil, or_false] at hK
    rcases hK with rfl | rfl | rfl <;> exact job_ready _ (by norm_num) 2 (by norm_num))
  (fun h => absurd h.1 (by simp [moveCond])) (by
    intro _ K hK
    simp only [List.mem_cons, List.not_mem_nil, or_false] at hK
    rcases hK with rfl | rfl <;> rfl) 7

example := C107_other_size_false (ext := counterExt) (fl := fun x => x) (count_good (G := ℕ)) count_inPlace moveCond_doc rfl (by norm_num [moveCond])
  (by simp [moveCond, JUST_T]) (job_ready 1 (by norm_num) 2 (by norm_num)) (job_ready 1 (by norm_num) 3 (by norm_num)) ⟨by rw [job_rho]; simp, by rw [job_rho]; simp⟩
  ⟨Or.inl rfl, Or.inl rfl⟩ (by simp [torchJob_count draws0_good, paramCount]) (by simp [torchJob_count draws0_good, paramCount])
  (by simp [torchJob_count draws0_good, paramCount]) 7

example (oc : OCState) := C86_frozen_multiplier_false (ext := counterExt) (fl := fun x => x) frozen_good frozen_frozen
  (job_ready 0 (by norm_num) 2 (by norm_num)).fit.choose_spec.choose_spec.choose_spec (job_ready 0 (by norm_num) 2 (by norm_num)).cost
  (by rw [job_rho]; simp) (job_ready 0 (by norm_num) 2 (by norm_num)).iter (cfg := bothCond) ⟨rfl, by norm_num [bothCond], Or.inl (by simp [bothCond, L_AND_T])⟩ oc 7

example := C86_other_sizes_false (ext := counterExt) (fl := fun x => x) (count_good (G := ℕ))
  (job_ready 1 (by norm_num) 3 (by norm_num)).fit.choose_spec.choose_spec.choose_spec (job_ready 1 (by norm_num) 3 (by norm_num)).cost
  ⟨1, by rw [job_rho]; simp, by norm_num⟩ (Or.inl rfl) (job_ready 1 (by norm_num) 3 (by norm_num)).iter (cfg := moveCond) rfl (by norm_num [moveCond])
  (by simp [moveCond, JUST_T]) (oc := { freshOC with t := { freshOC.t with t0 := some [1, 2] } }) (n := 2)
  ⟨fun a h => by cases h; rfl, fun a h => by simp [freshOC] at h, fun h => by simp [freshOC] at h, fun h => by simp [freshOC] at h⟩ rfl
  (by simp [torchJob_count draws0_good, paramCount]) (by norm_num) (by simp [torchJob_count draws0_good, paramCount]) 7

end RefitWit

end Skwdro
