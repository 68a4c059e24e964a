import Verif.Props.Session
import Verif.Props.Trajectory

/-! # C103, C104 for the five fits: what is shared, with witnesses -/

namespace Skwdro
open Spec Tensor

section
variable {G O : Type} {ext : TorchExt G} {T : Torch G O} {fl : ℝ → ℝ} {grads : (d : ℕ) → Autograd d} {solve : Oracle} {draws : Draws G}

/-- **C103** Weber fits do not depend on torch's generator: they meet the hypothesis `Seeded`. -/
theorem C103_weber (P : EstParams) (D : FitData) : Seeded (realFits ext T fl grads solve draws) .weber P D := by
  intro co g g'
  have h := C88_weber (ext := ext) (T := T) (cfg := co.cfg) (fl := fl) (oc := co.mem) (grads D.d) P D.X D.y g g'
  unfold weberProcess at h
  simp only [realFits, estFit, h]

/-- the module of a fitted estimator -/
def AnyFit.module : AnyFit → Option (Σ d, Module d)
  | .plain (d := d) f => f.torch.map fun t => ⟨d, t.1⟩
  | .log (d := d) f => f.torch.map fun t => ⟨d, t.1⟩

theorem fitTorch_runs {d : ℕ} {gr : Autograd d} {cfg : OCConfig} {oc : OCState} (e : EstKind) (P : EstParams) (post mc : Bool) (X : Tensor ℝ)
    (y : Option (Tensor ℝ)) (M0 : Module d) (g : G) : fitTorch ext gr (realTrainer ext T cfg fl oc g) e P post mc X y M0 g =
      (solveTorch ext T cfg fl (torchArgs gr e P post mc X y) M0 (trainSteps e P post) oc g).map Prod.fst := by
  unfold fitTorch realTrainer solveTorch
  cases dualize ext (torchArgs gr e P post mc X y M0) g with
  | error x => rfl
  | ok z => rfl

/-- **C102** `fit` on data without samples or without features raises, and leaves every object, condition and the generator as they were, radius
included. -/
theorem C102_empty {s : Session G} {a : ℕ} {e : EstObj} (ha : s.ests[a]? = some e) (D : FitData) (hD : D.n = 0 ∨ D.d = 0) :
    sessionStep (realFits ext T fl grads solve draws) s (.fit a D) = (.error .valueError, s) := by
  simp only [sessionStep, ha, realFits, if_pos hD]

/-- non-vacuity: data without samples, data without features -/
example : (⟨0, 2, fun i => i.elim0, fun i => i.elim0⟩ : FitData).n = 0 ∧ (⟨2, 0, fun _ j => j.elim0, fun _ => 0⟩ : FitData).d = 0 := ⟨rfl, rfl⟩

/-- **C103** Nor do fits with the dedicated solvers, which draw nothing. -/
theorem C103_dedicated {e : EstKind} {P : EstParams} (D : FitData) (hr : route e P.solver = .ok .dedicated) :
    Seeded (realFits ext T fl grads solve draws) e P D := by
  intro co g g'
  cases e <;> simp only [realFits, estFit, logisticFit, linregFit, portfolioFit, newsvendorFit, weberFit, hr] <;> rfl

/-- **C103** What `fit` returns holds the module trained by the computation whose effects on the condition and the generator are recorded. -/
theorem C103_trained {e : EstKind} {P : EstParams} {D : FitData} {post : Bool} {co : CondObj} {g : G} {f : AnyFit}
    (hr : fitRoute e P D = .ok (.torch post)) (h : estFit ext T fl grads solve draws e P co D g = .ok f) :
    ∃ M r, solveTorch ext T co.cfg fl (torchJob grads draws e P D post g).1.args (torchJob grads draws e P D post g).1.M0
        (torchJob grads draws e P D post g).1.steps co.mem (torchJob grads draws e P D post g).2 = .ok (M, r) ∧
      f.module = some ⟨(torchJob grads draws e P D post g).1.d, M⟩ := by
  have key : ∀ {d : ℕ} {gr : Autograd d} {e : EstKind} {post mc : Bool} {X : Tensor ℝ} {y : Option (Tensor ℝ)} {M0 M : Module d} {g : G},
      fitTorch ext gr (realTrainer ext T co.cfg fl co.mem g) e P post mc X y M0 g = .ok M →
      ∃ r, solveTorch ext T co.cfg fl (torchArgs gr e P post mc X y) M0 (trainSteps e P post) co.mem g = .ok (M, r) := by
    intro d gr e post mc X y M0 M g h
    rw [fitTorch_runs] at h
    cases hs : solveTorch ext T co.cfg fl (torchArgs gr e P post mc X y) M0 (trainSteps e P post) co.mem g with
    | error x => rw [hs] at h; cases h
    | ok z => rw [hs] at h; cases h; exact ⟨z.2, rfl⟩
  cases e with
  | weber =>
    simp only [fitRoute] at hr
    simp only [estFit, weberFit, hr, ok_bind] at h
    split at h
    · cases h
    · cases hM : fitTorch ext (grads D.d) (realTrainer ext T co.cfg fl co.mem g) .weber P post false (matT D.X)
        (some (matT fun i (_ : Fin 1) => D.y i)) (.weber fun _ => 0) g with
      | error x => rw [hM] at h; cases h
      | ok M =>
        obtain ⟨r, h1⟩ := key hM
        rw [hM] at h
        simp only [ok_bind] at h
        split at h
        · cases h; exact ⟨_, r, h1, rfl⟩
        · cases h
  | linreg =>
    simp only [fitRoute] at hr
    simp only [estFit, linregFit] at h
    cases hc : cost_from_str P.cost with
    | error x => rw [hc] at hr; cases hr
    | ok c =>
    rw [hc] at hr
    simp only [ok_bind] at hr
    simp only [hc, hr, ok_bind] at h
    split at h
    · cases h
    · cases hM : fitTorch ext (grads D.d) (realTrainer ext T co.cfg fl co.mem (draws.lin D.d 1 true g).2) .linreg P post false (matT D.X)
        (some (matT fun i (_ : Fin 1) => D.y i)) (.mse (draws.lin D.d 1 true g).1) (draws.lin D.d 1 true g).2 with
      | error x => rw [hM] at h; cases h
      | ok M =>
        obtain ⟨r, h1⟩ := key hM
        rw [hM] at h
        simp only [ok_bind] at h
        split at h
        · cases h; exact ⟨_, r, h1, rfl⟩
        · cases h
  | portfolio =>
    simp only [fitRoute] at hr
    simp only [estFit, portfolioFit] at h
    cases hreg : regAsFloat P with
    | error x => rw [hreg] at hr; cases hr
    | ok u =>
    rw [hreg, ok_bind] at hr
    rw [hreg] at h
    simp only [ok_bind] at h
    cases hc : cost_from_str P.cost with
    | error x => rw [hc] at hr; cases hr
    | ok c =>
    rw [hc] at hr
    simp only [ok_bind] at hr
    simp only [hc, hr, ok_bind] at h
    split at h
    · cases h
    · cases hM : fitTorch ext (grads D.d) (realTrainer ext T co.cfg fl co.mem (draws.portfolio D.d g).2) .portfolio P post false (matT D.X)
        none (.portfolio { (draws.portfolio D.d g).1 with eta := P.eta, alpha := P.alpha }) (draws.portfolio D.d g).2 with
      | error x => rw [hM] at h; cases h
      | ok M =>
        obtain ⟨r, h1⟩ := key hM
        rw [hM] at h
        simp only [ok_bind] at h
        split at h
        · cases h; exact ⟨_, r, h1, rfl⟩
        · cases h
  | newsvendor =>
    simp only [fitRoute] at hr
    simp only [estFit, newsvendorFit] at h
    cases hc : cost_from_str P.cost with
    | error x => rw [hc] at hr; cases hr
    | ok c =>
    rw [hc] at hr
    simp only [ok_bind] at hr
    simp only [hc, hr, ok_bind] at h
    split at h
    · cases h
    · cases hM : fitTorch ext (grads 1) (realTrainer ext T co.cfg fl co.mem (draws.order g).2) .newsvendor P post false
        (matT fun i (_ : Fin 1) => rowMeans D.X i) none (.newsvendor P.k P.u (draws.order g).1) (draws.order g).2 with
      | error x => rw [hM] at h; cases h
      | ok M =>
        obtain ⟨r, h1⟩ := key hM
        rw [hM] at h
        simp only [ok_bind] at h
        split at h
        · cases h; exact ⟨_, r, h1, rfl⟩
        · cases h
  | logistic =>
    simp only [fitRoute] at hr
    split at hr
    · cases hr
    next hK =>
    cases hc : cost_from_str P.cost with
    | error x => rw [hc] at hr; cases hr
    | ok c =>
    cases hro : route .logistic P.solver with
    | error x => rw [hc, hro] at hr; cases hr
    | ok ro =>
    rw [hc, hro] at hr
    cases ro with
    | dedicated =>
      simp only [ok_bind] at hr
      split at hr <;> cases hr
    | torch post' =>
    cases hr
    simp only [estFit, logisticFit, hK, hc, hro, ok_bind, if_false] at h
    split at h
    · cases h
    by_cases h2 : (npUnique D.y).length = 2
    · rw [show (if (npUnique D.y).length = 2 then 1 else (npUnique D.y).length) = 1 from if_pos h2] at h
      simp only [h2, if_true] at h
      cases hM : fitTorch ext (grads D.d) (realTrainer ext T co.cfg fl co.mem (draws.lin D.d 1 P.fit_intercept g).2) .logistic P post false
        (matT D.X) (some (matT fun i (_ : Fin 1) => encodeBinary (npUnique D.y) (D.y i))) (.softMargin (draws.lin D.d 1 P.fit_intercept g).1)
        (draws.lin D.d 1 P.fit_intercept g).2 with
      | error x => rw [hM] at h; cases h
      | ok M =>
        obtain ⟨r, h1⟩ := key hM
        rw [hM] at h
        simp only [ok_bind] at h
        unfold torchJob
        dsimp only
        rw [if_pos h2]
        cases hl : logisticRead P.fit_intercept M with
        | error x => rw [hl] at h; cases h
        | ok t => rw [hl] at h; cases h; exact ⟨_, r, h1, rfl⟩
    · rw [show (if (npUnique D.y).length = 2 then 1 else (npUnique D.y).length) = (npUnique D.y).length from if_neg h2] at h
      simp only [h2, if_false] at h
      cases hM : fitTorch ext (grads D.d) (realTrainer ext T co.cfg fl co.mem (draws.lin D.d (npUnique D.y).length P.fit_intercept g).2) .logistic P
        post true (matT D.X) (some (matT fun i => encodeOneHot (npUnique D.y) (D.y i)))
        (.crossEnt (draws.lin D.d (npUnique D.y).length P.fit_intercept g).1) (draws.lin D.d (npUnique D.y).length P.fit_intercept g).2 with
      | error x => rw [hM] at h; cases h
      | ok M =>
        obtain ⟨r, h1⟩ := key hM
        rw [hM] at h
        simp only [ok_bind] at h
        unfold torchJob
        dsimp only
        rw [if_neg h2]
        cases hl : logisticRead P.fit_intercept M with
        | error x => rw [hl] at h; cases h
        | ok t => rw [hl] at h; cases h; exact ⟨_, r, h1, rfl⟩

/-! ### Witness -/

/-- the labels the sampler was built with -/
theorem mkLabeledCost_labels {cost : CostR} {xi y : Tensor ℝ} {sigma : Option ℝ} {seed : Option ℤ} {g g' : G} {s : Sampler}
    (h : mkLabeledCost ext cost xi y sigma seed g = .ok (s, g')) : ∃ l, s.labels_s = some l ∧ l.mean = y := by
  have hv : ∀ {sc : XNum ℝ} {d d' : Dist}, validScale sc d = .ok d' → d' = d := by
    intro sc d d' h
    unfold validScale at h
    split at h <;> try split at h
    all_goals first | (cases h; rfl) | cases h
  have hl : ∀ {l : Dist}, samplerLabels cost (some y) sigma = .ok (some l) → l.mean = y := by
    intro l h
    unfold samplerLabels at h
    split at h
    · cases h; rfl
    · dsimp only at h
      cases hs : samplerLabelsNLC cost y sigma with
      | error x => rw [hs] at h; cases h
      | ok l' =>
        rw [hs] at h
        cases h
        unfold samplerLabelsNLC at hs
        dsimp only at hs
        repeat' split at hs
        all_goals first | (cases hs; rfl) | (rw [hv hs]; rfl) | cases hs
  unfold mkLabeledCost at h
  cases h1 : samplerData cost xi sigma with
  | error x => rw [h1] at h; cases h
  | ok sd =>
    cases h2 : samplerLabels cost (some y) sigma with
    | error x => rw [h1, h2] at h; cases h
    | ok sl =>
      rw [h1, h2] at h
      cases sl with
      | none => cases h
      | some l => cases h; exact ⟨l, rfl, hl h2⟩

/-- memory of the condition, variables and result of a post-sampled training, as in C101 -/
theorem solveRun_post {d : ℕ} {cfg : OCConfig} {args : Module d → DualizeArgs} {M0 : Module d} {D : DualLoss} (hT : InPlace T)
    (hst : Steady ext D (args M0).xi (args M0).xi_labels) {g' : G}
    (hpost : (args M0).post_sample = true) {steps : ℤ ⊕ (ℤ × ℤ)} {p q : ℤ} (hi : interpretSteps fl split03 (toSteps steps) = .ok (p, q))
    {n : ℕ} (hn : (toSteps steps).iterations = n) (hn0 : 0 < n) (oc : OCState) {r : Solved (List ℝ)}
    (h : (solveRun ext T cfg fl args D M0 steps oc g').1 = .ok r) :
    ∃ v1 g1 v2 v3 g3 oc', Iterated (fun a b => ∃ x, PostUpdate ext T args D M0 x a b) p.toNat (⟨M0.theta, D.lam, none, none, T.o0⟩, g') (v1, g1) ∧
      DualGuessed args D M0 v1 v2 ∧ Trained (PostIter ext T cfg n args D M0) n 0 ((v2, g1), oc) ((v3, g3), oc') r.robust_loss ∧
      (solveRun ext T cfg fl args D M0 steps oc g').2.w.mod = M0.withParams v3.params ∧
      (solveRun ext T cfg fl args D M0 steps oc g').2.w.oc = oc' := by
  have key := solveDual_holds (out := fitReadout (d := d) (G := G) (O := O)) (presample := false)
    (rhoPos := (args M0).rho.isPos) (P := fun st => st = startState T M0 D g' oc) (ok := false) hi
    (env := postEnv ext T args D M0 cfg (toSteps steps).iterations)
    (h := by
      simp only [Bool.false_eq_true, if_false]
      refine (optimPost_at (mi := (toSteps steps).iterations) (ext := ext) (T := T) (args := args) (cfg := cfg) (M0 := M0) (D := D) (gen := g')
        (Z := (scalar 0, none)) hT hst (p := p) (n := (toSteps steps).iterations) (by omega) ⟨M0.theta, D.lam, none, none, T.o0⟩ oc).weaken ?_ fun _ _ hs => hs
      rintro st rfl
      exact ⟨rfl, ⟨sameShape_refl M0, rfl, fun h => by cases h⟩, rfl, rfl, rfl⟩)
  have er : solveRun ext T cfg fl args D M0 steps oc g' = solveDual (postEnv ext T args D M0 cfg (toSteps steps).iterations) fitReadout false
      (args M0).rho.isPos fl (toSteps steps) (startState T M0 D g' oc) := by
    simp only [solveRun, hpost]
    rfl
  rw [er] at h ⊢
  rcases key _ rfl with ⟨r', st, h1, -, -, -, v1, g1, v2, v3, g3, oc', h5, h6, h8, h9⟩ | ⟨-, e, st, h1⟩
  · rw [h1] at h ⊢
    cases h
    have h10 : st.w.view = v3 := h9.2.2.1
    rw [hn, Int.toNat_natCast] at h8
    refine ⟨v1, g1, v2, v3, g3, oc', h5, h6, h8, ?_, h9.2.2.2⟩
    rw [← h10]
    exact (withParams_of_sameShape h9.1.1.1).symm
  · rw [h1] at h
    cases h

end

/-- sign descent on the line: the gradient of Weber's loss with one sample of weight `w` beyond the position is `-w` -/
noncomputable def weightTorch : Torch ℕ Unit where
  o0 := ()
  backward t := (some [-((t.loss.sampler.bind Sampler.labels_s).elim 0 fun l => l.mean.get [0, 0])], some 0)
  step v := .ok { v with params := v.params.map (· + 1) }
  prog _ := .eval fun _ => .act (fun v => { v with params := v.params.map (· + 1) }) fun _ => .done
  resetLbd := none
  composite := false

theorem weight_good : GoodTorch weightTorch :=
  ⟨fun _ => .eval _ fun _ => .act _ _ fun _ => .done, fun _ => ⟨_, rfl, fun h => h, fun h => h⟩, (fun _ hf => nomatch hf), fun _ _ => rfl, fun _ _ _ _ => rfl⟩

theorem weight_inPlace : InPlace weightTorch :=
  ⟨fun _ => .eval _ fun _ => .act _ _ (fun v => by simp) fun _ => .done, fun v v' h => by (cases h; simp), fun f hf => nomatch hf⟩

/-- a Weber estimator making at most two steps -/
noncomputable def wArgs : EstParams :=
  { EstKind.weber.defaults with rho := .num 0, sampler_reg := some (1 / 100), n_iter := some (.inr (0, 2)) }

/-- one site, of weight `w` -/
def wData (w : ℝ) : FitData := ⟨1, 1, fun _ _ => 5, fun _ => w⟩

noncomputable def wFits : Fits ℕ FitData AnyFit :=
  realFits counterExt weightTorch (fun x => x) onesGrad (fun _ _ => none) ⟨fun _ _ _ g => (⟨fun _ _ => 0, none⟩, g), fun g => (0, g), fun _ g => (⟨[], 0, 0, 0⟩, g)⟩

theorem wArgs_ready : FitReady wArgs true := by
  obtain ⟨parsed, obj, h1, h2, h3⟩ := default_parse
  refine ⟨default_cost, ⟨parsed, obj, h1, h2, h3, by simp⟩, fun s hs => ?_, fun r hr => ?_, fun s hs => ?_⟩
  · cases hs; norm_num
  · cases hr; norm_num
  · cases hs; decide

/-- the arguments of the witness -/
noncomputable abbrev wJob (w : ℝ) : Module 1 → DualizeArgs :=
  torchArgs (onesGrad 1) .weber wArgs true false (matT (wData w).X) (some (matT fun i (_ : Fin 1) => (wData w).y i))

/-- one iteration of the witness -/
theorem wIter {w : ℝ} {D : DualLoss} (hst : Steady counterExt D (wJob w (.weber fun _ => 0)).xi (wJob w (.weber fun _ => 0)).xi_labels) {n : ℤ} {k : ℕ} {s t : (OptView Unit × ℕ) × OCState} {x : XNum ℝ} {b : Bool} (hrho : D.rho = .num 0)
    (hlab : (weightTorch.backward ⟨D, 0, none⟩).1 = some [-w])
    (h : PostIter counterExt weightTorch stdCond n (wJob w) D (.weber fun _ => 0) k s t x b) :
    t.1.1.params = s.1.1.params.map (· + 1) ∧
      ocCall stdCond s.2 ⟨0, fun _ => t.1.1.lam, t.1.1.lgrad, [(t.1.1.params, some [-w])], n⟩ k = (.ok b, t.2) := by
  obtain ⟨⟨q, D', h1, h2, h3⟩, h4⟩ := h
  have hx : x ≠ .nan := by
    have : ∃ z, q = .val z := by
      rw [postForward_steady (D := lossFor (wJob w) D (.weber fun _ => 0) false s.1.1) hst] at h1
      unfold postForward at h1
      split at h1
      · cases h1
      · have hr' : (lossFor (wJob w) D (.weber fun _ => 0) false s.1.1).rho = .num 0 := hrho
        simp only [Bool.false_eq_true, if_false, ok_bind, hr', lt_irrefl, if_true] at h1
        cases hp : (lossFor (wJob w) D (.weber fun _ => 0) false s.1.1).primal (wJob w (.weber fun _ => 0)).xi.unsqueeze0
          (maybeUnsqueeze (wJob w (.weber fun _ => 0)).xi_labels) with
        | error e => rw [hp] at h1; cases h1
        | ok z =>
          rw [hp] at h1
          simp only [ok_bind] at h1
          cases hz : reduceLossBatch (lossFor (wJob w) D (.weber fun _ => 0) false s.1.1).reduction z.squeeze0 with
          | error e => rw [hz] at h1; cases h1
          | ok l => rw [hz] at h1; simp only [ok_bind, Except.ok.injEq, Prod.mk.injEq] at h1; exact ⟨_, h1.1.symm⟩
    obtain ⟨z, rfl⟩ := this
    simp only [DualVal.item] at h2
    split at h2
    · cases h2; simp
    · cases h2
  unfold Verdict at h4
  rw [if_neg hx] at h4
  have h5 : t.1.1 = { withGrad weightTorch s.1.1 ⟨lossFor (wJob w) D (.weber fun _ => 0) false s.1.1, s.1.2, none⟩ with
      params := s.1.1.params.map (· + 1) } := (Except.ok.inj h3).symm
  have h6 : t.1.1.pgrad = some [-w] := by rw [h5]; exact hlab
  refine ⟨by rw [h5], ?_⟩
  rw [h6] at h4
  exact h4

theorem vnorm_one (w : ℝ) : vnorm (.fin 2) [-w] = |w| := by
  unfold vnorm
  simp only [List.map_cons, List.map_nil, List.sum_cons, List.sum_nil, add_zero, abs_neg]
  rw [if_neg (by norm_num)]
  rw [← Real.rpow_mul (abs_nonneg w)]
  norm_num

theorem stdCond_first {m : OCState} (hm : m.t.tGrad0 = none) (l : ℕ → ℝ) (lg : Option ℝ) (p : List ℝ) (w : ℝ) :
    ocCall stdCond m ⟨0, l, lg, [(p, some [-w])], 2⟩ 0 = (.ok false, { m with t := { m.t with tGrad0 := some |w| } }) := by
  have h1 : ¬ stdCond.tolTheta ≤ 0 := by simp only [stdCond]; norm_num
  have h2 : checkT stdCond m.t ⟨0, l, lg, [(p, some [-w])], 2⟩ = (.ok false, { m.t with tGrad0 := some |w| }) := by
    unfold checkT
    rw [if_neg h1, if_pos (show stdCond.metric = "grad".toList from rfl)]
    simp only [flatGrad, List.all_cons, List.all_nil, Option.isSome_some, Bool.and_self, if_true, List.cons_ne_nil, if_false, hm,
      List.map_cons, List.map_nil, Option.getD_some, List.flatten_cons, List.flatten_nil, List.append_nil]
    rw [show stdCond.order = .fin 2 from rfl, vnorm_one]
  unfold ocCall checkAllParams
  rw [if_neg (by decide), if_neg (by decide), if_neg (by decide), if_pos (by decide), h2]
  rfl

theorem stdCond_later {m : OCState} {m0 : ℝ} (hm : m.t.tGrad0 = some m0) (l : ℕ → ℝ) (lg : Option ℝ) (p : List ℝ) {w : ℝ} (k : ℤ) (n : ℤ)
    (hw : |w| < 1 / 10 ^ 8 * m0) : ocCall stdCond m ⟨0, l, lg, [(p, some [-w])], n⟩ k = (.ok true, m) := by
  have h1 : ¬ stdCond.tolTheta ≤ 0 := by simp only [stdCond]; norm_num
  have h2 : checkT stdCond m.t ⟨0, l, lg, [(p, some [-w])], n⟩ = (.ok true, m.t) := by
    unfold checkT
    rw [if_neg h1, if_pos (show stdCond.metric = "grad".toList from rfl)]
    simp only [flatGrad, List.all_cons, List.all_nil, Option.isSome_some, Bool.and_self, if_true, List.cons_ne_nil, if_false, hm,
      List.map_cons, List.map_nil, Option.getD_some, List.flatten_cons, List.flatten_nil, List.append_nil]
    rw [show stdCond.order = .fin 2 from rfl, vnorm_one]
    unfold checkMetric
    rw [if_pos (show stdCond.mode = "rel".toList from rfl)]
    simp only [show stdCond.tolTheta = 1 / 10 ^ 8 from rfl, hw, decide_true]
  unfold ocCall checkAllParams
  rw [if_neg (by decide), if_neg (by decide), if_neg (by decide), if_pos (by decide), h2]
  simp

theorem stdCond_keeps {m : OCState} {m0 : ℝ} (hm : m.t.tGrad0 = some m0) (l : ℕ → ℝ) (lg : Option ℝ) (p : List ℝ) {w : ℝ} (k : ℤ) (n : ℤ) :
    (ocCall stdCond m ⟨0, l, lg, [(p, some [-w])], n⟩ k).2 = m := by
  have h1 : ¬ stdCond.tolTheta ≤ 0 := by simp only [stdCond]; norm_num
  have h2 : checkT stdCond m.t ⟨0, l, lg, [(p, some [-w])], n⟩ = (.ok (decide (|w| < 1 / 10 ^ 8 * m0)), m.t) := by
    unfold checkT
    rw [if_neg h1, if_pos (show stdCond.metric = "grad".toList from rfl)]
    simp only [flatGrad, List.all_cons, List.all_nil, Option.isSome_some, Bool.and_self, if_true, List.cons_ne_nil, if_false, hm,
      List.map_cons, List.map_nil, Option.getD_some, List.flatten_cons, List.flatten_nil, List.append_nil]
    rw [show stdCond.order = .fin 2 from rfl, vnorm_one]
    unfold checkMetric
    rw [if_pos (show stdCond.mode = "rel".toList from rfl)]
    rfl
  unfold ocCall checkAllParams
  rw [if_neg (by decide), if_neg (by decide), if_neg (by decide), if_pos (by decide), h2]

/-- what the witness returns -/
noncomputable def wFit (w : ℝ) (v : List ℝ) : Fitted 1 where
  coef := some (listT [v.getD 0 0])
  torch := some (.weber fun k => v.getD k.1 0, wJob w (.weber fun k => v.getD k.1 0))

/-- with a fresh condition the witness makes two steps and leaves the norm of its first gradient in the memory; with a memory holding a norm much
larger than its gradients it makes one -/
theorem wRun (oc : OCState) (w : ℝ) (g : ℕ) : ∃ f oc' g', wFits.run .weber wArgs ⟨stdCond, oc⟩ (wData w) g = (.ok (.plain (d := 1) f), oc', g') ∧
    (oc.t.tGrad0 = none → f.coef = some (listT [2]) ∧ oc' = { oc with t := { oc.t with tGrad0 := some |w| } }) ∧
    (∀ m, oc.t.tGrad0 = some m → |w| < 1 / 10 ^ 8 * m → f.coef = some (listT [1])) := by
  have hro : route .weber wArgs.solver = .ok (.torch true) := C66_bare_name_false .weber
  have hy : ∀ t, some (matT fun i (_ : Fin 1) => (wData w).y i) = some t → t.shape = [1, 1] := by intro t ht; cases ht; rfl
  have ha := torch_argsFit (onesGrad_shapes 1) .weber wArgs true (mc := false) (X := matT (wData w).X)
    (y := some (matT fun i (_ : Fin 1) => (wData w).y i)) (m := 1) (k := 1) (M0 := .weber fun _ => 0) rfl hy ⟨rfl, rfl, rfl⟩
  have hr := torch_costReady (grads := onesGrad 1) (e := .weber) (post := true) (mc := false) (X := matT (wData w).X)
    (y := some (matT fun i (_ : Fin 1) => (wData w).y i)) (M0 := .weber fun _ => 0) wArgs_ready
  obtain ⟨D, g', s, hD, hs, -⟩ := costReady_dualize (ext := counterExt) hr g
  obtain ⟨M, r, h1, -⟩ := C86_fits_return_partial (ext := counterExt) (fl := fun x => x) weight_good (cfg := stdCond) ha hr
    wArgs_ready.rho (trainSteps_pos wArgs_ready.iter .weber true) (gradCond_ready ⟨rfl, rfl, Or.inl rfl⟩ oc _ _) g
  have hstep : trainSteps .weber wArgs true = .inr (0, 2) := rfl
  have hrun : ∃ st, solveRun counterExt weightTorch stdCond (fun x => x) (wJob w) D (.weber fun _ => 0) (trainSteps .weber wArgs true) oc g' = (.ok r, st) ∧
      st.w.mod = M := by
    have h2 := h1
    unfold solveTorch at h2
    rw [hD] at h2
    simp only [ok_bind] at h2
    cases hz : solveRun counterExt weightTorch stdCond (fun x => x) (wJob w) D (.weber fun _ => 0) (trainSteps .weber wArgs true) oc g' with
    | mk a st =>
      rw [hz] at h2
      cases a with
      | error e => cases h2
      | ok r' => cases h2; exact ⟨st, rfl, rfl⟩
  obtain ⟨st, hst, hM⟩ := hrun
  obtain ⟨v1, g1, v2, v3, g3, oc', h5, h6, h7, h8, h9⟩ := solveRun_post (ext := counterExt) (cfg := stdCond) (fl := fun x => x) (args := wJob w)
    (M0 := .weber fun _ => 0) (D := D) weight_inPlace (dualize_steady hD) (g' := g') rfl (steps := trainSteps .weber wArgs true) (p := 0) (q := 2) rfl
    (n := 2) rfl (by norm_num) oc (r := r) (by rw [hst])
  rw [hst] at h8 h9
  simp only at h8 h9
  obtain ⟨parsed, obj, c, s', hp1, hp2, hp3, hp4, hp5⟩ := dualize_ok hD
  have hrho : D.rho = .num 0 := by rw [hp5]; rfl
  have hlab : (weightTorch.backward ⟨D, 0, none⟩).1 = some [-w] := by
    obtain ⟨l, hl1, hl2⟩ := mkLabeledCost_labels hp4
    rw [hp5]
    simp only [weightTorch, dualOf, Option.bind_some, hl1, Option.elim_some, hl2]
    rfl
  have hv1 : v1.params = [0] := by
    cases h5
    rfl
  have hv2 : v2.params = [0] := by
    obtain ⟨D', -, h⟩ := h6
    rw [h]
    exact hv1
  have hfit : wFits.run .weber wArgs ⟨stdCond, oc⟩ (wData w) g = (.ok (.plain (d := 1) (wFit w v3.params)), oc', st.w.gen) := by
    have e1 : estFit counterExt weightTorch (fun x => x) onesGrad (fun _ _ => none) ⟨fun _ _ _ g => (⟨fun _ _ => 0, none⟩, g), fun g => (0, g),
        fun _ g => (⟨[], 0, 0, 0⟩, g)⟩ .weber wArgs ⟨stdCond, oc⟩ (wData w) g = .ok (.plain (d := 1) (wFit w v3.params)) := by
      have e2 : fitTorch counterExt (onesGrad 1) (realTrainer counterExt weightTorch stdCond (fun x => x) oc g) .weber wArgs true false
          (matT (wData w).X) (some (matT fun i (_ : Fin 1) => (wData w).y i)) (.weber fun _ => 0) g = .ok (.weber fun k => v3.params.getD k.1 0) := by
        rw [fitTorch_runs, h1, ← hM, h8]
        rfl
      have e0 : weberFit counterExt (onesGrad 1) (realTrainer counterExt weightTorch stdCond (fun x => x) oc g) (fun _ => 0) wArgs
          (n := 1) (d := 1) (fun _ _ => 5) (fun _ => w) g = .ok (wFit w v3.params) := by
        have e2' : fitTorch counterExt (onesGrad 1) (realTrainer counterExt weightTorch stdCond (fun x => x) oc g) .weber wArgs true false
          (matT fun (_ : Fin 1) (_ : Fin 1) => 5) (some (matT fun (_ : Fin 1) (_ : Fin 1) => w)) (.weber fun _ => 0) g =
            .ok (.weber fun k => v3.params.getD k.1 0) := e2
        simp only [weberFit, hro, ok_bind, e2']
        rw [if_neg (by norm_num)]
        simp only [List.ofFn_succ, List.ofFn_zero]
        rfl
      exact congrArg (Except.map AnyFit.plain) e0
    have e3 : fitRoute .weber wArgs (wData w) = .ok (.torch true) := hro
    have e4 : (torchJob onesGrad ⟨fun _ _ _ g => (⟨fun _ _ => 0, none⟩, g), fun g => (0, g),
        fun _ g => (⟨[], 0, 0, 0⟩, g)⟩ .weber wArgs (wData w) true g).1.after counterExt weightTorch (fun x => x) ⟨stdCond, oc⟩ g = (oc', st.w.gen) := by
      unfold TorchJob.after torchJob
      dsimp only
      erw [hD]
      dsimp only
      erw [hst]
      rw [← h9]
    simp only [wFits, realFits, e1, e3]
    exact congrArg _ e4
  refine ⟨_, _, _, hfit, fun hm => ?_, fun m hm hw => ?_⟩
  · cases h7 with
    | last k s t x b hk hb hi =>
      obtain ⟨i1, i2⟩ := wIter (dualize_steady hD) hrho hlab hi
      have e := stdCond_first hm (fun _ => v3.lam) v3.lgrad v3.params w
      have e2 := i2.symm.trans e
      cases e2
      rcases hb with hb | hb
      · cases hb
      · omega
    | next k s t u x y hk hi ht =>
      obtain ⟨i1, i2⟩ := wIter (dualize_steady hD) hrho hlab hi
      have e2 := i2.symm.trans (stdCond_first hm (fun _ => t.1.1.lam) t.1.1.lgrad t.1.1.params w)
      have hmem : t.2.t.tGrad0 = some |w| := by rw [(Prod.mk.inj e2).2]
      cases ht with
      | last k s t' x b hk hb hi' =>
        obtain ⟨j1, j2⟩ := wIter (dualize_steady hD) hrho hlab hi'
        have hk := stdCond_keeps hmem (fun _ => v3.lam) v3.lgrad v3.params (w := w) 1 2
        have j3 := (congrArg Prod.snd j2).symm.trans hk
        refine ⟨?_, (show oc' = t.2 from j3).trans (Prod.mk.inj e2).2⟩
        have hv3 : v3.params = [2] := by rw [j1, i1, hv2]; norm_num
        simp [wFit, hv3]
      | next k s t' u x y hk hi' ht' => omega
  · cases h7 with
    | last k s t x b hk hb hi =>
      obtain ⟨i1, i2⟩ := wIter (dualize_steady hD) hrho hlab hi
      have hv3 : v3.params = [1] := by rw [i1, hv2]; norm_num
      simp [wFit, hv3]
    | next k s t u x y hk hi ht =>
      obtain ⟨i1, i2⟩ := wIter (dualize_steady hD) hrho hlab hi
      have e2 := i2.symm.trans (stdCond_later hm (fun _ => t.1.1.lam) t.1.1.lgrad t.1.1.params (k := 0) 2 hw)
      cases (Prod.mk.inj e2).1

/-- the arguments of the witness, as given by the user -/
noncomputable def wUser : EstArgs := ⟨.float (.num 0), wArgs⟩

theorem wUser_ok : constructArgs .weber wUser = .ok () := by
  have h : construct .weber (wUser.withRadius (.num 0)) = .ok (wUser.withRadius (.num 0)) := by
    simp [construct, Radius.neg, EstArgs.withRadius]
  unfold constructArgs
  simp only [wUser, RhoArg.compared, ok_bind]
  erw [h]
  rfl

/-- `fit` of estimator `a` of the witness, referring to condition `c`, itself built as the default one -/
theorem wStep {s : Session ℕ} {a c : ℕ} {oc : OCState} (he : s.ests[a]? = some ⟨.weber, wUser, some c⟩) (hc : s.conds[c]? = some ⟨stdCond, oc⟩)
    (w : ℝ) : ∃ f : Fitted 1, (sessionStep wFits s (.fit a (wData w))).1 = .ok (.fitted (.plain f)) ∧
      (oc.t.tGrad0 = none → f.coef = some (listT [2])) ∧ (∀ m, oc.t.tGrad0 = some m → |w| < 1 / 10 ^ 8 * m → f.coef = some (listT [1])) ∧
      (sessionStep wFits s (.fit a (wData w))).2.ests = s.ests ∧ ∃ oc', (sessionStep wFits s (.fit a (wData w))).2.conds = s.conds.set c ⟨stdCond, oc'⟩ ∧
        (oc.t.tGrad0 = none → oc' = { oc with t := { oc.t with tGrad0 := some |w| } }) := by
  obtain ⟨f, oc', g', h1, h2, h3⟩ := wRun oc w s.gen
  have hv : wFits.valid .weber (wData w) = .ok () := by
    simp [wFits, realFits, wData]
  have ht : wFits.torch .weber (wUser.withRadius (.num 0)) (wData w) = .ok true := by
    have : fitRoute .weber (wUser.withRadius (.num 0)) (wData w) = .ok (.torch true) := C66_bare_name_false .weber
    simp only [wFits, realFits, this]
    rfl
  have hrun : wFits.run .weber (wUser.withRadius (.num 0)) ⟨stdCond, oc⟩ (wData w) s.gen = (.ok (.plain (d := 1) f), oc', g') := h1
  have key : sessionStep wFits s (.fit a (wData w)) = (.ok (.fitted (.plain f)),
      { s.putEst a ⟨.weber, wUser, some c⟩ with conds := s.conds.set c ⟨stdCond, oc'⟩, gen := g' }) := by
    simp only [sessionStep, he, hv]
    simp only [show wUser.rho.toFloat = .ok (.num 0) from rfl, fitConverted]
    rw [show ({ wUser with rho := .float (.num 0) } : EstArgs) = wUser from rfl]
    simp only [ht, Option.getD_some, Option.isNone_some, Bool.false_eq_true, if_false, hc, hrun]
    rfl
  rw [key]
  refine ⟨f, rfl, fun h => (h2 h).1, h3, ?_, oc', rfl, fun h => (h2 h).2⟩
  have ha : a < s.ests.length := (List.getElem?_eq_some_iff.1 he).1
  apply List.ext_getElem?
  intro i
  simp only [Session.putEst, List.getElem?_set]
  split
  · next h => rw [← h, he]
  · rfl

/-- **C103** (violated) The conditions given by default are shared by all estimators of a class, and remember: an estimator which, right after its construction,
finds 2 in two steps, stops at 1 if another one was fitted on other data before. -/
theorem C103_shared_false (g : ℕ) : ∃ f f' : Fitted 1,
    let s := sessionRun wFits (Session.start g) [.construct .weber wUser none, .construct .weber wUser none]
    (sessionStep wFits s (.fit 1 (wData 1))).1 = .ok (.fitted (.plain f)) ∧ f.coef = some (listT [2]) ∧
    (sessionStep wFits (sessionStep wFits s (.fit 0 (wData (10 ^ 9)))).2 (.fit 1 (wData 1))).1 = .ok (.fitted (.plain f')) ∧
      f'.coef = some (listT [1]) := by
  have hs : sessionRun wFits (Session.start g) [.construct .weber wUser none, .construct .weber wUser none] =
      { Session.start g with ests := [⟨.weber, wUser, some 2⟩, ⟨.weber, wUser, some 2⟩] } := by
    simp [sessionRun, sessionStep, Session.hasCond, Session.start, wUser_ok, EstKind.condRef, Session.addEst]
  dsimp only
  rw [hs]
  obtain ⟨f, h1, h2, -⟩ := wStep (s := { Session.start g with ests := [⟨.weber, wUser, some 2⟩, ⟨.weber, wUser, some 2⟩] }) (a := 1) (c := 2)
    (oc := freshOC) rfl rfl 1
  obtain ⟨-, -, -, -, h4, oc', h5, h6⟩ := wStep (s := { Session.start g with ests := [⟨.weber, wUser, some 2⟩, ⟨.weber, wUser, some 2⟩] })
    (a := 0) (c := 2) (oc := freshOC) rfl rfl (10 ^ 9)
  obtain ⟨f', h7, -, h8, -⟩ := wStep (s := (sessionStep wFits { Session.start g with ests := [⟨.weber, wUser, some 2⟩, ⟨.weber, wUser, some 2⟩] }
    (.fit 0 (wData (10 ^ 9)))).2) (a := 1) (c := 2) (oc := oc') (by rw [h4]; rfl) (by rw [h5]; rfl) 1
  exact ⟨f, f', h1, h2 rfl, h7, h8 _ (by rw [h6 rfl]) (by norm_num)⟩

/-- **C104** (violated) A clone of a fitted estimator remembers its training, unlike one built anew from the same arguments: on the same data the former
stops at 1, the latter finds 2. -/
theorem C104_memory_false (g : ℕ) : ∃ (s' : Session ℕ) (f f' : Fitted 1),
    let s := (sessionStep wFits (sessionRun wFits (Session.start g) [.construct .weber wUser none]) (.fit 0 (wData (10 ^ 9)))).2
    sessionStep wFits s (.clone 0) = (.ok (.est 1), s') ∧ (sessionStep wFits s' (.fit 1 (wData 1))).1 = .ok (.fitted (.plain f)) ∧
      f.coef = some (listT [1]) ∧
    (sessionStep wFits (sessionRun wFits s [.newCond stdCond, .construct .weber wUser (some (some 5))]) (.fit 1 (wData 1))).1 =
      .ok (.fitted (.plain f')) ∧ f'.coef = some (listT [2]) := by
  have hs : sessionRun wFits (Session.start g) [.construct .weber wUser none] = { Session.start g with ests := [⟨.weber, wUser, some 2⟩] } := by
    simp [sessionRun, sessionStep, Session.hasCond, Session.start, wUser_ok, EstKind.condRef, Session.addEst]
  dsimp only
  rw [hs]
  obtain ⟨-, -, -, -, h4, oc', h5, h6⟩ := wStep (s := { Session.start g with ests := [⟨.weber, wUser, some 2⟩] }) (a := 0) (c := 2)
    (oc := freshOC) rfl rfl (10 ^ 9)
  generalize (sessionStep wFits { Session.start g with ests := [⟨.weber, wUser, some 2⟩] } (.fit 0 (wData (10 ^ 9)))).2 = s at h4 h5
  have h6 := h6 rfl
  subst h6
  obtain ⟨conds, ests, gen⟩ := s
  simp only [Session.start] at h4 h5
  subst h4
  subst h5
  have hcl : sessionStep wFits ⟨(⟨logisticCond, freshOC⟩ :: List.replicate 4 ⟨stdCond, freshOC⟩).set 2
      ⟨stdCond, { freshOC with t := { freshOC.t with tGrad0 := some |(10 : ℝ) ^ 9| } }⟩, [⟨.weber, wUser, some 2⟩], gen⟩ (.clone 0) =
      (.ok (.est 1), ⟨(⟨logisticCond, freshOC⟩ :: List.replicate 4 ⟨stdCond, freshOC⟩).set 2
      ⟨stdCond, { freshOC with t := { freshOC.t with tGrad0 := some |(10 : ℝ) ^ 9| } }⟩ ++
      [⟨stdCond, { freshOC with t := { freshOC.t with tGrad0 := some |(10 : ℝ) ^ 9| } }⟩], [⟨.weber, wUser, some 2⟩, ⟨.weber, wUser, some 5⟩], gen⟩) := by
    simp [sessionStep, CondObj.copy, freshOC, wUser_ok, Session.addEst, Session.addCond, List.replicate]
  obtain ⟨f, h7, -, h8, -⟩ := wStep (s := ⟨(⟨logisticCond, freshOC⟩ :: List.replicate 4 ⟨stdCond, freshOC⟩).set 2
      ⟨stdCond, { freshOC with t := { freshOC.t with tGrad0 := some |(10 : ℝ) ^ 9| } }⟩ ++
      [⟨stdCond, { freshOC with t := { freshOC.t with tGrad0 := some |(10 : ℝ) ^ 9| } }⟩], [⟨.weber, wUser, some 2⟩, ⟨.weber, wUser, some 5⟩], gen⟩)
    (a := 1) (c := 5) rfl rfl 1
  have hnew : sessionRun wFits ⟨(⟨logisticCond, freshOC⟩ :: List.replicate 4 ⟨stdCond, freshOC⟩).set 2
      ⟨stdCond, { freshOC with t := { freshOC.t with tGrad0 := some |(10 : ℝ) ^ 9| } }⟩, [⟨.weber, wUser, some 2⟩], gen⟩
      [.newCond stdCond, .construct .weber wUser (some (some 5))] = ⟨(⟨logisticCond, freshOC⟩ :: List.replicate 4 ⟨stdCond, freshOC⟩).set 2
      ⟨stdCond, { freshOC with t := { freshOC.t with tGrad0 := some |(10 : ℝ) ^ 9| } }⟩ ++ [⟨stdCond, freshOC⟩],
      [⟨.weber, wUser, some 2⟩, ⟨.weber, wUser, some 5⟩], gen⟩ := by
    simp [sessionRun, sessionStep, wUser_ok, Session.addEst, Session.addCond, List.replicate, Session.hasCond]
  obtain ⟨f', h9, h10, -⟩ := wStep (s := ⟨(⟨logisticCond, freshOC⟩ :: List.replicate 4 ⟨stdCond, freshOC⟩).set 2
      ⟨stdCond, { freshOC with t := { freshOC.t with tGrad0 := some |(10 : ℝ) ^ 9| } }⟩ ++ [⟨stdCond, freshOC⟩],
      [⟨.weber, wUser, some 2⟩, ⟨.weber, wUser, some 5⟩], gen⟩) (a := 1) (c := 5) (oc := freshOC) rfl rfl 1
  refine ⟨_, f, f', hcl, h7, h8 _ rfl (by norm_num), ?_, h10 rfl⟩
  rw [hnew]
  exact h9

/-- **C104** (violated) Nor is an estimator as new when fitted again: `fit` keeps what the condition remembers of the previous data. -/
theorem C104_refit_false (g : ℕ) : ∃ f f' : Fitted 1,
    let s := sessionRun wFits (Session.start g) [.construct .weber wUser none]
    (sessionStep wFits s (.fit 0 (wData 1))).1 = .ok (.fitted (.plain f)) ∧ f.coef = some (listT [2]) ∧
    (sessionStep wFits (sessionStep wFits s (.fit 0 (wData (10 ^ 9)))).2 (.fit 0 (wData 1))).1 = .ok (.fitted (.plain f')) ∧
      f'.coef = some (listT [1]) := by
  have hs : sessionRun wFits (Session.start g) [.construct .weber wUser none] = { Session.start g with ests := [⟨.weber, wUser, some 2⟩] } := by
    simp [sessionRun, sessionStep, Session.hasCond, Session.start, wUser_ok, EstKind.condRef, Session.addEst]
  dsimp only
  rw [hs]
  obtain ⟨f, h1, h2, -⟩ := wStep (s := { Session.start g with ests := [⟨.weber, wUser, some 2⟩] }) (a := 0) (c := 2) (oc := freshOC) rfl rfl 1
  obtain ⟨-, -, -, -, h4, oc', h5, h6⟩ := wStep (s := { Session.start g with ests := [⟨.weber, wUser, some 2⟩] }) (a := 0) (c := 2)
    (oc := freshOC) rfl rfl (10 ^ 9)
  obtain ⟨f', h7, -, h8, -⟩ := wStep (s := (sessionStep wFits { Session.start g with ests := [⟨.weber, wUser, some 2⟩] }
    (.fit 0 (wData (10 ^ 9)))).2) (a := 0) (c := 2) (oc := oc') (by rw [h4]; rfl) (by rw [h5]; rfl) 1
  exact ⟨f, f', h1, h2 rfl, h7, h8 _ (by rw [h6 rfl]) (by norm_num)⟩

/-! ### Programs to which the theorems apply -/

/-- two estimators: one with a condition of its own, one with the default one -/
noncomputable def twoEsts (g : ℕ) : Session ℕ :=
  ⟨(Session.start g).conds ++ [⟨stdCond, freshOC⟩], [⟨.weber, wUser, some 5⟩, ⟨.weber, wUser, some 2⟩], g⟩

/-- what another user of the second estimator may do -/
noncomputable def others : List (Op FitData) :=
  [.fit 1 (wData 3), .setParams 1 [.n_iter none, .rho (.int 1)], .clone 1, .clone 0, .construct .linreg ⟨.int 1, EstKind.linreg.defaults⟩ none,
    .fit 2 (wData 4), .use 2 freshOC]

theorem twoEsts_built (g : ℕ) : sessionRun wFits (Session.start g)
    [.newCond stdCond, .construct .weber wUser (some (some 5)), .construct .weber wUser none] = twoEsts g := by
  simp [sessionRun, sessionStep, twoEsts, Session.hasCond, Session.start, wUser_ok, EstKind.condRef, Session.addEst, Session.addCond]

theorem twoEsts_sound (g : ℕ) : Sound (twoEsts g) := twoEsts_built g ▸ C103_sound (sound_start g) _

theorem twoEsts_unshared (g : ℕ) : Unshared (twoEsts g) 0 := by
  intro b e e' c h1 h2 h3 h4
  cases h1
  cases h2
  rcases b with _ | _ | b
  · exact absurd rfl h3
  · cases h4; simp
  · cases h4

theorem others_alone : ∀ o ∈ others, LeavesAlone 0 (some 5) o := by
  intro o ho
  simp only [others, List.mem_cons, List.not_mem_nil, or_false] at ho
  rcases ho with rfl | rfl | rfl | rfl | rfl | rfl | rfl <;> simp [LeavesAlone, EstKind.condRef]

example (g : ℕ) : ∃ e', (sessionRun wFits (twoEsts g) others).ests[0]? = some e' ∧ Kept ⟨.weber, wUser, some 5⟩ e' :=
  C102_arguments_partial rfl others (by simp [others])

example (g : ℕ) : (sessionRun wFits (twoEsts g) others).ests[0]? = some ⟨.weber, wUser, some 5⟩ :=
  C102_untouched rfl others (by simp [others]) (by simp [others])

example (g : ℕ) := C102_set (F := wFits) (s := twoEsts g) (a := 0) rfl (vs := [.rho (.int 1), .opt_cond (some 2), .rho (.int 2)])
  (by simp [twoEsts, Session.start]) (by decide)

example (g : ℕ) : sessionStep wFits (twoEsts g) (.setParams 0 [.rho (.int 1), .fit_intercept true, .n_iter none]) =
    (.error .valueError, (sessionStep wFits (twoEsts g) (.setParams 0 [.rho (.int 1)])).2) :=
  C102_set_unknown (vs := [.rho (.int 1)]) (v := .fit_intercept true) (ws := [.n_iter none]) rfl (by simp) (by decide) (by decide)

example (g : ℕ) : (sessionRun wFits (twoEsts g) others).conds[5]? = some ⟨stdCond, freshOC⟩ :=
  (C103_frame_partial rfl (twoEsts_sound g) (twoEsts_unshared g) others others_alone).2.1 5 rfl

example (g : ℕ) (D : FitData) : (sessionStep wFits (sessionRun wFits (twoEsts g) others) (.fit 0 D)).1 = (sessionStep wFits (twoEsts g) (.fit 0 D)).1 :=
  C103_independent_partial (e := ⟨.weber, wUser, some 5⟩) rfl (twoEsts_sound g) (twoEsts_unshared g) others others_alone D fun _ _ => C103_weber _ _

example (D : FitData) : Seeded wFits .portfolio EstKind.portfolio.defaults D := C103_dedicated D rfl

/-- `opt_cond=None` -/
noncomputable def noCond (g : ℕ) : Session ℕ := { Session.start g with ests := [⟨.weber, wUser, none⟩] }

example (g : ℕ) : ∃ e', (sessionStep wFits (noCond g) (.fit 0 (wData 3))).2.ests[0]? = some e' ∧ e'.cond = some 5 := by
  obtain ⟨e', h1, h2, -⟩ := C102_none_false (F := wFits) (s := noCond g) (a := 0) rfl rfl (r := .num 0) rfl (D := wData 3)
    (by simp [wFits, realFits, wData]) (by
      have : fitRoute .weber (wUser.withRadius (.num 0)) (wData 3) = .ok (.torch true) := C66_bare_name_false .weber
      simp only [wFits, realFits, this]
      rfl)
  exact ⟨e', h1, h2⟩

theorem twoEsts_clone (g : ℕ) : ∃ b s', sessionStep wFits (twoEsts g) (.clone 0) = (.ok (.est b), s') :=
  C104_cloned_partial rfl wUser_ok fun c hc => by cases hc; exact ⟨stdCond, rfl⟩

example (g : ℕ) : ∃ b s', sessionStep wFits (twoEsts g) (.clone 0) = (.ok (.est b), s') :=
  C104_cloned_partial rfl wUser_ok fun c hc => by cases hc; exact ⟨stdCond, rfl⟩

example (g : ℕ) : ∃ (b : ℕ) (s' : Session ℕ), Unshared s' b ∧ s'.gen = g := by
  obtain ⟨b, s', h⟩ := twoEsts_clone g
  obtain ⟨_, _, -, -, -, -, -, -, -, h1, -, -, h2⟩ := C104_clone (twoEsts_sound g) h
  exact ⟨b, s', h1, h2⟩

example (g : ℕ) (D : FitData) : ∃ b s1, (sessionStep wFits s1 (.fit b D)).1 =
    (sessionStep wFits (sessionRun wFits (twoEsts g) [.newCond stdCond, .construct .weber wUser (some (some 6))]) (.fit 2 D)).1 := by
  obtain ⟨b, s', h⟩ := twoEsts_clone g
  refine ⟨b, s', C104_as_new_partial (c := 5) (c' := 6) (twoEsts_sound g) rfl rfl rfl h rfl ?_ D⟩
  simp [sessionRun, sessionStep, twoEsts, Session.hasCond, Session.start, wUser_ok, Session.addEst, Session.addCond]

/-- a condition on the motion of the parameters, called once by the user -/
noncomputable def moved (g : ℕ) : Session ℕ := sessionRun wFits (Session.start g)
  [.newCond { stdCond with metric := "param".toList }, .construct .weber wUser (some (some 5)),
    .use 5 (ocCall { stdCond with metric := "param".toList } freshOC ⟨0, fun _ => 0, none, [([1, 2], none)], 9⟩ 0).2]

example (g : ℕ) : (sessionStep wFits (moved g) (.clone 0)).1 = .error .runtimeError := by
  have h : (ocCall { stdCond with metric := "param".toList } freshOC ⟨0, fun _ => 0, none, [([1, 2], none)], 9⟩ 0).2.t.t0 = some [1, 2] := by
    unfold ocCall checkAllParams checkT
    rw [if_neg (by decide), if_neg (by decide), if_neg (by decide), if_pos (by decide), if_neg (by simp only [stdCond]; norm_num)]
    rfl
  have hm : moved g = ⟨(Session.start g).conds ++ [⟨{ stdCond with metric := "param".toList }, (ocCall { stdCond with metric := "param".toList } freshOC
      ⟨0, fun _ => 0, none, [([1, 2], none)], 9⟩ 0).2⟩], [⟨.weber, wUser, some 5⟩], g⟩ := by
    simp [moved, sessionRun, sessionStep, Session.hasCond, Session.start, wUser_ok, Session.addEst, Session.addCond, List.replicate]
  rw [hm]
  exact C104_refused_false rfl rfl rfl (Or.inl (by rw [h]; simp))

end Skwdro
