import Mathlib.Data.List.GetD
import Verif.Lemmas.Fit
import Verif.Lemmas.Shapes
import Verif.Spec.Estimators
import Verif.Spec.Fit
import Verif.Props.ImpSamp

/-! The fits of the estimators satisfy the hypotheses of Lemmas/Fit. -/

namespace Skwdro
open Spec Tensor

/-! ## Modules -/

section modules
variable {d : ℕ}

theorem sameShape_refl (M : Module d) : SameShape M M := by
  cases M <;> simp [SameShape]

theorem withParams_same (M : Module d) (v : List ℝ) : SameShape M (M.withParams v) := by
  cases M <;> simp [SameShape, Module.withParams, LinMap.withParams]

theorem sameShape_trans {M1 M2 M3 : Module d} (h : SameShape M1 M2) (h' : SameShape M2 M3) : SameShape M1 M3 := by
  cases M1 <;> cases M2 <;> simp only [SameShape] at h <;> cases M3 <;> simp only [SameShape] at h' ⊢ <;> simp_all

theorem linParams_length {K : ℕ} (l : LinMap d K) : l.params.length = K * d + (if l.bias.isSome then K else 0) := by
  unfold LinMap.params
  rw [List.length_append, List.length_flatten]
  cases l.bias <;> simp [List.map_ofFn, Function.comp_def]

theorem flatten_ofFn_getD {K : ℕ} (w : Fin K → Fin d → ℝ) (c : Fin K) (k : Fin d) (rest : List ℝ) :
    ((List.ofFn fun c => List.ofFn (w c)).flatten ++ rest).getD (c.1 * d + k.1) 0 = w c k := by
  have hlt : c.1 * d + k.1 < K * d := by
    calc c.1 * d + k.1 < c.1 * d + d := by omega
      _ = (c.1 + 1) * d := by ring
      _ ≤ K * d := Nat.mul_le_mul_right _ c.2
  have hlen : (List.ofFn fun c => List.ofFn (w c)).flatten.length = K * d := by
    rw [List.length_flatten]; simp [List.map_ofFn, Function.comp_def]
  rw [List.getD_append _ _ _ _ (by rw [hlen]; exact hlt)]
  induction K with
  | zero => exact c.elim0
  | succ K ih =>
    rw [List.ofFn_succ, List.flatten_cons]
    rcases Fin.eq_zero_or_eq_succ c with rfl | ⟨c, rfl⟩
    · simp only [Fin.val_zero, zero_mul, zero_add]
      rw [List.getD_append _ _ _ _ (by simp), List.getD_eq_getElem _ _ (by simp)]
      simp
    · rw [List.getD_append_right _ _ _ _ (by simp [Nat.succ_mul]; omega)]
      have e : (c.succ : Fin (K + 1)).1 * d + k.1 - (List.ofFn (w 0)).length = c.1 * d + k.1 := by
        simp [Nat.succ_mul]; omega
      rw [e]
      refine ih (fun c => w c.succ) c ?_ ?_
      · calc c.1 * d + k.1 < c.1 * d + d := by omega
          _ = (c.1 + 1) * d := by ring
          _ ≤ K * d := Nat.mul_le_mul_right _ c.2
      · rw [List.length_flatten]; simp [List.map_ofFn, Function.comp_def]

theorem linMap_withParams_self {K : ℕ} (l : LinMap d K) : l.withParams l.params = l := by
  obtain ⟨w, b⟩ := l
  have hlen : (List.ofFn fun c => List.ofFn (w c)).flatten.length = K * d := by
    rw [List.length_flatten]; simp [List.map_ofFn, Function.comp_def]
  simp only [LinMap.withParams, LinMap.params, LinMap.mk.injEq]
  refine ⟨funext fun c => funext fun k => flatten_ofFn_getD w c k _, ?_⟩
  cases b with
  | none => rfl
  | some b =>
    simp only [Option.map_some, Option.some.injEq]
    funext c
    rw [List.getD_append_right _ _ _ _ (by rw [hlen]; omega), hlen, Nat.add_sub_cancel_left, List.getD_eq_getElem _ _ (by simp)]
    simp

/-- writing back the values read changes nothing -/
theorem withParams_self (M : Module d) : M.withParams M.theta = M := by
  cases M with
  | softMargin l => simp [Module.withParams, Module.theta, linMap_withParams_self]
  | crossEnt l => simp [Module.withParams, Module.theta, linMap_withParams_self]
  | mse l => simp [Module.withParams, Module.theta, linMap_withParams_self]
  | weber pos =>
    simp only [Module.withParams, Module.theta, Module.weber.injEq]
    funext k
    rw [List.getD_eq_getElem _ _ (by simp)]
    simp
  | portfolio p =>
    simp only [Module.withParams, Module.theta, Module.portfolio.injEq]
    obtain ⟨raw, tau, eta, alpha⟩ := p
    simp only [Portfolio.mk.injEq, List.getD_cons_zero, List.getD_cons_succ, and_true]
    refine List.ext_getElem (by simp) fun i h1 h2 => ?_
    simp [h2]
  | newsvendor k u t => simp [Module.withParams, Module.theta]

/-- the shape of a flat loss -/
theorem flat_sized {M : Module d} {k : ℕ} {labels mc : Bool} (h : ModFits M k labels mc) {N : ℕ} {x : Tensor ℝ} {y : Option (Tensor ℝ)}
    (hx : x.shape = [N, d]) (hl : y.isSome = labels) (hy : OptShape y [N, k]) : Sized (M.flat x y) (if mc then [N] else [N, 1]) := by
  have happ : ∀ {K : ℕ} (l : LinMap d K), Sized (l.apply x) [N, K] := by
    intro K l
    exact ⟨_, if_pos (by simp [hx]), by simp [hx]⟩
  cases M with
  | softMargin l =>
    obtain ⟨rfl, rfl, rfl⟩ := h
    obtain ⟨y, rfl⟩ := Option.isSome_iff_exists.1 hl
    obtain ⟨t, h1, h2⟩ := happ l
    have hv : Sized (y.view t.shape) [N, 1] := ⟨_, if_pos (by rw [h2, hy y rfl]), h2⟩
    obtain ⟨v, h3, h4⟩ := hv
    obtain ⟨w, h5, h6⟩ := sized_zip_same (f := fun t s => -logsigmoid (t * s)) h4 h2
    exact ⟨w, by simp only [Module.flat, h1, ok_bind, biDiffSoftMargin, h3, h5], h6⟩
  | mse l =>
    obtain ⟨rfl, rfl, rfl⟩ := h
    obtain ⟨y, rfl⟩ := Option.isSome_iff_exists.1 hl
    obtain ⟨t, h1, h2⟩ := happ l
    obtain ⟨w, h5, h6⟩ := sized_zip_same (f := fun a b : ℝ => (a - b) ^ 2) h2 (hy y rfl)
    exact ⟨w, by simp only [Module.flat, h1, ok_bind, h5], h6⟩
  | @crossEnt K l =>
    obtain ⟨rfl, rfl, rfl⟩ := h
    obtain ⟨y, rfl⟩ := Option.isSome_iff_exists.1 hl
    obtain ⟨t, h1, h2⟩ := happ l
    have : Sized (crossEntropy t y) [N] := by
      unfold crossEntropy
      rw [h2]
      dsimp only
      rw [if_pos (hy y rfl)]
      exact ⟨_, rfl, rfl⟩
    obtain ⟨w, h5, h6⟩ := this
    exact ⟨w, by simp only [Module.flat, h1, ok_bind, h5], h6⟩
  | weber pos =>
    obtain ⟨rfl, rfl, rfl⟩ := h
    obtain ⟨y, rfl⟩ := Option.isSome_iff_exists.1 hl
    obtain ⟨t, h1, h2⟩ := sized_zip (f := fun a b : ℝ => a - b) (a := x) (b := ⟨[1, (List.ofFn pos).length], fun i => (List.ofFn pos).getD (i.getLastD 0) 0⟩)
      (s := [N, d]) (by rw [hx, List.length_ofFn]; rw [bcastShape]; simp [bcastRev])
    have h2' := reduceLast_shape2 (fun row : List ℝ => Real.sqrt ((row.map fun z => z ^ 2).sum)) h2
    obtain ⟨w, h5, h6⟩ := sized_zip_same (f := fun a b : ℝ => a * b) (hy y rfl) h2'
    refine ⟨w.map fun a => a * ((1 : ℕ) : ℝ), ?_, h6⟩
    simp only [Module.flat, weberForward, h1, ok_bind, hy y rfl, h5]
  | portfolio p =>
    obtain ⟨rfl, rfl, hlen⟩ := h
    have : y = none := by simpa using hl
    subst this
    have h1 : Sized ((⟨p.weights, none⟩ : Lin).apply x) [N, 1] := by
      unfold Lin.apply
      rw [if_pos (by simp [hx, Portfolio.weights, softmaxVec, hlen])]
      exact ⟨_, rfl, reduceLast_shape2 _ hx⟩
    obtain ⟨r, h1, h2⟩ := h1
    obtain ⟨w, h5, h6⟩ := sized_zip_same (f := fun a c : ℝ => a + p.eta * c) (a := r.map fun r => -r)
      (b := r.map fun r => p.tau + max 0 (-r - p.tau) / p.alpha) h2 h2
    refine ⟨w, ?_, h6⟩
    simp only [Module.flat, Portfolio.forward, h1, ok_bind, h5]
  | newsvendor k u t =>
    obtain ⟨rfl, rfl, hd⟩ := h
    have : y = none := by simpa using hl
    subst this
    have hb : bcastShape [1] [N, 1] = some [N, 1] := bcastShape_suffix [1] [N]
    rw [hd] at hx
    obtain ⟨m, h1, h2⟩ := sized_zip (f := min) (a := param1 t) (b := x) (s := [N, 1]) (by rw [hx]; exact hb)
    obtain ⟨w, h5, h6⟩ := sized_zip (f := fun a b : ℝ => a - b) (a := (param1 t).map (k * ·)) (b := m.map (u * ·)) (s := [N, 1])
      (by rw [show (m.map (u * ·)).shape = [N, 1] from h2]; exact hb)
    refine ⟨w.meanLast, ?_, reduceLast_shape2 _ h6⟩
    simp only [Module.flat, newsvendorCustom, h1, ok_bind, h5]

theorem modFits_same {M M' : Module d} (hs : SameShape M M') {k : ℕ} {labels mc : Bool} (h : ModFits M k labels mc) : ModFits M' k labels mc := by
  cases M <;> cases M' <;> simp only [SameShape] at hs <;> simp_all [ModFits]

end modules

theorem regularize_shape (w : WLoss) (t : Tensor ℝ) : (w.regularize t).shape = t.shape := by
  unfold WLoss.regularize
  split <;> rfl

/-- the wrapped loss on batches -/
theorem value_sized {d : ℕ} {M : Module d} {k : ℕ} {labels mc : Bool} (h : ModFits M k labels mc) {w : WLoss} (hf : w.flat = M.flat)
    (hl : w.hasLabels = labels) (hr : w.reduceSpatial = !mc) {N m : ℕ} {z : Tensor ℝ} {zl : Option (Tensor ℝ)} (hz : z.shape = [N, m, d])
    (hzl : zl.isSome = labels) (hs : OptShape zl [N, m, k]) : Sized (w.value z zl) [N, m, 1] := by
  have hfl : z.flattenButLast.shape = [[N, m].prod, d] := by simp [Tensor.flattenButLast, hz]
  have tail : ∀ y : Option (Tensor ℝ), y.isSome = labels → OptShape y [[N, m].prod, k] →
      Sized (w.flatValue z.flattenButLast y >>= fun f => (w.reduceFlat f).view (z.shape.dropLast ++ [1])) [N, m, 1] := by
    intro y hy hys
    obtain ⟨t, h1, h2⟩ := flat_sized h hfl hy hys
    have h3 : (w.reduceFlat (w.regularize t)).shape = [[N, m].prod, 1] := by
      unfold WLoss.reduceFlat
      rw [hr]
      cases mc
      · exact reduceLast_shape2 _ (by rw [regularize_shape]; exact h2)
      · simp only [Bool.not_true, Bool.false_eq_true, if_false, Tensor.unsqueezeLast, regularize_shape, h2]
        rfl
    simp only [WLoss.flatValue, hf, h1, ok_bind]
    exact ⟨_, if_pos (by rw [h3]; simp [hz]), by simp [hz]⟩
  have hd : 2 < z.dim := by simp [dim, hz]
  unfold WLoss.value
  rw [hl]
  cases labels with
  | true =>
    obtain ⟨y, rfl⟩ := Option.isSome_iff_exists.1 hzl
    have hyd : 2 < y.dim := by simp [dim, hs y rfl]
    simp only [if_true]
    rw [if_pos ⟨hd, hyd⟩]
    exact tail (some y.flattenButLast) rfl (by intro x hx; cases hx; simp [Tensor.flattenButLast, hs y rfl])
  | false =>
    have : zl = none := by simpa using hzl
    subst this
    simp only [Bool.false_eq_true, if_false]
    rw [if_pos hd]
    exact tail none rfl (by intro x hx; cases hx)

/-! ## Samplers and costs built by `dualize_primal_loss` -/

theorem samplerData_law {c : CostR} {xi : Tensor ℝ} {e : Option ℝ} {l : Dist} (h : samplerData c xi e = .ok l) :
    LawOn l xi.shape ∧ IsNoise l := by
  have hL : ∀ s, mkLaplace xi s = .ok l → LawOn l xi.shape ∧ IsNoise l := by
    intro s hs
    unfold mkLaplace validScale at hs
    split at hs
    · split at hs <;> cases hs; exact ⟨rfl, trivial⟩
    · cases hs; exact ⟨rfl, trivial⟩
    · cases hs
  have hN : ∀ s, mkNormal xi s = .ok l → LawOn l xi.shape ∧ IsNoise l := by
    intro s hs
    unfold mkNormal validScale at hs
    split at hs
    · split at hs <;> cases hs; exact ⟨rfl, trivial⟩
    · cases hs; exact ⟨rfl, trivial⟩
    · cases hs
  unfold samplerData at h
  dsimp only at h
  repeat' split at h
  all_goals first | exact hL _ h | exact hN _ h | cases h

theorem samplerLabels_law {c : CostR} {y : Tensor ℝ} {e : Option ℝ} {l : Dist} (h : samplerLabels c (some y) e = .ok (some l)) :
    LawOn l y.shape := by
  have hL : ∀ s (l : Dist), mkLaplace y s = .ok l → LawOn l y.shape := by
    intro s l hs
    unfold mkLaplace validScale at hs
    split at hs
    · split at hs <;> cases hs; exact rfl
    · cases hs; exact rfl
    · cases hs
  have hN : ∀ s (l : Dist), mkNormal y s = .ok l → LawOn l y.shape := by
    intro s l hs
    unfold mkNormal validScale at hs
    split at hs
    · split at hs <;> cases hs; exact rfl
    · cases hs; exact rfl
    · cases hs
  unfold samplerLabels at h
  cases hk : c.kind with
  | normCost =>
    rw [hk] at h
    simp only [samplerLabelsNC, Option.map_some, Except.ok.injEq, Option.some.injEq] at h
    subst h
    rfl
  | normLabelCost =>
    rw [hk] at h
    dsimp only at h
    cases hq : samplerLabelsNLC c y e with
    | error x => rw [hq] at h; cases h
    | ok l' =>
      rw [hq] at h
      simp only [Except.map, Except.ok.injEq, Option.some.injEq] at h
      subst h
      unfold samplerLabelsNLC at hq
      dsimp only at hq
      repeat' split at hq
      all_goals first | exact hL _ _ hq | exact hN _ _ hq | (cases hq; rfl) | cases hq

theorem dualizeSampler_fits {G : Type} {ext : TorchExt G} {c : CostR} {xi : Tensor ℝ} {y : Option (Tensor ℝ)} {sg : ℝ} {seed : Option ℤ}
    {g g' : G} {s : Sampler} (h : dualizeSampler ext c xi y sg seed g = .ok (s, g')) {m d k : ℕ} (hx : xi.shape = [m, d])
    (hy : OptShape y [m, k]) : SamplerFits s m d k y.isSome := by
  unfold dualizeSampler at h
  cases y with
  | none =>
    simp only [mkNoLabelsCost] at h
    obtain ⟨l, h1, h2⟩ := bind_ok h
    cases h2
    obtain ⟨h3, h4⟩ := samplerData_law h1
    exact ⟨by rw [← hx]; exact h3, h4, rfl, by intro l hl; cases hl⟩
  | some y =>
    simp only [mkLabeledCost] at h
    obtain ⟨l, h1, h2⟩ := bind_ok h
    obtain ⟨o, h5, h6⟩ := bind_ok h2
    obtain ⟨h3, h4⟩ := samplerData_law h1
    cases o with
    | none => cases h6
    | some lb =>
      cases h6
      refine ⟨by rw [← hx]; exact h3, h4, rfl, ?_⟩
      intro l' hl
      cases hl
      rw [← hy y rfl]
      exact samplerLabels_law h5

/-- the loss built by `dualize_primal_loss` on well-shaped data, in any later state of a fit -/
theorem lossFits_of {G O : Type} {d : ℕ} {ext : TorchExt G} {args : Module d → DualizeArgs} {M0 : Module d} {g g' : G} {D : DualLoss}
    (hD : dualize ext (args M0) g = .ok (D, g')) {m k : ℕ} {mc : Bool} (ha : ArgsFit args M0 m k mc)
    (hcost : (args M0).xi_labels = none → D.cost.kind = .normCost) {b : Box d G O} (hb : SameShape M0 b.mod) (hs : b.sampler = D.sampler)
    (erm imp : Bool) (himp : imp = true → D.impSamp = true) :
    LossFits (b.dual args D erm imp) m d k (args M0).xi_labels.isSome := by
  obtain ⟨parsed, obj, c, s, -, ho, hc, hsm, rfl⟩ := dualize_ok hD
  have hmod := modFits_same hb ha.fits
  have hsame := ha.same b.mod
  refine ⟨fun N z zl hz hzl hzs => ?_, fun x xl hx hxl hxs => ?_, ⟨fun hk => ?_, fun hk => ?_⟩, ?_, fun s' hs' => ?_, fun hi => ?_⟩
  · refine value_sized (k := k) (labels := (args M0).xi_labels.isSome) (mc := mc) hmod ?_ ?_ ?_ hz hzl hzs
    · exact hsame.1
    · show (args b.mod).xi_labels.isSome = _
      rw [hsame.2.1]
    · show (!(args b.mod).loss_reduces_spatial_dims) = _
      rw [hsame.2.2]
  · obtain ⟨h1, h2, h3⟩ := ha.grads b.mod x xl
    refine ⟨h1.trans hx, h2.trans hxl, fun q hq => ?_⟩
    have hxs' : xl.isSome = true := by
      rw [← h2]
      exact congrArg Option.isSome hq
    obtain ⟨xl, rfl⟩ := Option.isSome_iff_exists.1 hxs'
    exact (h3 xl q rfl hq).trans (hxs xl rfl)
  · cases hy : (args M0).xi_labels with
    | some y => rfl
    | none => exact absurd ((hcost hy).symm.trans hk) (by simp)
  · rcases kappa_ok ho hc hk with ⟨q, -, hq⟩ | hq
    · exact Or.inl ⟨q, hq⟩
    · exact Or.inr hq
  · show reductionAttr (args M0).reduction = .mean ∨ reductionAttr (args M0).reduction = .sum
    rcases ha.reduction with h | h | h <;> rw [h]
    · exact Or.inl rfl
    · exact Or.inl rfl
    · exact Or.inr rfl
  · have : s' = s := by
      have h' : b.sampler = some s' := hs'
      rw [hs] at h'
      simpa [dualOf] using h'.symm
    subst this
    exact dualizeSampler_fits hsm ha.data ha.labels
  · have hi' := himp hi
    refine ⟨?_, ?_⟩
    · obtain ⟨-, h1, h2⟩ := (C21_enabled_iff ext hD).1 hi'
      exact squared_of h1 h2
    · show b.sampler.isSome = true
      rw [hs]; rfl

/-! ## Fits keep the shape of the module -/

section keeps
variable {G O : Type} {d : ℕ} {ext : TorchExt G} {T : Torch G O} {args : Module d → DualizeArgs} {D : DualLoss} {xi : Tensor ℝ}
  {y : Option (Tensor ℝ)} {post : Bool} {cfg : OCConfig} {mi : ℤ}

theorem lift_holds {ok : Bool} {J : Box d G O → Prop} (hput : ∀ b v, J b → J (b.put v)) {p : StepProg O} (hp : ok = true → StepTotal p) :
    ProgHolds ok J (p.lift (d := d) (G := G)) := by
  induction p with
  | done => exact .done
  | fail e =>
    refine .fail e ?_
    cases ok with
    | false => rfl
    | true => cases hp rfl
  | act f next ih =>
    exact .act _ _ (fun b hb => hput _ _ hb) fun b _ => ih _ fun h => by cases hp h with | act _ _ h => exact h _
  | eval next ih => exact .eval _ fun v => ih _ fun h => by cases hp h with | eval _ h => exact h _

/-- a property of modules kept by the optimizer is kept by all operations of a fit -/
theorem fitEnv_inv {J : Module d → Prop} (hprog : ∀ b : Box d G O, J b.mod → ProgHolds false (fun b : Box d G O => J b.mod) (T.prog b.view).lift)
    (hstep : ∀ (b : Box d G O) v, J b.mod → T.step b.view = .ok v → J (b.put v).mod)
    (hreset : ∀ f, T.resetLbd = some f → ∀ (b : Box d G O) v, J b.mod → f b.view = .ok v → J (b.put v).mod) :
    EnvHolds false (fun b : Box d G O => J b.mod) (fun _ _ => True) (fun _ _ => True) (fun _ _ => True) (fun _ _ _ _ => True) D.impSamp
      (fitEnv ext T args D xi y post cfg mi) := by
  have ge : ∀ {α : Type} {e : PyErr} {w : Box d G O} {Q : α → Box d G O → Prop}, Good false ((.error e, w) : Except PyErr α × Box d G O) Q :=
    Or.inr ⟨rfl, _, rfl⟩
  refine ⟨⟨fun w h => h, fun erm imp tr w _ h => ?_, fun _ w h _ => ?_, fun w h => hprog w h, fun _ w h _ => ?_,
    fun _ w h => ⟨h, fun _ _ _ _ => trivial⟩, fun w h => ?_, fun f hf w h => ?_⟩, fun k w h _ _ => ?_⟩
  · have item : ∀ (v : DualVal) (w' : Box d G O), J w'.mod → Good false (v.item, w') fun _ w' => J w'.mod ∧ True ∧ True ∧ True := by
      intro v w' hw
      cases hv : v.item with
      | error e => exact Or.inr ⟨rfl, e, rfl⟩
      | ok x => exact Or.inl ⟨x, rfl, hw, trivial, trivial, trivial⟩
    simp only [fitEnv]
    split
    · split
      · exact ge
      · exact item _ _ h
    · split
      · exact ge
      · split
        · exact ge
        · exact item _ _ h
  · simp only [fitEnv]
    split
    · exact ge
    · exact Or.inl ⟨_, rfl, h, trivial, fun _ _ _ _ => trivial⟩
  · simp only [fitEnv]
    split
    · exact ge
    · next v hv => exact Or.inl ⟨_, rfl, hstep _ _ h hv, trivial⟩
  · simp only [fitEnv]
    split
    · exact ge
    · exact Or.inl ⟨_, rfl, h⟩
  · simp only [fitEnv, Option.map_eq_some_iff] at hf
    obtain ⟨f', hf', rfl⟩ := hf
    dsimp only
    split
    · exact ge
    · next v hv => exact Or.inl ⟨_, rfl, hreset _ hf' _ _ h hv⟩
  · simp only [fitEnv]
    cases hv : (ocCall cfg w.oc ⟨0, fun _ => w.lam, w.lgrad, [(w.mod.theta, w.pgrad)], mi⟩ k).1 with
    | error e => exact Or.inr ⟨rfl, e, rfl⟩
    | ok x => exact Or.inl ⟨x, rfl, h, fun _ _ _ _ => trivial⟩

theorem genZetas_inv {J : Module d → Prop} (w : Box d G O) (h : J w.mod) :
    Good false ((fitEnv ext T args D xi y post cfg mi).genZetas w) fun _ w' => J w'.mod := by
  simp only [fitEnv]
  split
  · exact Or.inr ⟨rfl, _, rfl⟩
  · exact Or.inl ⟨_, rfl, h⟩

end keeps

/-- a property of modules kept by the optimizer holds of the trained module -/
theorem solveRun_inv {G O : Type} {d : ℕ} {ext : TorchExt G} {T : Torch G O} {cfg : OCConfig} {fl : ℝ → ℝ} {args : Module d → DualizeArgs}
    {D : DualLoss} {M0 : Module d} {steps : ℤ ⊕ (ℤ × ℤ)} {oc : OCState} {g : G} {r : Solved (List ℝ)} {s : St (Box d G O)} {J : Module d → Prop}
    (hprog : ∀ b : Box d G O, J b.mod → ProgHolds false (fun b : Box d G O => J b.mod) (T.prog b.view).lift)
    (hstep : ∀ (b : Box d G O) v, J b.mod → T.step b.view = .ok v → J (b.put v).mod)
    (hreset : ∀ f, T.resetLbd = some f → ∀ (b : Box d G O) v, J b.mod → f b.view = .ok v → J (b.put v).mod) (h0 : J M0)
    (h : solveRun ext T cfg fl args D M0 steps oc g = (.ok r, s)) : J s.w.mod := by
  have key := solveDual_keeps (env := fitEnv ext T args D (args M0).xi (args M0).xi_labels (args M0).post_sample cfg (toSteps steps).iterations)
    (out := fitReadout) (presample := !(args M0).post_sample) (rhoPos := (args M0).rho.isPos) (fl := fl) (sched := toSteps steps)
    (P := fun s => J s.w.mod ∧ s.imp = D.impSamp) (Q := fun s => J s.w.mod) (by
      intro p q
      split
      · exact optimPre_keeps (fitEnv_inv hprog hstep hreset) (fun w hw => genZetas_inv w hw) p q
      · exact optimPost_keeps (fitEnv_inv hprog hstep hreset) p q)
  rcases key (startState T M0 D g oc) ⟨h0, rfl⟩ with ⟨a, s', h1, h2⟩ | ⟨-, e, s', h1⟩
  · have := h.symm.trans h1
    cases this
    exact h2
  · have := h.symm.trans h1
    cases this

/-- a fit that returns kept the shape of the module -/
theorem solveRun_keeps {G O : Type} {d : ℕ} {ext : TorchExt G} {T : Torch G O} {cfg : OCConfig} {fl : ℝ → ℝ} {args : Module d → DualizeArgs}
    {D : DualLoss} {M0 : Module d} {steps : ℤ ⊕ (ℤ × ℤ)} {oc : OCState} {g : G} {r : Solved (List ℝ)} {s : St (Box d G O)}
    (h : solveRun ext T cfg fl args D M0 steps oc g = (.ok r, s)) : SameShape M0 s.w.mod := by
  have hput : ∀ (b : Box d G O) v, SameShape M0 b.mod → SameShape M0 (b.put v).mod := fun b v h => sameShape_trans h (withParams_same _ _)
  exact solveRun_inv (fun _ _ => lift_holds hput (by simp)) (fun _ _ h _ => hput _ _ h) (fun _ _ _ _ h _ => hput _ _ h) (sameShape_refl M0) h

/-! ## Fits on well-formed problems -/

section fits
variable {G O : Type} {d : ℕ} {ext : TorchExt G} {T : Torch G O} {args : Module d → DualizeArgs} {D : DualLoss} {cfg : OCConfig} {mi : ℤ}
  {M0 : Module d} {m k : ℕ} {mc : Bool}

/-- invariant of a fit; `Z` are the samples drawn at the start of a pre-sampled fit -/
def FitInv (M0 : Module d) (D : DualLoss) (post : Bool) (Z : Tensor ℝ × Option (Tensor ℝ)) (b : Box d G O) : Prop :=
  SameShape M0 b.mod ∧ b.sampler = D.sampler ∧ (post = false → b.zetas = some Z)

/-- the value of the loss of a pre-sampled fit -/
def FitVal (ext : TorchExt G) (args : Module d → DualizeArgs) (D : DualLoss) (xi : Tensor ℝ) (y : Option (Tensor ℝ)) (post : Bool)
    (Z : Tensor ℝ × Option (Tensor ℝ)) (erm imp : Bool) (b : Box d G O) (v : XNum ℝ) : Prop :=
  post = false → ∃ val, computeDual ext (b.dual args D erm imp) xi y Z.1 Z.2 = .ok val ∧ val.item = .ok v

theorem theta_length {M M' : Module d} (h : SameShape M M') : M.theta.length = M'.theta.length := by
  cases M <;> cases M' <;> simp only [SameShape] at h <;> simp only [Module.theta]
  · simp [linParams_length, h]
  · obtain ⟨rfl, h⟩ := h
    simp [linParams_length, h]
  · simp [linParams_length, h]
  · simp
  · simp [h]
  · simp

/-! ### Calls of the optimality condition -/

theorem gradCond_ready (h : GradCond cfg) (oc : OCState) (n : ℕ) (rho : Radius) : CondReady cfg oc n rho := by
  obtain ⟨h1, h2, h3⟩ := h
  refine ⟨Or.inl h1, h3, Or.inr (Or.inr (Or.inr (by rw [h2]; decide))), fun h => ?_, fun h => ?_⟩
  · rw [h1] at h
    exact absurd h (by decide)
  · obtain ⟨-, -, h⟩ := h
    rw [h2] at h
    exact absurd h (by decide)

theorem checkMetric_ok (hm : cfg.mode = "rel".toList ∨ cfg.mode = "abs".toList) (a b c : ℝ) : ∃ r, checkMetric cfg a b c = .ok r := by
  unfold checkMetric
  split
  · exact ⟨_, rfl⟩
  · next h => rw [if_pos (hm.resolve_left h)]; exact ⟨_, rfl⟩

theorem checkT_ok {oc : OCState} {n : ℕ} {rho : Radius} (hc : CondReady cfg oc n rho) {v : OCView} {a : List ℝ} {pg : Option (List ℝ)}
    (hv : v.params = [(a, pg)]) (ha : a.length = n) (hg : cfg.metric = "grad".toList → pg.isSome = true) :
    (∃ r, (checkT cfg oc.t v).1 = .ok r) ∧ (cfg.metric = "param".toList → MemFits ⟨oc.l, (checkT cfg oc.t v).2⟩ n) := by
  unfold checkT
  split
  · exact ⟨⟨_, rfl⟩, hc.memory⟩
  split
  · next hm =>
    obtain ⟨g, rfl⟩ := Option.isSome_iff_exists.1 (hg hm)
    have hg : flatGrad v = .ok [g].flatten := by simp [flatGrad, hv]
    simp only [hg]
    refine ⟨?_, fun h => ?_⟩
    · split
      · exact ⟨_, rfl⟩
      · exact checkMetric_ok hc.mode _ _ _
    · rw [hm] at h
      exact absurd h (by decide)
  next hm =>
  have hm' := hc.metric.resolve_left hm
  rw [if_pos hm']
  have hp : flatParam v = .ok a := by simp [flatParam, hv]
  obtain ⟨m1, m2, m3, m4⟩ := hc.memory hm'
  obtain ⟨l, t0, tMem, t1, tg⟩ := oc
  simp only [hp] at *
  cases t0 with
  | none => exact ⟨⟨_, rfl⟩, fun _ => ⟨fun b hb => by cases hb; exact ha, m2, m3, m4⟩⟩
  | some t0 =>
    cases t1 with
    | none =>
      have : vsub a t0 = .ok (List.zipWith (· - ·) a t0) := if_pos (by rw [ha, m1 t0 rfl])
      simp only [this]
      exact ⟨⟨_, rfl⟩, fun _ => ⟨m1, fun b hb => by cases hb; exact ha, fun _ => rfl, m4⟩⟩
    | some t1 =>
      obtain ⟨mem, hmem⟩ := Option.isSome_iff_exists.1 (m3 rfl)
      subst hmem
      have : vsub a mem = .ok (List.zipWith (· - ·) a mem) := if_pos (by rw [ha, m2 mem rfl])
      simp only [this]
      exact ⟨checkMetric_ok hc.mode _ _ _, fun _ => ⟨m1, fun b hb => by cases hb; exact ha, fun _ => rfl, m4⟩⟩

theorem checkL_ok {oc : OCState} {n : ℕ} {rho : Radius} (hc : CondReady cfg oc n rho) {v : OCView}
    (hg : cfg.metric = "grad".toList → 0 < cfg.tolLambda → v.lamGrad.isSome = true) :
    (∃ r, (checkL cfg oc.l v).1 = .ok r) ∧ (cfg.metric = "param".toList → MemFits ⟨(checkL cfg oc.l v).2, oc.t⟩ n) := by
  unfold checkL
  split
  · exact ⟨⟨_, rfl⟩, hc.memory⟩
  next htol =>
  split
  · next hm =>
    obtain ⟨g, hg⟩ := Option.isSome_iff_exists.1 (hg hm (by linarith))
    simp only [lamGrad, hg]
    refine ⟨?_, fun h => ?_⟩
    · split
      · exact ⟨_, rfl⟩
      · exact checkMetric_ok hc.mode _ _ _
    · rw [hm] at h
      exact absurd h (by decide)
  next hm =>
  have hm' := hc.metric.resolve_left hm
  rw [if_pos hm']
  obtain ⟨m1, m2, m3, m4⟩ := hc.memory hm'
  obtain ⟨⟨l0, lMem, l1, lg⟩, t⟩ := oc
  cases l0 with
  | none => exact ⟨⟨_, rfl⟩, fun _ => ⟨m1, m2, m3, m4⟩⟩
  | some l0 =>
    cases l1 with
    | none => exact ⟨⟨_, rfl⟩, fun _ => ⟨m1, m2, m3, fun _ => rfl⟩⟩
    | some l1 =>
      obtain ⟨mem, hmem⟩ := Option.isSome_iff_exists.1 (m4 rfl)
      simp only at hmem
      subst hmem
      exact ⟨checkMetric_ok hc.mode _ _ _, fun _ => ⟨m1, m2, m3, fun _ => rfl⟩⟩

theorem ocCall_ok {oc : OCState} {n : ℕ} {rho : Radius} (hc : CondReady cfg oc n rho) {v : OCView} {a : List ℝ} {pg : Option (List ℝ)}
    (hv : v.params = [(a, pg)]) (ha : a.length = n) (hg : cfg.metric = "grad".toList → pg.isSome = true)
    (hl : WatchesLamGrad cfg → v.lamGrad.isSome = true) (it : ℤ) :
    (∃ r, (ocCall cfg oc v it).1 = .ok r) ∧ CondReady cfg (ocCall cfg oc v it).2 n rho := by
  have both : ∀ f, (cfg.monitoring ∈ L_AND_T ∨ cfg.monitoring ∈ L_OR_T) → (∃ r, (checkBoth f cfg oc v).1 = .ok r) ∧
      (cfg.metric = "param".toList → MemFits (checkBoth f cfg oc v).2 n) := by
    intro f hf
    obtain ⟨⟨r1, h1⟩, h2⟩ := checkL_ok hc (v := v) fun hm ht => hl ⟨hm, ht, by tauto⟩
    have hc' : CondReady cfg ⟨(checkL cfg oc.l v).2, oc.t⟩ n rho := ⟨hc.metric, hc.mode, hc.monitoring, h2, hc.lam⟩
    obtain ⟨⟨r2, h3⟩, h4⟩ := checkT_ok hc' hv ha hg
    unfold checkBoth
    cases hL : checkL cfg oc.l v with
    | mk x l =>
      rw [hL] at h1 h4
      simp only at h1
      subst h1
      cases hT : checkT cfg oc.t v with
      | mk y t =>
        rw [hT] at h3 h4
        simp only at h3
        subst h3
        exact ⟨⟨_, rfl⟩, h4⟩
  have all : (∃ r, (checkAllParams cfg oc v).1 = .ok r) ∧ (cfg.metric = "param".toList → MemFits (checkAllParams cfg oc v).2 n) := by
    unfold checkAllParams
    split
    · next h => exact both _ (Or.inl h)
    split
    · next h => exact both _ (Or.inr h)
    split
    · next h => exact checkL_ok hc fun hm ht => hl ⟨hm, ht, by tauto⟩
    rw [if_pos (by have := hc.monitoring; tauto)]
    exact checkT_ok hc hv ha hg
  obtain ⟨⟨r, h1⟩, h2⟩ := all
  unfold ocCall
  cases hA : checkAllParams cfg oc v with
  | mk x t =>
    rw [hA] at h1 h2
    simp only at h1
    subst h1
    exact ⟨⟨_, rfl⟩, hc.metric, hc.mode, hc.monitoring, h2, hc.lam⟩

/-! ### The operations of a fit -/

/-- the gradients after a backward pass -/
def FitGrads (ok : Bool) (rho : Radius) (_ : Bool) (b : Box d G O) : Prop :=
  ok = true → (rho ≠ .nan → b.pgrad.isSome = true) ∧ (∀ r, rho = .num r → 0 < r → b.lgrad.isSome = true)

/-- a computation is recorded -/
def FitTape (rho : Radius) (_ : Bool) (b : Box d G O) : Prop := ∃ t, b.tape = some t ∧ t.loss.rho = rho

/-- NaN losses: all of them at a NaN radius, none at other radii without importance sampling, or at radius zero -/
def FitNan (rho : Radius) (imp : Bool) (_ : Bool) (v : XNum ℝ) : Prop :=
  (rho = .nan → v.isNan = true) ∧ (rho ≠ .nan → imp = false ∨ rho = .num 0 → v.isNan = false)

/-- invariant of a fit, with the memory of the optimality condition; at radius zero the multiplier has no gradient (if `fr`) -/
def FitMem (fr : Bool) (Mem : OCState → Prop) (M0 : Module d) (D : DualLoss) (post : Bool) (Z : Tensor ℝ × Option (Tensor ℝ)) (b : Box d G O) :
    Prop :=
  FitInv M0 D post Z b ∧ Mem b.oc ∧ (fr = true → b.lgrad = none)

theorem lift_holds2 {ok : Bool} {J : Box d G O → Prop} (hput : ∀ b v, J b → v.lgrad = none → J (b.put v)) (hJ : ∀ b, J b → b.lgrad = none)
    {p : StepProg O} (hp : ok = true → StepTotal p) (hk : KeepsNoGrad p) : ProgHolds ok J (p.lift (d := d) (G := G)) := by
  induction p with
  | done => exact .done
  | fail e =>
    refine .fail e ?_
    cases ok with
    | false => rfl
    | true => cases hp rfl
  | act f next ih =>
    cases hk with
    | act _ _ h1 h2 =>
    exact .act _ _ (fun b hb => hput _ _ hb (h1 _ (hJ _ hb))) fun b _ => ih _ (fun h => by cases hp h with | act _ _ h => exact h _) (h2 _)
  | eval next ih =>
    cases hk with
    | eval _ h2 => exact .eval _ fun v => ih _ (fun h => by cases hp h with | eval _ h => exact h _) (h2 _)

theorem ermBranch_item {D : DualLoss} {rho : ℝ} {xi : Tensor ℝ} {y : Option (Tensor ℝ)} {v : DualVal} (h : ermBranch D rho xi y = .ok v) :
    ∃ t, v = .val t := by
  unfold ermBranch at h
  obtain ⟨b, -, h⟩ := bind_ok h
  obtain ⟨l, -, h⟩ := bind_ok h
  cases h
  exact ⟨_, rfl⟩

theorem finishDual_item {D : DualLoss} {rho : ℝ} {n : ℕ} {i : Tensor ℝ} {v : DualVal} (h : finishDual D rho n i = .ok v) : ∃ t, v = .val t := by
  unfold finishDual at h
  obtain ⟨b, -, h⟩ := bind_ok h
  cases h
  exact ⟨_, rfl⟩

theorem item_val {t : Tensor ℝ} {x : XNum ℝ} (hx : (DualVal.val t).item = .ok x) : x.isNan = false := by
  simp only [DualVal.item] at hx
  split at hx <;> cases hx
  rfl

theorem computeDual_nan {D : DualLoss} {xi z : Tensor ℝ} {y zl : Option (Tensor ℝ)} {v : DualVal} {x : XNum ℝ} {imp : Bool}
    (hi : D.impSamp = true → imp = true) (h : computeDual ext D xi y z zl = .ok v) (hx : v.item = .ok x) (e : Bool) : FitNan D.rho imp e x := by
  have val : (∃ t, v = .val t) → x.isNan = false := by
    rintro ⟨t, rfl⟩
    exact item_val hx
  unfold computeDual at h
  cases hr : D.rho with
  | nan =>
    rw [hr] at h
    refine ⟨fun _ => ?_, fun h => absurd rfl h⟩
    have : v = .nan := by
      dsimp only at h
      split at h
      · obtain ⟨b, -, h⟩ := bind_ok h
        cases h; rfl
      · cases h; rfl
    subst this
    cases hx
    rfl
  | num rho =>
    rw [hr] at h
    dsimp only at h
    refine ⟨fun h => (by cases h), fun _ hi' => val ?_⟩
    split at h
    · exact ermBranch_item h
    · next hne =>
      split at h
      · split at h
        · next him =>
          rcases hi' with hi' | hi'
          · rw [hi him] at hi'; cases hi'
          · cases hi'; exact absurd (Or.inl rfl) hne
        · obtain ⟨i, -, h⟩ := bind_ok h
          exact finishDual_item h
      · cases h

theorem postForward_nan {D D' : DualLoss} {xi : Tensor ℝ} {y : Option (Tensor ℝ)} {v : DualVal} {x : XNum ℝ} {imp : Bool} {g g1 : G}
    (hi : D.impSamp = true → imp = true) (h : postForward ext D xi y false g = .ok (v, D', g1)) (hx : v.item = .ok x) (e : Bool) :
    FitNan D.rho imp e x := by
  unfold postForward at h
  cases hs : D.sampler with
  | none => rw [hs] at h; cases h
  | some s =>
    rw [hs] at h
    simp only [Bool.false_eq_true, if_false, ok_bind] at h
    cases hr : D.rho with
    | nan =>
      rw [hr] at h
      dsimp only at h
      obtain ⟨v', h1, h⟩ := bind_ok h
      cases h
      exact computeDual_nan (D := { D with rho := .nan, sampler := some s }) (imp := imp) hi h1 hx e
    | num rho =>
      rw [hr] at h
      dsimp only at h
      split at h
      · cases h
      split at h
      · next h0 =>
        obtain ⟨b, -, h⟩ := bind_ok h
        obtain ⟨l, -, h⟩ := bind_ok h
        cases h
        exact ⟨fun h => (by cases h), fun _ _ => item_val hx⟩
      · obtain ⟨v', h1, h⟩ := bind_ok h
        cases h
        exact computeDual_nan (D := { D with rho := .num rho, sampler := some s }) (imp := imp) hi h1 hx e

/-- the operations of a fit on a well-formed problem, the optimality condition excepted -/
theorem fitEnv_runs {ok fr : Bool} {Mem : OCState → Prop} (hT : ok = true → GoodTorch T) (hfr : fr = true → FrozenLam T ∧ (args M0).rho = .num 0)
    {g g' : G} (hD : dualize ext (args M0) g = .ok (D, g')) (ha : ArgsFit args M0 m k mc)
    (hcost : (args M0).xi_labels = none → D.cost.kind = .normCost) (hrho : ∀ r, (args M0).rho = .num r → 0 ≤ r) {post : Bool}
    {Z : Tensor ℝ × Option (Tensor ℝ)} {n : ℕ} (hZ : Z.1.shape = [n, m, d]) (hZs : Z.2.isSome = (args M0).xi_labels.isSome)
    (hZl : OptShape Z.2 [n, m, k]) :
    EnvRuns ok (FitMem (O := O) fr Mem M0 D post Z) (FitGrads ok (args M0).rho) (FitTape (args M0).rho) (FitNan (args M0).rho D.impSamp)
      (FitVal ext args D (args M0).xi (args M0).xi_labels post Z) D.impSamp
      (fitEnv ext T args D (args M0).xi (args M0).xi_labels post cfg mi) := by
  have hDr : D.rho = (args M0).rho := by
    obtain ⟨parsed, obj, c, s, -, -, -, -, rfl⟩ := dualize_ok hD
    rfl
  have hDs : D.sampler.isSome = true := by
    obtain ⟨parsed, obj, c, s, -, -, -, -, rfl⟩ := dualize_ok hD
    rfl
  have hfit : ∀ (b : Box d G O), FitInv M0 D post Z b → ∀ erm imp, (imp = true → D.impSamp = true) →
      LossFits (b.dual args D erm imp) m d k (args M0).xi_labels.isSome :=
    fun b hb erm imp hi => lossFits_of hD ha hcost hb.1 hb.2.1 erm imp hi
  have hput : ∀ (b : Box d G O) v, FitMem fr Mem M0 D post Z b → (fr = true → v.lgrad = none) → FitMem fr Mem M0 D post Z (b.put v) :=
    fun b v h hv => ⟨⟨sameShape_trans h.1.1 (withParams_same _ _), h.1.2⟩, h.2.1, hv⟩
  have ge : ok = true ∨ ok = false := by cases ok <;> simp
  have fe : fr = true ∨ fr = false := by cases fr <;> simp
  refine ⟨fun w h => ⟨h.1, h.2.1, fun _ => rfl⟩, fun erm imp tr w hi h => ?_, fun e w h hB => ?_, fun w h => ?_, fun e w h hK => ?_,
    fun _ w h => ⟨h, fun _ _ _ h => h⟩, fun w h => ?_, fun f hf w h => ?_⟩
  · have hl := hfit w h.1 erm imp hi
    have hr : ∀ r, (w.dual args D erm imp).rho = .num r → 0 ≤ r := fun r hr => hrho r (hDr ▸ hr)
    cases post with
    | true =>
      have hst : Steady ext (w.dual args D erm imp) (args M0).xi (args M0).xi_labels := fun s hs => dualize_steady hD s (h.1.2.1.symm.trans hs)
      obtain ⟨v, g1, x, h1, h2⟩ := postForward_one ext hl hr ha.data rfl ha.labels (by show w.sampler.isSome = true; rw [h.1.2.1]; exact hDs)
        ((w.dual args D erm imp).seeded ext w.gen)
      have e : (fitEnv ext T args D (args M0).xi (args M0).xi_labels true cfg mi).forward erm imp tr w =
          (v.item, { w with sampler := w.sampler, gen := g1, tape := some ⟨w.dual args D erm imp, (w.dual args D erm imp).seeded ext w.gen, none⟩ }) := by
        simp only [fitEnv, if_true, postForward_steady hst, h1]
        rfl
      rw [e]
      exact Or.inl ⟨x, h2, h, (fun hh => by cases hh), ⟨_, rfl, hDr⟩, hDr ▸ postForward_nan hi h1 h2 erm⟩
    | false =>
      obtain ⟨v, x, h1, h2⟩ := computeDual_one ext hl hr ha.data rfl ha.labels hZ hZs hZl
      have e : (fitEnv ext T args D (args M0).xi (args M0).xi_labels false cfg mi).forward erm imp tr w =
          (v.item, { w with cache := some (Z.1, Z.2), tape := some ⟨w.dual args D erm imp, w.gen, some (Z.1, Z.2)⟩ }) := by
        simp only [fitEnv, Bool.false_eq_true, if_false, h.1.2.2 rfl, preForward, h1]
      rw [e]
      exact Or.inl ⟨x, h2, h, (fun _ => ⟨v, h1, h2⟩), ⟨_, rfl, hDr⟩, hDr ▸ computeDual_nan hi h1 h2 erm⟩
  · obtain ⟨t, ht, htr⟩ := hB
    simp only [fitEnv, ht]
    refine Or.inl ⟨_, rfl, ⟨h.1, h.2.1, fun hf => ?_⟩, fun hk => ⟨fun hnan => ?_, fun r hr hpos => ?_⟩, fun _ _ _ h => h⟩
    · show addGrad1 w.lgrad (T.backward t).2 = none
      rw [h.2.2 hf, (hfr hf).1.backward t (by rw [htr]; exact (hfr hf).2)]
      rfl
    · obtain ⟨q, hq⟩ := Option.isSome_iff_exists.1 ((hT hk).backward t (by rw [htr]; exact hnan))
      show (addGrad w.pgrad (T.backward t).1).isSome = true
      rw [hq]
      cases w.pgrad <;> rfl
    · obtain ⟨q, hq⟩ := Option.isSome_iff_exists.1 ((hT hk).backwardLam t r (by rw [htr]; exact hr) hpos)
      show (addGrad1 w.lgrad (T.backward t).2).isSome = true
      rw [hq]
      cases w.lgrad <;> rfl
  · rcases fe with hf | hf
    · exact lift_holds2 (fun b v hb hv => hput b v hb fun _ => hv) (fun b hb => hb.2.2 hf) (fun hk => (hT hk).prog _) ((hfr hf).1.prog _)
    · exact lift_holds (fun b v hb => hput b v hb fun h => by rw [hf] at h; cases h) fun hk => (hT hk).prog _
  · simp only [fitEnv]
    rcases ge with hk | hk
    · obtain ⟨v', h1, h2, h3⟩ := (hT hk).step w.view
      rw [h1]
      exact Or.inl ⟨_, rfl, hput _ _ h fun hf => (hfr hf).1.step _ _ h1 (h.2.2 hf), fun _ =>
        ⟨fun hn => h2 ((hK hk).1 hn), fun r hr hp => h3 ((hK hk).2 r hr hp)⟩⟩
    · split
      · exact Or.inr ⟨hk, _, rfl⟩
      · next v' h1 =>
        exact Or.inl ⟨_, rfl, hput _ _ h fun hf => (hfr hf).1.step _ _ h1 (h.2.2 hf), fun hk' => by rw [hk] at hk'; cases hk'⟩
  · obtain ⟨D', hD'⟩ := initialGuess_ok (hfit w h.1 false false (by simp)) ha.data rfl ha.labels
    simp only [fitEnv, hD']
    exact Or.inl ⟨_, rfl, h⟩
  · simp only [fitEnv, Option.map_eq_some_iff] at hf
    obtain ⟨f', hf', rfl⟩ := hf
    dsimp only
    rcases ge with hk | hk
    · obtain ⟨v', h1⟩ := (hT hk).reset f' hf' w.view
      rw [h1]
      exact Or.inl ⟨_, rfl, hput _ _ h fun hf => (hfr hf).1.reset _ hf' _ _ h1 (h.2.2 hf)⟩
    · split
      · exact Or.inr ⟨hk, _, rfl⟩
      · next v' h1 => exact Or.inl ⟨_, rfl, hput _ _ h fun hf => (hfr hf).1.reset _ hf' _ _ h1 (h.2.2 hf)⟩

/-- all operations; if `ok`, the condition must be ready for this problem -/
theorem fitEnv_holds {ok : Bool} (hT : ok = true → GoodTorch T) {g g' : G} (hD : dualize ext (args M0) g = .ok (D, g'))
    (ha : ArgsFit args M0 m k mc) (hcost : (args M0).xi_labels = none → D.cost.kind = .normCost)
    (hrho : ∀ r, (args M0).rho = .num r → 0 ≤ r) {post : Bool} {Z : Tensor ℝ × Option (Tensor ℝ)} {n : ℕ}
    (hZ : Z.1.shape = [n, m, d]) (hZs : Z.2.isSome = (args M0).xi_labels.isSome) (hZl : OptShape Z.2 [n, m, k]) :
    EnvHolds ok (FitMem (O := O) false (fun oc => ok = true → CondReady cfg oc M0.theta.length (args M0).rho) M0 D post Z)
      (FitGrads ok (args M0).rho) (FitTape (args M0).rho) (FitNan (args M0).rho D.impSamp)
      (FitVal ext args D (args M0).xi (args M0).xi_labels post Z) D.impSamp
      (fitEnv ext T args D (args M0).xi (args M0).xi_labels post cfg mi) := by
  refine ⟨fitEnv_runs hT (by simp) hD ha hcost hrho hZ hZs hZl, fun j w h hv hK => ?_⟩
  have ge : ok = true ∨ ok = false := by cases ok <;> simp
  simp only [fitEnv] at hK ⊢
  rcases ge with hk | hk
  · obtain ⟨v, hU, hnan⟩ := hv
    have hr : (args M0).rho ≠ .nan := fun hr => by rw [hU.1 hr] at hnan; cases hnan
    obtain ⟨⟨r, h1⟩, h2⟩ := ocCall_ok (h.2.1 hk) (v := ⟨0, fun _ => w.lam, w.lgrad, [(w.mod.theta, w.pgrad)], mi⟩) rfl
      (theta_length h.1.1).symm (fun hm => (hK (by simp [hm]) hk).1 hr) (fun hw => by
        have hm := hw.1
        cases hrr : (args M0).rho with
        | nan => exact absurd hrr hr
        | num r =>
          refine (hK (by simp [hm]) hk).2 r hrr (lt_of_le_of_ne (hrho r hrr) fun h0 => ?_)
          exact (h.2.1 hk).lam hw (by rw [hrr, ← h0])) j
    exact Or.inl ⟨r, h1, ⟨h.1, fun _ => h2, h.2.2⟩, fun _ _ _ h => h⟩
  · cases hv : (ocCall cfg w.oc ⟨0, fun _ => w.lam, w.lgrad, [(w.mod.theta, w.pgrad)], mi⟩ j).1 with
    | error e => exact Or.inr ⟨hk, e, rfl⟩
    | ok x => exact Or.inl ⟨x, rfl, ⟨h.1, fun h => (by rw [hk] at h; cases h), h.2.2⟩, fun _ _ _ h => h⟩

theorem fitMem_loose {Mem : OCState → Prop} (hM : ∀ oc, Mem oc) (M0 : Module d) (D : DualLoss) (post : Bool) (Z : Tensor ℝ × Option (Tensor ℝ)) :
    FitMem (G := G) (O := O) false Mem M0 D post Z = FitInv M0 D post Z := by
  funext b
  simp [FitMem, hM]

/-- what is kept whatever is raised -/
theorem fitEnv_loose {g g' : G} (hD : dualize ext (args M0) g = .ok (D, g'))
    (ha : ArgsFit args M0 m k mc) (hcost : (args M0).xi_labels = none → D.cost.kind = .normCost)
    (hrho : ∀ r, (args M0).rho = .num r → 0 ≤ r) {post : Bool} {Z : Tensor ℝ × Option (Tensor ℝ)} {n : ℕ}
    (hZ : Z.1.shape = [n, m, d]) (hZs : Z.2.isSome = (args M0).xi_labels.isSome) (hZl : OptShape Z.2 [n, m, k]) :
    EnvHolds false (FitInv (O := O) M0 D post Z)
      (FitGrads false (args M0).rho) (FitTape (args M0).rho) (FitNan (args M0).rho D.impSamp)
      (FitVal ext args D (args M0).xi (args M0).xi_labels post Z) D.impSamp
      (fitEnv ext T args D (args M0).xi (args M0).xi_labels post cfg mi) := by
  have := fitEnv_holds (ok := false) (T := T) (cfg := cfg) (mi := mi) (by simp) hD ha hcost hrho (post := post) hZ hZs hZl
  rwa [fitMem_loose (by simp)] at this

end fits

end Skwdro
