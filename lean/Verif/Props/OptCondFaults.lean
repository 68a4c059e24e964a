import Verif.Props.OptCond

/-!
# C45 (spellings), C118: conditions that cannot be evaluated
-/

namespace Skwdro
open Spec

section C45

/-- **C45** (spellings) Every documented spelling of a setting gives the condition of its first spelling: same answers and same
memory at every call. -/
theorem C45_spellings (cfg : OCConfig) (s : OCState) (v : OCView) (it : ℤ) :
    (∀ n ∈ bothNames, ocCall { cfg with monitoring := n.toList } s v it = ocCall (cfg.watching "both") s v it) ∧
    (∀ n ∈ oneNames, ocCall { cfg with monitoring := n.toList } s v it = ocCall (cfg.watching "one") s v it) ∧
    (∀ n ∈ thetaNames, ocCall { cfg with monitoring := n.toList } s v it = ocCall (cfg.watching "theta") s v it) ∧
    (∀ n ∈ lambdaNames, ocCall { cfg with monitoring := n.toList } s v it = ocCall (cfg.watching "lambda") s v it) := by
  have h : ∀ (a b : PyStr), (a ∈ L_AND_T ↔ b ∈ L_AND_T) → (a ∈ L_OR_T ↔ b ∈ L_OR_T) → (a ∈ JUST_L ↔ b ∈ JUST_L) →
      (a ∈ JUST_T ↔ b ∈ JUST_T) → ocCall { cfg with monitoring := a } s v it = ocCall { cfg with monitoring := b } s v it := by
    intro a b h1 h2 h3 h4
    have : checkAllParams { cfg with monitoring := a } s v = checkAllParams { cfg with monitoring := b } s v := by
      unfold checkAllParams
      simp only [h1, h2, h3, h4]
      rfl
    unfold ocCall
    rw [this]
  refine ⟨fun n hn => h _ _ ?_ ?_ ?_ ?_, fun n hn => h _ _ ?_ ?_ ?_ ?_, fun n hn => h _ _ ?_ ?_ ?_ ?_, fun n hn => h _ _ ?_ ?_ ?_ ?_⟩ <;>
    revert n <;> decide

end C45

section C118

theorem names_and {m : PyStr} : (∃ n ∈ bothNames, m = n.toList) ↔ m ∈ L_AND_T := by simp [bothNames, L_AND_T]
theorem names_or {m : PyStr} : (∃ n ∈ oneNames, m = n.toList) ↔ m ∈ L_OR_T := by simp [oneNames, L_OR_T]
theorem names_t {m : PyStr} : (∃ n ∈ thetaNames, m = n.toList) ↔ m ∈ JUST_T := by simp [thetaNames, JUST_T]
theorem names_l {m : PyStr} : (∃ n ∈ lambdaNames, m = n.toList) ↔ m ∈ JUST_L := by simp [lambdaNames, JUST_L]

theorem watchesTheta_iff {cfg : OCConfig} : WatchesTheta cfg ↔
    0 < cfg.tolTheta ∧ (cfg.monitoring ∈ L_AND_T ∨ cfg.monitoring ∈ L_OR_T ∨ cfg.monitoring ∈ JUST_T) := by
  simp only [WatchesTheta, ← names_and, ← names_or, ← names_t, List.mem_append, or_and_right, exists_or, or_assoc]

theorem watchesLambda_iff {cfg : OCConfig} : WatchesLambda cfg ↔
    0 < cfg.tolLambda ∧ (cfg.monitoring ∈ L_AND_T ∨ cfg.monitoring ∈ L_OR_T ∨ cfg.monitoring ∈ JUST_L) := by
  simp only [WatchesLambda, ← names_and, ← names_or, ← names_l, List.mem_append, or_and_right, exists_or, or_assoc]

theorem isSetting_iff {m : PyStr} : IsSetting m ↔ m ∈ L_AND_T ∨ m ∈ L_OR_T ∨ m ∈ JUST_T ∨ m ∈ JUST_L := by
  simp only [IsSetting, ← names_and, ← names_or, ← names_t, ← names_l, List.mem_append, or_and_right, exists_or, or_assoc]

theorem call_error {cfg : OCConfig} {s s' : OCState} {v : OCView} {e : PyErr} (h : checkAllParams cfg s v = (.error e, s')) (it : ℤ) :
    ocCall cfg s v it = (.error e, s') := by
  unfold ocCall; rw [h]

/-- errors of the check of lambda come out with what they left in memory -/
theorem all_lam_error {cfg : OCConfig} {s : OCState} {v : OCView} {e : PyErr} {l : LMem} (hw : WatchesLambda cfg)
    (h : checkL cfg s.l v = (.error e, l)) : checkAllParams cfg s v = (.error e, { s with l := l }) := by
  obtain ⟨-, hm | hm | hm⟩ := watchesLambda_iff.mp hw
  · simp [all_and hm, checkBoth, h]
  · simp [all_or hm, checkBoth, h]
  · simp [all_l hm, h]

/-- an error of the check of theta makes the call fail, with this error unless the check of lambda fails first -/
theorem all_theta_error {cfg : OCConfig} {s : OCState} {v : OCView} {e : PyErr} {t : TMem} (hw : WatchesTheta cfg)
    (h : checkT cfg s.t v = (.error e, t)) : ∃ e' s', checkAllParams cfg s v = (.error e', s') ∧
      ((e' = e ∧ s'.t = t) ∨ ((checkL cfg s.l v).1 = .error e' ∧ s'.t = s.t)) ∧ (cfg.monitoring ∈ JUST_T → e' = e ∧ s' = { s with t := t }) := by
  have key : ∀ f, (∃ e' s', checkBoth f cfg s v = (.error e', s') ∧ ((e' = e ∧ s'.t = t) ∨ ((checkL cfg s.l v).1 = .error e' ∧ s'.t = s.t))) := by
    intro f
    rcases hl : checkL cfg s.l v with ⟨r, l⟩
    cases r with
    | error e' => exact ⟨e', { s with l := l }, by simp [checkBoth, hl], .inr ⟨rfl, rfl⟩⟩
    | ok a => exact ⟨e, ⟨l, t⟩, by simp [checkBoth, hl, h], .inl ⟨rfl, rfl⟩⟩
  obtain ⟨-, hm | hm | hm⟩ := watchesTheta_iff.mp hw
  · obtain ⟨e', s', h1, h2⟩ := key (fun a b => a && b)
    exact ⟨e', s', by rw [all_and hm, h1], h2, fun hj => absurd hm (just_t_only hj).1⟩
  · obtain ⟨e', s', h1, h2⟩ := key (fun a b => a || b)
    exact ⟨e', s', by rw [all_or hm, h1], h2, fun hj => absurd hm (just_t_only hj).2.1⟩
  · exact ⟨e, { s with t := t }, by rw [all_t hm, h], .inl ⟨rfl, rfl⟩, fun _ => ⟨rfl, rfl⟩⟩

theorem checkL_error {cfg : OCConfig} {s : LMem} {v : OCView} {e : PyErr} (hg : cfg.metric = "grad".toList)
    (h : (checkL cfg s v).1 = .error e) : e = .valueError := by
  unfold checkL at h
  by_cases ht : cfg.tolLambda ≤ 0
  · rw [if_pos ht] at h; cases h
  rw [if_neg ht, if_pos hg] at h
  unfold lamGrad at h
  cases hv : v.lamGrad with
  | none => simp only [hv] at h; exact (Except.error.inj h).symm
  | some g =>
    simp only [hv] at h
    split at h
    · cases h
    · simp only [checkMetric] at h
      split at h
      · cases h
      · split at h
        · cases h
        · exact (Except.error.inj h).symm

/-- **C118** (missing gradient of a parameter) With the gradient metric, if one of the watched parameters has no gradient the call
raises `ValueError`, whatever the memory and the iteration; the memory about the parameters is unchanged. -/
theorem C118_missing_gradient {cfg : OCConfig} (hw : WatchesTheta cfg) (hg : cfg.metric = "grad".toList) {v : OCView}
    {p : List ℝ} (hp : (p, none) ∈ v.params) (s : OCState) (it : ℤ) :
    (ocCall cfg s v it).1 = .error .valueError ∧ (ocCall cfg s v it).2.t = s.t := by
  have hf : flatGrad v = .error .valueError := by
    unfold flatGrad
    rw [if_neg]
    simp only [List.all_eq_true, not_forall]
    exact ⟨_, hp, by simp⟩
  have hc : checkT cfg s.t v = (.error .valueError, s.t) := by
    simp only [checkT, if_neg hw.1.not_ge, if_pos hg, hf]
  obtain ⟨e', s', h1, h2, -⟩ := all_theta_error hw hc
  rw [call_error h1]
  rcases h2 with ⟨rfl, h2⟩ | ⟨h2, h3⟩
  · exact ⟨rfl, h2⟩
  · exact ⟨by rw [checkL_error hg h2], h3⟩

/-- **C118** (missing gradient of the multiplier) The same for the multiplier, and the whole memory is unchanged. -/
theorem C118_missing_multiplier_gradient {cfg : OCConfig} (hw : WatchesLambda cfg) (hg : cfg.metric = "grad".toList) {v : OCView}
    (hp : v.lamGrad = none) (s : OCState) (it : ℤ) : ocCall cfg s v it = (.error .valueError, s) := by
  refine call_error (all_lam_error hw ?_) it
  simp only [checkL, if_neg hw.1.not_ge, if_pos hg, lamGrad, hp]

/-- **C118** (model without parameters) Watching the parameters of a model that has none raises, at every call and with both metrics:
a `RuntimeError` when only the parameters are watched. -/
theorem C118_no_parameters {cfg : OCConfig} (hw : WatchesTheta cfg) (hg : IsMetric cfg.metric) {v : OCView} (hp : v.params = [])
    (s : OCState) (it : ℤ) :
    (∃ e, (ocCall cfg s v it).1 = .error e) ∧ (ocCall cfg s v it).2.t = s.t ∧
    ((∃ n ∈ thetaNames, cfg.monitoring = n.toList) → ocCall cfg s v it = (.error .runtimeError, s)) := by
  have hc : checkT cfg s.t v = (.error .runtimeError, s.t) := by
    rcases hg with hg | hg
    · simp only [checkT, if_neg hw.1.not_ge, if_pos hg, flatGrad, hp]
      rfl
    · simp only [checkT, if_neg hw.1.not_ge, hg, if_neg ne_grad_param, flatParam, hp]
      rfl
  obtain ⟨e', s', h1, h2, h3⟩ := all_theta_error hw hc
  rw [call_error h1]
  refine ⟨⟨_, rfl⟩, ?_, fun hj => ?_⟩
  · rcases h2 with h2 | h2 <;> exact h2.2
  · obtain ⟨rfl, rfl⟩ := h3 (names_t.mp hj)
    rfl

/-- **C118** (unknown metric) A metric that is neither `grad` nor `param` raises `ValueError` at every call, the memory unchanged, as
soon as something is watched; otherwise the metric is not read. -/
theorem C118_unknown_metric {cfg : OCConfig} (hg : ¬ IsMetric cfg.metric) (hs : IsSetting cfg.monitoring) (s : OCState) (v : OCView) (it : ℤ) :
    (WatchesTheta cfg ∨ WatchesLambda cfg → ocCall cfg s v it = (.error .valueError, s)) ∧
    (¬ (WatchesTheta cfg ∨ WatchesLambda cfg) → ocCall cfg s v it = (.ok (decide (0 < v.maxIter ∧ v.maxIter ≤ it)), s)) := by
  simp only [IsMetric, not_or] at hg
  have hl : checkL cfg s.l v = (if cfg.tolLambda ≤ 0 then .ok false else .error .valueError, s.l) := by
    by_cases h : cfg.tolLambda ≤ 0
    · simp only [checkL, if_pos h]
    · simp only [checkL, if_neg h, if_neg hg.1, if_neg hg.2]
  have ht : checkT cfg s.t v = (if cfg.tolTheta ≤ 0 then .ok false else .error .valueError, s.t) := by
    by_cases h : cfg.tolTheta ≤ 0
    · simp only [checkT, if_pos h]
    · simp only [checkT, if_neg h, if_neg hg.1, if_neg hg.2]
  have hi : ∀ m it : ℤ, checkIter m it = decide (0 < m ∧ m ≤ it) := by
    intro m it
    unfold checkIter
    by_cases h : m ≤ 0
    · simp [h, not_lt.mpr h]
    · simp [h, not_le.mp h]
  rw [watchesTheta_iff, watchesLambda_iff]
  have key : ∀ f : Bool → Bool → Bool, f false false = false → checkBoth f cfg s v =
      (if cfg.tolLambda ≤ 0 ∧ cfg.tolTheta ≤ 0 then .ok false else .error .valueError, s) := by
    intro f hf
    by_cases h1 : cfg.tolLambda ≤ 0 <;> by_cases h2 : cfg.tolTheta ≤ 0 <;> simp [checkBoth, hl, ht, h1, h2, hf]
  unfold ocCall
  rcases isSetting_iff.mp hs with hm | hm | hm | hm
  · rw [all_and hm, key _ rfl]
    by_cases h1 : cfg.tolLambda ≤ 0 <;> by_cases h2 : cfg.tolTheta ≤ 0 <;> simp [h1, h2, hm, hi, not_lt.mpr, not_le.mp]
  · rw [all_or hm, key _ rfl]
    by_cases h1 : cfg.tolLambda ≤ 0 <;> by_cases h2 : cfg.tolTheta ≤ 0 <;> simp [h1, h2, hm, hi, not_lt.mpr, not_le.mp]
  · have n1 := just_t_only hm
    rw [all_t hm, ht]
    by_cases h2 : cfg.tolTheta ≤ 0 <;> simp [h2, hm, hi, n1, not_lt.mpr, not_le.mp]
  · have n1 := just_l_only hm
    have n2 : cfg.monitoring ∉ JUST_T := fun h => (just_t_only h).2.2 hm
    rw [all_l hm, hl]
    by_cases h2 : cfg.tolLambda ≤ 0 <;> simp [h2, hm, hi, n1, n2, not_lt.mpr, not_le.mp]

/-- **C118** (unknown mode) A mode that is neither `rel` nor `abs` never makes a call stop before the budget, whatever the memory. -/
theorem C118_unknown_mode {cfg : OCConfig} (hmode : ¬ IsMode cfg.mode) {v : ℕ → OCView} (hv : InLoop v) (s : OCState) (k : ℕ) :
    ocResult cfg s v k ≠ .ok true := by
  simp only [IsMode, not_or] at hmode
  have hm : ∀ a b c, checkMetric cfg a b c = .error .valueError := by
    intro a b c
    simp only [checkMetric, if_neg hmode.1, if_neg hmode.2]
  rw [result_eq hv]
  apply all_ne_true
  · unfold checkL
    repeat' split
    all_goals simp [hm]
  · unfold checkT
    repeat' split
    all_goals simp [hm]

/-- **C118** (unknown mode) Watching the gradient of the parameters only, the mode is read from the second call on: the first call
answers `false` and every later one raises `ValueError`. -/
theorem C118_unknown_mode_gradient {cfg : OCConfig} (hmode : ¬ IsMode cfg.mode) (hg : cfg.metric = "grad".toList)
    (hs : ∃ n ∈ thetaNames, cfg.monitoring = n.toList) (ht : 0 < cfg.tolTheta) {v : ℕ → OCView} (hv : InLoop v) {G : ℕ → List ℝ}
    (hG : ∀ k, SeesGrad (v k) (G k)) (k : ℕ) :
    ocResult cfg freshOC v k = if k = 0 then .ok false else .error .valueError := by
  have hm := names_t.mp hs
  simp only [IsMode, not_or] at hmode
  rw [result_eq hv, all_t hm]
  cases k with
  | zero => simp [ocState, freshOC, checkT, ht.not_ge, hg, flatGrad_sees (hG 0)]
  | succ k =>
    simp only [checkT, if_neg ht.not_ge, hg, if_true, flatGrad_sees (hG (k + 1)), grad_state hm hg ht hG k]
    simp only [checkMetric, if_neg hmode.1, if_neg hmode.2, if_neg (Nat.succ_ne_zero k)]

/-- **C118** (otherwise it answers) With a documented setting, mode and metric, on a fresh condition, if what is watched can be measured
at every call (gradients populated, a constant number of parameters), every call answers. -/
theorem C118_answers {cfg : OCConfig} (hs : IsSetting cfg.monitoring) (hmode : IsMode cfg.mode) (hmet : IsMetric cfg.metric)
    {v : ℕ → OCView} (hv : InLoop v) {n : ℕ} (hM : ∀ k, Measurable cfg n (v k)) {r : ℕ} (hr : ∀ k, (v k).lamRef = r) (k : ℕ) :
    ∃ b, ocResult cfg freshOC v k = .ok b := by
  have hl : (cfg.monitoring ∈ L_AND_T ∨ cfg.monitoring ∈ L_OR_T ∨ cfg.monitoring ∈ JUST_L) →
      ∀ k, ∃ b, ocResult (cfg.watching "lambda") freshOC v k = .ok b := by
    intro hm k
    by_cases ht : cfg.tolLambda ≤ 0
    · refine ⟨false, ?_⟩
      rw [result_eq hv, all_l watch_l, checkL_tol (by exact ht)]
    have ht := not_le.mp ht
    rcases hmet with hg | hg
    · have h0 : ∀ k, ∃ g, (v k).lamGrad = some g := fun k =>
        Option.ne_none_iff_exists'.mp ((hM k).2 (watchesLambda_iff.mpr ⟨ht, hm⟩) hg)
      choose g hg' using h0
      obtain ⟨b, hb, -⟩ := C46_gradient_partial (cfg := cfg.watching "lambda") hv watch_l hmode hg ht hg' k
      exact ⟨b, hb⟩
    · exact ⟨_, lam_param_result (cfg := cfg.watching "lambda") hv watch_l hmode hg ht hr k⟩
  have ht : (cfg.monitoring ∈ L_AND_T ∨ cfg.monitoring ∈ L_OR_T ∨ cfg.monitoring ∈ JUST_T) →
      ∀ k, ∃ b, ocResult (cfg.watching "theta") freshOC v k = .ok b := by
    intro hm k
    by_cases ht : cfg.tolTheta ≤ 0
    · refine ⟨false, ?_⟩
      rw [result_eq hv, all_t watch_t, checkT_tol (by exact ht)]
    have ht := not_le.mp ht
    have hw := watchesTheta_iff.mpr ⟨ht, hm⟩
    rcases hmet with hg | hg
    · choose G hG using fun k => ((hM k).1 hw).1 hg
      obtain ⟨b, hb, -⟩ := C44_gradient (cfg := cfg.watching "theta") hv watch_t hmode hg ht hG k
      exact ⟨b, hb⟩
    · choose T hT using fun k => ((hM k).1 hw).2 hg
      obtain ⟨b, hb, -⟩ := C44_parameters (cfg := cfg.watching "theta") hv watch_t hmode hg ht (fun k => (hT k).1) (fun k => (hT k).2) k
      exact ⟨b, hb⟩
  have hw : ∀ m : String, (cfg.monitoring = m.toList) → cfg = cfg.watching m := by
    intro m h; cases cfg; simp only at h; subst h; rfl
  rcases isSetting_iff.mp hs with hm | hm | hm | hm
  · choose la hla using hl (.inl hm)
    choose ta hta using ht (.inl hm)
    exact ⟨_, C45_both hm hv freshOC k la ta (fun j _ => hla j) (fun j _ => hta j)⟩
  · choose la hla using hl (.inr (.inl hm))
    choose ta hta using ht (.inr (.inl hm))
    exact ⟨_, C45_one hm hv freshOC k la ta (fun j _ => hla j) (fun j _ => hta j)⟩
  · have hm' := ht (.inr (.inr hm)) k
    have e : ∀ k, ocResult cfg freshOC v k = ocResult (cfg.watching "theta") freshOC v k := by
      have hs : ∀ k, ocState cfg freshOC v k = ocState (cfg.watching "theta") freshOC v k := by
        intro k
        induction k with
        | zero => rfl
        | succ k ih => rw [state_succ, state_succ, all_t hm, all_t watch_t, checkT_watch, ih]
      intro k
      rw [result_eq hv, result_eq hv, all_t hm, all_t watch_t, checkT_watch, hs]
    rwa [e]
  · have hm' := hl (.inr (.inr hm)) k
    have e : ∀ k, ocResult cfg freshOC v k = ocResult (cfg.watching "lambda") freshOC v k := by
      have hs : ∀ k, ocState cfg freshOC v k = ocState (cfg.watching "lambda") freshOC v k := by
        intro k
        induction k with
        | zero => rfl
        | succ k ih => rw [state_succ, state_succ, all_l hm, all_l watch_l, checkL_watch, ih]
      intro k
      rw [result_eq hv, result_eq hv, all_l hm, all_l watch_l, checkL_watch, hs]
    rwa [e]

end C118

/-! ## Concrete cases -/

/-- the default condition, and a model whose second parameter has no gradient -/
example (s : OCState) (it : ℤ) := C118_missing_gradient (cfg := ⟨.fin 2, 1, 1, "theta".toList, "rel".toList, "grad".toList⟩)
  ⟨one_pos, "theta", by decide, rfl⟩ rfl (v := ⟨0, fun _ => 0, none, [([1], some [2]), ([3, 4], none)], 5⟩) (p := [3, 4]) (by simp) s it
/-- both variables, frozen multiplier -/
example (s : OCState) (it : ℤ) := C118_missing_multiplier_gradient (cfg := ⟨.fin 2, 1, 1, "l&t".toList, "rel".toList, "grad".toList⟩)
  ⟨one_pos, "l&t", by decide, rfl⟩ rfl (v := ⟨0, fun _ => 0, none, [([1], some [2])], 5⟩) rfl s it
example (s : OCState) (it : ℤ) := (C118_no_parameters (cfg := ⟨.fin 2, 1, 1, "t".toList, "rel".toList, "param".toList⟩)
  ⟨one_pos, "t", by decide, rfl⟩ (.inr rfl) (v := ⟨0, fun _ => 0, none, [], 5⟩) rfl s it).2.2 ⟨"t", by decide, rfl⟩
example (s : OCState) (v : OCView) (it : ℤ) := (C118_unknown_metric (cfg := ⟨.fin 2, 1, 0, "one".toList, "rel".toList, "gradient".toList⟩)
  (by unfold IsMetric; decide) ⟨"one", by decide, rfl⟩ s v it).1 (.inl ⟨one_pos, "one", by decide, rfl⟩)
example (s : OCState) (k : ℕ) := C118_unknown_mode (cfg := ⟨.fin 2, 1, 0, "one".toList, "relative".toList, "grad".toList⟩)
  (by unfold IsMode; decide) (v := fun _ => ⟨0, fun _ => 0, none, [], 0⟩) (fun _ => .inl le_rfl) s k
example (k : ℕ) := C118_unknown_mode_gradient (cfg := ⟨.fin 2, 1, 0, "t".toList, "relative".toList, "grad".toList⟩)
  (by unfold IsMode; decide) rfl ⟨"t", by decide, rfl⟩ one_pos (v := fun _ => ⟨0, fun _ => 0, none, [([1], some [2])], 0⟩) (fun _ => .inl le_rfl)
  (G := fun _ => [2]) (fun _ => ⟨by simp, [[2]], rfl, rfl⟩) k
/-- both variables watched by their motion -/
example (k : ℕ) := C118_answers (cfg := ⟨.fin 2, 1, 1, "t&l".toList, "rel".toList, "param".toList⟩) ⟨"t&l", by decide, rfl⟩ (.inl rfl) (.inr rfl)
  (v := fun k => ⟨0, fun _ => k, none, [([k], some [2])], 0⟩) (fun _ => .inl le_rfl) (n := 1)
  (fun k => ⟨fun _ => ⟨fun h => absurd h (by decide), fun _ => ⟨[(k : ℝ)], ⟨by simp, rfl⟩, rfl⟩⟩, fun _ h => absurd h (by decide)⟩) (r := 0)
  (fun _ => rfl) k

section C107

theorem vsub_one {a : List ℝ} (y : ℝ) : vsub a [y] = .ok (a.map (· - y)) := by
  unfold vsub
  split
  · next h =>
    match a, h with
    | [x], _ => rfl
  · rfl

theorem vsub_from_one (x : ℝ) {b : List ℝ} : vsub [x] b = .ok (b.map (x - ·)) := by
  unfold vsub
  split
  · next h =>
    match b, h with
    | [y], _ => rfl
  · match b with
    | [] => rfl
    | [y] => rfl
    | _ :: _ :: _ => rfl

/-- **C107** (violated) A condition on the motion of the parameters that was last used on a model with a single parameter does not raise on a
model with any number of parameters: all of them are compared with that single number.  If they are all equal to it the call reports
convergence, at the first iteration of the new training, whatever the tolerance and the rest of the memory. -/
theorem C107_single_number_false {cfg : OCConfig} (hm : cfg.metric = "param".toList) (hmode : IsMode cfg.mode) (ht : 0 < cfg.tolTheta)
    (hmon : cfg.monitoring ∈ JUST_T) {s : OCState} {t0 : List ℝ} {d1 y : ℝ} (h0 : s.t.t0 = some t0) (h1 : s.t.deltaT1 = some d1)
    (h2 : s.t.tMem = some [y]) {v : OCView} (hv : v.params ≠ []) :
    (∃ b, (ocCall cfg s v 0).1 = .ok b) ∧
    ((cfg.order = .fin 1 ∨ cfg.order = .fin 2) → 0 < d1 → (∀ p ∈ v.params, ∀ x ∈ p.1, x = y) → (ocCall cfg s v 0).1 = .ok true) := by
  have hT : (checkT cfg s.t v).1 = checkMetric cfg (vnorm cfg.order ((v.params.map Prod.fst).flatten.map (· - y))) d1 cfg.tolTheta := by
    unfold checkT
    rw [if_neg (by linarith), if_neg (by rw [hm]; decide), if_pos hm]
    have hp : flatParam v = .ok (v.params.map Prod.fst).flatten := by simp [flatParam, hv]
    simp only [hp, h0, h1, h2, vsub_one]
  have hA : ∀ r, (checkT cfg s.t v).1 = .ok r → (ocCall cfg s v 0).1 = .ok (checkIter v.maxIter 0 || r) := by
    intro r hr
    unfold ocCall
    rw [all_t hmon]
    rcases hx : checkT cfg s.t v with ⟨x, m⟩
    rw [hx] at hr
    simp only at hr
    subst hr
    rfl
  have hM : ∀ new, ∃ b, checkMetric cfg new d1 cfg.tolTheta = .ok b := by
    intro new
    unfold checkMetric
    rcases hmode with h | h
    · rw [if_pos h]; exact ⟨_, rfl⟩
    · rw [if_neg (by rw [h]; decide), if_pos h]; exact ⟨_, rfl⟩
  refine ⟨?_, fun ho hd hy => ?_⟩
  · obtain ⟨b, hb⟩ := hM (vnorm cfg.order ((v.params.map Prod.fst).flatten.map (· - y)))
    exact ⟨_, hA b (hT.trans hb)⟩
  · have hz : ∀ l : List ℝ, (∀ x ∈ l, x = y) → (l.map (· - y)) = List.replicate l.length 0 := by
      intro l hl
      refine List.eq_replicate_iff.2 ⟨by simp, fun b hb => ?_⟩
      simp only [List.mem_map] at hb
      obtain ⟨x, hx, rfl⟩ := hb
      rw [hl x hx, sub_self]
    have hall : ∀ x ∈ (v.params.map Prod.fst).flatten, x = y := by
      intro x hx
      simp only [List.mem_flatten, List.mem_map] at hx
      obtain ⟨l, ⟨p, hp, rfl⟩, hx⟩ := hx
      exact hy p hp x hx
    have hn : vnorm cfg.order ((v.params.map Prod.fst).flatten.map (· - y)) = 0 := by
      rw [hz _ hall]
      rcases ho with h | h <;> rw [h] <;> simp [vnorm]
    rw [hn] at hT
    have hb : checkMetric cfg 0 d1 cfg.tolTheta = .ok true := by
      unfold checkMetric
      rcases hmode with h | h
      · rw [if_pos h, decide_eq_true (mul_pos ht hd)]
      · rw [if_neg (by rw [h]; decide), if_pos h, decide_eq_true ht]
    rw [hA true (hT.trans hb), Bool.or_true]

/-- non-vacuity: memory of a training of one number that moved from 0 to 1 -/
example : (ocCall ⟨.fin 2, 1 / 2, 1 / 2, "theta".toList, "rel".toList, "param".toList⟩
    ⟨⟨none, none, none, none⟩, ⟨some [0], some [1], some 1, none⟩⟩ ⟨0, fun _ => 0, none, [([1, 1, 1], none)], 10⟩ 0).1 = .ok true := by
  refine (C107_single_number_false (t0 := [0]) (d1 := 1) (y := 1) rfl (.inl rfl) (by norm_num) (by decide) rfl rfl rfl (by simp)).2
    (.inr rfl) one_pos (by simp)

/-- **C107** (violated) The other way round: on a model with a single parameter, whatever the parameters in memory, the call answers,
comparing this parameter with all of those. -/
theorem C107_to_single_number_false {cfg : OCConfig} (hm : cfg.metric = "param".toList) (hmode : IsMode cfg.mode) (ht : 0 < cfg.tolTheta)
    (hmon : cfg.monitoring ∈ JUST_T) {s : OCState} {t0 mem : List ℝ} {d1 : ℝ} (h0 : s.t.t0 = some t0) (h1 : s.t.deltaT1 = some d1)
    (h2 : s.t.tMem = some mem) {v : OCView} {x : ℝ} (hv : (v.params.map Prod.fst).flatten = [x]) (it : ℤ) :
    ∃ b, (ocCall cfg s v it).1 = .ok b := by
  have hp : flatParam v = .ok [x] := by
    unfold flatParam
    rw [if_neg (fun h => by rw [h] at hv; simp at hv), hv]
  have hT : ∃ b, (checkT cfg s.t v).1 = .ok b := by
    unfold checkT
    rw [if_neg (by linarith), if_neg (by rw [hm]; decide), if_pos hm]
    simp only [hp, h0, h1, h2, vsub_from_one, checkMetric]
    rcases hmode with h | h
    · rw [if_pos h]; exact ⟨_, rfl⟩
    · rw [if_neg (by rw [h]; decide), if_pos h]; exact ⟨_, rfl⟩
  obtain ⟨b, hb⟩ := hT
  refine ⟨checkIter v.maxIter it || b, ?_⟩
  unfold ocCall
  rw [all_t hmon]
  rcases hx : checkT cfg s.t v with ⟨y, m⟩
  rw [hx] at hb
  simp only at hb
  subst hb
  rfl

/-- non-vacuity -/
example := C107_to_single_number_false (cfg := ⟨.fin 2, 1 / 2, 1 / 2, "theta".toList, "rel".toList, "param".toList⟩) rfl (.inl rfl)
  (by norm_num) (by decide) (s := ⟨⟨none, none, none, none⟩, ⟨some [0, 1], some [1, 2], some 1, none⟩⟩) rfl rfl rfl
  (v := ⟨0, fun _ => 0, none, [([1], none)], 10⟩) (x := 1) rfl 3

theorem vsub_refused {a b : List ℝ} (h : a.length ≠ b.length) (ha : a.length ≠ 1) (hb : b.length ≠ 1) : vsub a b = .error .runtimeError := by
  unfold vsub
  rw [if_neg h]
  match a, b, ha, hb with
  | _, [y], _, hb => exact absurd rfl hb
  | [x], [], ha, _ => exact absurd rfl ha
  | [x], _ :: _ :: _, ha, _ => exact absurd rfl ha
  | [], [], _, _ => exact absurd rfl h
  | [], _ :: _ :: _, _, _ => rfl
  | _ :: _ :: _, [], _, _ => rfl
  | _ :: _ :: _, _ :: _ :: _, _, _ => rfl

/-- the outcome of a call is that of the check of the parameters, when only these are monitored -/
theorem ocCall_of_checkT {cfg : OCConfig} (hmon : cfg.monitoring ∈ JUST_T) {s : OCState} {v : OCView} {it : ℤ} {r : Except PyErr Bool} {m : TMem}
    (h : checkT cfg s.t v = (r, m)) :
    ocCall cfg s v it = (match r with | .ok b => .ok (checkIter v.maxIter it || b) | .error e => .error e, { s with t := m }) := by
  unfold ocCall
  rw [all_t hmon]
  simp only [h]
  cases r <;> rfl

/-- **C107** (violated) What the `RuntimeError` on a model of another size leaves behind.  If the memory held two iterates, it is the same with the
last iterate replaced by the parameters of the new model, so that the very same call made again does not raise: it reports convergence,
although nothing has been trained.  If it held only the first iterate, that one stays, and every later call on a model of the new size raises
again. -/
theorem C107_after_error_false {cfg : OCConfig} (hm : cfg.metric = "param".toList) (hmode : IsMode cfg.mode) (ht : 0 < cfg.tolTheta)
    (hmon : cfg.monitoring ∈ JUST_T) {s : OCState} {t0 : List ℝ} (h0 : s.t.t0 = some t0) {v : OCView}
    (hv : (v.params.map Prod.fst).flatten.length ≠ 1) (hv0 : v.params ≠ []) (it it' : ℤ) :
    (∀ mem d1, s.t.deltaT1 = some d1 → s.t.tMem = some mem → mem.length ≠ (v.params.map Prod.fst).flatten.length → mem.length ≠ 1 →
      ocCall cfg s v it = (.error .runtimeError, { s with t := { s.t with tMem := some (v.params.map Prod.fst).flatten } }) ∧
      (cfg.order = .fin 1 ∨ cfg.order = .fin 2 → 0 < d1 → (ocCall cfg (ocCall cfg s v it).2 v it').1 = .ok true)) ∧
    (s.t.deltaT1 = none → t0.length ≠ (v.params.map Prod.fst).flatten.length → t0.length ≠ 1 →
      ocCall cfg s v it = (.error .runtimeError, { s with t := { s.t with tMem := some (v.params.map Prod.fst).flatten } }) ∧
      ∀ v' : OCView, v'.params ≠ [] → (v'.params.map Prod.fst).flatten.length = (v.params.map Prod.fst).flatten.length →
        (ocCall cfg (ocCall cfg s v it).2 v' it').1 = .error .runtimeError) := by
  have hfl : ∀ {v : OCView}, v.params ≠ [] → flatParam v = .ok (v.params.map Prod.fst).flatten := fun h => by simp [flatParam, h]
  constructor
  · intro mem d1 h1 h2 hne hone
    have hT : checkT cfg s.t v = (.error .runtimeError, { s.t with tMem := some (v.params.map Prod.fst).flatten }) := by
      unfold checkT
      rw [if_neg (by linarith), if_neg (by rw [hm]; decide), if_pos hm]
      simp only [hfl hv0, h0, h1, h2, vsub_refused hne.symm hv hone]
    have hC := ocCall_of_checkT (it := it) hmon hT
    refine ⟨hC, fun ho hd => ?_⟩
    rw [hC]
    have hsub : ∀ l : List ℝ, vsub l l = .ok (List.replicate l.length 0) := by
      intro l
      unfold vsub
      rw [if_pos rfl]
      congr 1
      induction l with
      | nil => rfl
      | cons x l ih => simp [ih, List.replicate_succ]
    have hn : vnorm cfg.order (List.replicate (v.params.map Prod.fst).flatten.length 0) = 0 := by
      rcases ho with h | h <;> rw [h] <;> simp [vnorm]
    have hb : checkMetric cfg 0 d1 cfg.tolTheta = .ok true := by
      unfold checkMetric
      rcases hmode with h | h
      · rw [if_pos h, decide_eq_true (mul_pos ht hd)]
      · rw [if_neg (by rw [h]; decide), if_pos h, decide_eq_true ht]
    have hT' : checkT cfg { s.t with tMem := some (v.params.map Prod.fst).flatten } v =
        (.ok true, { s.t with tMem := some (v.params.map Prod.fst).flatten }) := by
      unfold checkT
      rw [if_neg (by linarith), if_neg (by rw [hm]; decide), if_pos hm]
      simp only [hfl hv0, h0, h1, hsub, hn, hb]
    rw [ocCall_of_checkT (s := { s with t := { s.t with tMem := some (v.params.map Prod.fst).flatten } }) (it := it') hmon hT']
    simp
  · intro h1 hne hone
    have hT : ∀ (m : Option (List ℝ)) (v' : OCView), v'.params ≠ [] →
        (v'.params.map Prod.fst).flatten.length = (v.params.map Prod.fst).flatten.length →
        checkT cfg { s.t with tMem := m } v' = (.error .runtimeError, { s.t with tMem := some (v'.params.map Prod.fst).flatten }) := by
      intro m v' hv' hlen
      unfold checkT
      rw [if_neg (by linarith), if_neg (by rw [hm]; decide), if_pos hm]
      simp only [hfl hv', h0, h1, vsub_refused (a := (v'.params.map Prod.fst).flatten) (b := t0) (by rw [hlen]; exact hne.symm) (by rw [hlen]; exact hv) hone]
    have hC := ocCall_of_checkT (it := it) hmon (hT s.t.tMem v hv0 rfl)
    refine ⟨hC, fun v' hv' hlen => ?_⟩
    rw [hC, ocCall_of_checkT (s := { s with t := { s.t with tMem := some (v.params.map Prod.fst).flatten } }) (it := it') hmon (hT _ v' hv' hlen)]

/-- non-vacuity: two parameters in memory, then three -/
example : (ocCall ⟨.fin 2, 1 / 2, 1 / 2, "theta".toList, "rel".toList, "param".toList⟩
    (ocCall ⟨.fin 2, 1 / 2, 1 / 2, "theta".toList, "rel".toList, "param".toList⟩
      ⟨⟨none, none, none, none⟩, ⟨some [0, 1], some [1, 2], some 1, none⟩⟩ ⟨0, fun _ => 0, none, [([5, 6, 7], none)], 10⟩ 0).2
    ⟨0, fun _ => 0, none, [([5, 6, 7], none)], 10⟩ 0).1 = .ok true :=
  ((C107_after_error_false (cfg := ⟨.fin 2, 1 / 2, 1 / 2, "theta".toList, "rel".toList, "param".toList⟩) (t0 := [0, 1]) rfl (.inl rfl) (by norm_num)
    (by decide) rfl (by simp) (by simp) 0 0).1 [1, 2] 1 rfl rfl (by simp) (by simp)).2 (.inr rfl) one_pos

end C107

end Skwdro
