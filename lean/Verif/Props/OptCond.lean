import Verif.Spec.OptCond
import Mathlib.Tactic.Linarith

/-! # C43–C47: optimality conditions -/

namespace Skwdro
open Spec

section basics

theorem not_iter {v : ℕ → OCView} (h : InLoop v) (k : ℕ) : checkIter (v k).maxIter k = false := by
  unfold checkIter
  rcases h k with h | h
  · simp [h]
  · simp; omega

theorem result_eq {cfg : OCConfig} {s : OCState} {v : ℕ → OCView} (h : InLoop v) (k : ℕ) :
    ocResult cfg s v k = (checkAllParams cfg (ocState cfg s v k) (v k)).1 := by
  unfold ocResult ocCall
  rcases hc : checkAllParams cfg (ocState cfg s v k) (v k) with ⟨r, s'⟩
  cases r <;> simp [not_iter h]

theorem state_succ {cfg : OCConfig} {s : OCState} {v : ℕ → OCView} (k : ℕ) :
    ocState cfg s v (k + 1) = (checkAllParams cfg (ocState cfg s v k) (v k)).2 := by
  simp only [ocState]
  unfold ocCall
  rcases hc : checkAllParams cfg (ocState cfg s v k) (v k) with ⟨r, s'⟩
  cases r <;> rfl

theorem ne_grad_param : ("param".toList : PyStr) ≠ "grad".toList := by decide
theorem ne_abs_rel : ("abs".toList : PyStr) ≠ "rel".toList := by decide

/-- the four families of settings are disjoint -/
theorem not_and_of_or {m : PyStr} (h : m ∈ L_OR_T) : m ∉ L_AND_T := by
  simp only [L_OR_T, List.mem_cons, List.not_mem_nil, or_false] at h
  rcases h with h | h | h | h | h <;> subst h <;> decide
theorem just_l_only {m : PyStr} (h : m ∈ JUST_L) : m ∉ L_AND_T ∧ m ∉ L_OR_T := by
  simp only [JUST_L, List.mem_cons, List.not_mem_nil, or_false] at h
  rcases h with h | h <;> subst h <;> decide
theorem just_t_only {m : PyStr} (h : m ∈ JUST_T) : m ∉ L_AND_T ∧ m ∉ L_OR_T ∧ m ∉ JUST_L := by
  simp only [JUST_T, List.mem_cons, List.not_mem_nil, or_false] at h
  rcases h with h | h <;> subst h <;> decide

theorem all_and {cfg : OCConfig} (h : cfg.monitoring ∈ L_AND_T) (s v) :
    checkAllParams cfg s v = checkBoth (fun a b => a && b) cfg s v := by simp only [checkAllParams, if_pos h]
theorem all_or {cfg : OCConfig} (h : cfg.monitoring ∈ L_OR_T) (s v) :
    checkAllParams cfg s v = checkBoth (fun a b => a || b) cfg s v := by
  simp only [checkAllParams, if_neg (not_and_of_or h), if_pos h]
theorem all_l {cfg : OCConfig} (h : cfg.monitoring ∈ JUST_L) (s : OCState) (v) :
    checkAllParams cfg s v = ((checkL cfg s.l v).1, { s with l := (checkL cfg s.l v).2 }) := by
  simp only [checkAllParams, if_neg (just_l_only h).1, if_neg (just_l_only h).2, if_pos h]
theorem all_t {cfg : OCConfig} (h : cfg.monitoring ∈ JUST_T) (s : OCState) (v) :
    checkAllParams cfg s v = ((checkT cfg s.t v).1, { s with t := (checkT cfg s.t v).2 }) := by
  simp only [checkAllParams, if_neg (just_t_only h).1, if_neg (just_t_only h).2.1, if_neg (just_t_only h).2.2, if_pos h]

/-- if neither single check can answer `true`, no setting can -/
theorem all_ne_true {cfg : OCConfig} {s : OCState} {v : OCView} (hl : (checkL cfg s.l v).1 ≠ .ok true)
    (ht : (checkT cfg s.t v).1 ≠ .ok true) : (checkAllParams cfg s v).1 ≠ .ok true := by
  have hb : ∀ f : Bool → Bool → Bool, f false false = false → (checkBoth f cfg s v).1 ≠ .ok true := by
    intro f hf
    unfold checkBoth
    rcases h1 : checkL cfg s.l v with ⟨r, l⟩
    rw [h1] at hl
    cases r with
    | error e => simp
    | ok a =>
      rcases h2 : checkT cfg s.t v with ⟨r2, t⟩
      rw [h2] at ht
      cases r2 with
      | error e => simp
      | ok b => cases a <;> cases b <;> simp_all
  unfold checkAllParams
  split
  · exact hb _ rfl
  · split
    · exact hb _ rfl
    · split
      · exact hl
      · split
        · exact ht
        · simp

theorem checkL_tol {cfg : OCConfig} (h : cfg.tolLambda ≤ 0) (s v) : checkL cfg s v = (.ok false, s) := by simp [checkL, h]
theorem checkT_tol {cfg : OCConfig} (h : cfg.tolTheta ≤ 0) (s v) : checkT cfg s v = (.ok false, s) := by simp [checkT, h]

end basics

section C43
variable (cfg : OCConfig) (v : ℕ → OCView)

/-- **C43** With both tolerances `<= 0` no call ever stops, whatever the settings, the memory and the history. -/
theorem C43_no_tolerance (s : OCState) (hv : InLoop v) (h1 : cfg.tolTheta ≤ 0) (h2 : cfg.tolLambda ≤ 0) (k : ℕ) :
    ocResult cfg s v k ≠ .ok true := by
  rw [result_eq hv]
  exact all_ne_true (by simp [checkL_tol h2]) (by simp [checkT_tol h1])

/-- **C43** The iteration budget: with both tolerances `<= 0` and a known setting, call number `it` stops exactly when the budget
is positive and reached. -/
theorem C43_budget (s : OCState) (u : OCView) (it : ℤ) (h1 : cfg.tolTheta ≤ 0) (h2 : cfg.tolLambda ≤ 0)
    (hm : cfg.monitoring ∈ L_AND_T ∨ cfg.monitoring ∈ L_OR_T ∨ cfg.monitoring ∈ JUST_L ∨ cfg.monitoring ∈ JUST_T) :
    ocCall cfg s u it = (.ok (decide (0 < u.maxIter ∧ u.maxIter ≤ it)), s) := by
  have ha : checkAllParams cfg s u = (.ok false, s) := by
    rcases hm with hm | hm | hm | hm
    · simp [all_and hm, checkBoth, checkL_tol h2, checkT_tol h1]
    · simp [all_or hm, checkBoth, checkL_tol h2, checkT_tol h1]
    · simp [all_l hm, checkL_tol h2]
    · simp [all_t hm, checkT_tol h1]
  simp only [ocCall, ha, checkIter, Bool.or_false]
  by_cases h : u.maxIter ≤ 0
  · simp [h, not_lt.mpr h]
  · simp [h, not_le.mp h]

/-- **C43** Whatever the tolerances, a call that reaches a positive budget stops (unless it raises). -/
theorem C43_budget_reached (s : OCState) (u : OCView) (it : ℤ) (h : 0 < u.maxIter) (hi : u.maxIter ≤ it) (b : Bool)
    (hc : (ocCall cfg s u it).1 = .ok b) : b = true := by
  unfold ocCall at hc
  rcases hr : checkAllParams cfg s u with ⟨r, s'⟩
  rw [hr] at hc
  cases r with
  | error e => simp at hc
  | ok c => simpa [checkIter, not_le.mpr h, hi, eq_comm] using hc

/-- non-vacuity: absolute gradient condition on both variables -/
example : ocCall ⟨.fin 2, 0, 0, "both".toList, "abs".toList, "grad".toList⟩ freshOC ⟨0, fun _ => 0, none, [], 5⟩ 5 = (.ok true, freshOC) := by
  rw [C43_budget _ _ _ _ (le_refl _) (le_refl _) (Or.inl (by decide))]
  simp

/-- **C43** With a tolerance `<= 0` on a variable that is required (alone or jointly) no call ever stops. -/
theorem C43_no_tolerance_required (s : OCState) (hv : InLoop v)
    (h : (cfg.tolTheta ≤ 0 ∧ (cfg.monitoring ∈ JUST_T ∨ cfg.monitoring ∈ L_AND_T)) ∨
      (cfg.tolLambda ≤ 0 ∧ (cfg.monitoring ∈ JUST_L ∨ cfg.monitoring ∈ L_AND_T))) (k : ℕ) :
    ocResult cfg s v k ≠ .ok true := by
  rw [result_eq hv]
  rcases h with ⟨h, hm | hm⟩ | ⟨h, hm | hm⟩
  · rw [all_t hm, checkT_tol h]; simp
  · rw [all_and hm]
    unfold checkBoth
    split
    · simp
    · simp [checkT_tol h]
  · rw [all_l hm, checkL_tol h]; simp
  · rw [all_and hm]
    unfold checkBoth
    rw [checkL_tol h]
    simp only
    split <;> simp

/-- **C43** With the gradient metric, the first call on a new condition never stops. -/
theorem C43_first_call_grad (hv : InLoop v) (hm : cfg.metric = "grad".toList) : ocResult cfg freshOC v 0 ≠ .ok true := by
  rw [result_eq hv]
  apply all_ne_true
  · simp only [ocState, freshOC, checkL, hm, if_true]
    split
    · simp
    · split <;> simp
  · simp only [ocState, freshOC, checkT, hm, if_true]
    split
    · simp
    · split <;> simp

/-- a memory without first differences never answers `true` with the parameter metric -/
theorem param_ne_true {s : OCState} (hm : cfg.metric = "param".toList) (h1 : s.l.deltaL1 = none) (h2 : s.t.deltaT1 = none)
    (w : OCView) : (checkAllParams cfg s w).1 ≠ .ok true := by
  apply all_ne_true
  · obtain ⟨⟨l0, lm, d, g⟩, t⟩ := s
    simp only at h1
    subst h1
    simp only [checkL, hm, if_neg ne_grad_param, if_true]
    split
    · simp
    · cases l0 <;> simp
  · obtain ⟨l, ⟨t0, tm, d, g⟩⟩ := s
    simp only at h2
    subst h2
    simp only [checkT, hm, if_neg ne_grad_param, if_true]
    split
    · simp
    · split
      · simp
      · cases t0 with
        | none => simp
        | some x => simp only; split <;> simp

theorem checkL_first {s : LMem} (hm : cfg.metric = "param".toList) (h : s.l0 = none) (hd : s.deltaL1 = none) (w : OCView) :
    (checkL cfg s w).2.deltaL1 = none := by
  obtain ⟨l0, lm, d, g⟩ := s
  simp only at h hd
  subst h hd
  simp only [checkL, hm, if_neg ne_grad_param, if_true]
  split <;> simp

theorem checkT_first {s : TMem} (hm : cfg.metric = "param".toList) (h : s.t0 = none) (hd : s.deltaT1 = none) (w : OCView) :
    (checkT cfg s w).2.deltaT1 = none := by
  obtain ⟨t0, tm, d, g⟩ := s
  simp only at h hd
  subst h hd
  simp only [checkT, hm, if_neg ne_grad_param, if_true]
  split
  · simp
  · split <;> simp

theorem all_first {s : OCState} (hm : cfg.metric = "param".toList) (h1 : s.l.l0 = none) (h2 : s.l.deltaL1 = none)
    (h3 : s.t.t0 = none) (h4 : s.t.deltaT1 = none) (w : OCView) :
    (checkAllParams cfg s w).2.l.deltaL1 = none ∧ (checkAllParams cfg s w).2.t.deltaT1 = none := by
  have hL := checkL_first cfg hm h1 h2 w
  have hT := checkT_first cfg hm h3 h4 w
  have hb : ∀ f, (checkBoth f cfg s w).2.l.deltaL1 = none ∧ (checkBoth f cfg s w).2.t.deltaT1 = none := by
    intro f
    unfold checkBoth
    rcases e1 : checkL cfg s.l w with ⟨r, l⟩
    rw [e1] at hL
    cases r with
    | error e => exact ⟨hL, h4⟩
    | ok a =>
      rcases e2 : checkT cfg s.t w with ⟨r2, t⟩
      rw [e2] at hT
      cases r2 <;> exact ⟨hL, hT⟩
  unfold checkAllParams
  split
  · exact hb _
  · split
    · exact hb _
    · split
      · exact ⟨hL, h4⟩
      · split
        · exact ⟨h2, hT⟩
        · exact ⟨h2, h4⟩

/-- **C43** With the parameter metric, the first two calls on a new condition never stop. -/
theorem C43_first_calls_param (hv : InLoop v) (hm : cfg.metric = "param".toList) (k : ℕ) (hk : k < 2) :
    ocResult cfg freshOC v k ≠ .ok true := by
  rw [result_eq hv]
  have : k = 0 ∨ k = 1 := by omega
  rcases this with rfl | rfl
  · exact param_ne_true cfg hm rfl rfl _
  · obtain ⟨h1, h2⟩ := all_first cfg (s := freshOC) hm rfl rfl rfl rfl (v 0)
    rw [state_succ]
    exact param_ne_true cfg hm h1 h2 _

end C43

section C44

theorem flatGrad_sees {v : OCView} {G : List ℝ} (h : SeesGrad v G) : flatGrad v = .ok G := by
  obtain ⟨h0, gs, h1, h2⟩ := h
  have hall : v.params.all (fun p => p.2.isSome) = true := by
    rw [List.all_eq_true]
    intro p hp
    have : p.2 ∈ v.params.map Prod.snd := List.mem_map_of_mem hp
    rw [h1, List.mem_map] at this
    obtain ⟨g, -, hg⟩ := this
    simp [← hg]
  have hmap : v.params.map (fun p => p.2.getD []) = gs := by
    have : v.params.map (fun p => p.2.getD []) = (v.params.map Prod.snd).map (fun o => o.getD []) := by simp
    rw [this, h1, List.map_map]
    simp
  simp [flatGrad, hall, h0, hmap, h2]

theorem flatParam_sees {v : OCView} {T : List ℝ} (h : SeesParam v T) : flatParam v = .ok T := by
  simp [flatParam, h.1, h.2]

theorem checkMetric_below {cfg : OCConfig} (h : IsMode cfg.mode) (new mem tol : ℝ) (b : Bool)
    (hb : b = true ↔ Below cfg.mode new mem tol) : checkMetric cfg new mem tol = .ok b := by
  unfold checkMetric
  rcases h with h | h
  · rw [if_pos h]
    congr 1
    rw [Bool.eq_iff_iff, hb]
    simp only [Below, h, decide_eq_true_eq, true_and]
    constructor
    · exact Or.inl
    · rintro (h' | ⟨h', -⟩)
      · exact h'
      · exact absurd h'.symm ne_abs_rel
  · rw [if_neg (by rw [h]; exact ne_abs_rel), if_pos h]
    congr 1
    rw [Bool.eq_iff_iff, hb]
    simp only [Below, h, decide_eq_true_eq, true_and]
    constructor
    · exact Or.inr
    · rintro (⟨h', -⟩ | h')
      · exact absurd h' ne_abs_rel
      · exact h'

variable {cfg : OCConfig} {v : ℕ → OCView}

theorem grad_state {G : ℕ → List ℝ} (hm : cfg.monitoring ∈ JUST_T) (hmet : cfg.metric = "grad".toList)
    (ht : 0 < cfg.tolTheta) (hG : ∀ k, SeesGrad (v k) (G k)) (k : ℕ) :
    (ocState cfg freshOC v (k + 1)).t.tGrad0 = some (vnorm cfg.order (G 0)) := by
  induction k with
  | zero =>
    rw [state_succ, all_t hm]
    simp [ocState, freshOC, checkT, ht.not_ge, hmet, flatGrad_sees (hG 0)]
  | succ k ih =>
    rw [state_succ, all_t hm]
    simp only [checkT, if_neg ht.not_ge, hmet, if_true, flatGrad_sees (hG (k + 1)), ih]

/-- **C44** (gradient metric) A new condition monitoring theta with a positive tolerance: call `k` (counted from 0) stops
exactly when it is not the first one and the norm of the gradient it sees is below the tolerance, relatively to the norm seen
by the first call or absolutely.  No call fails. -/
theorem C44_gradient {G : ℕ → List ℝ} (hv : InLoop v) (hm : cfg.monitoring ∈ JUST_T) (hmode : IsMode cfg.mode)
    (hmet : cfg.metric = "grad".toList) (ht : 0 < cfg.tolTheta) (hG : ∀ k, SeesGrad (v k) (G k)) (k : ℕ) :
    ∃ b, ocResult cfg freshOC v k = .ok b ∧
      (b = true ↔ 1 ≤ k ∧ Below cfg.mode (vnorm cfg.order (G k)) (vnorm cfg.order (G 0)) cfg.tolTheta) := by
  classical
  refine ⟨decide (1 ≤ k ∧ Below cfg.mode (vnorm cfg.order (G k)) (vnorm cfg.order (G 0)) cfg.tolTheta), ?_, by simp⟩
  rw [result_eq hv, all_t hm]
  cases k with
  | zero => simp [ocState, freshOC, checkT, ht.not_ge, hmet, flatGrad_sees (hG 0)]
  | succ k =>
    simp only [checkT, if_neg ht.not_ge, hmet, if_true, flatGrad_sees (hG (k + 1)), grad_state hm hmet ht hG k]
    exact checkMetric_below hmode _ _ _ _ (by simp)

theorem vsub_ok {a b : List ℝ} {n : ℕ} (ha : a.length = n) (hb : b.length = n) :
    vsub a b = .ok (List.zipWith (· - ·) a b) := by simp [vsub, ha, hb]

/-- length of the step between two iterates -/
noncomputable def stepLen (cfg : OCConfig) (a b : List ℝ) : ℝ := vnorm cfg.order (List.zipWith (· - ·) a b)

theorem param_state {T : ℕ → List ℝ} {n : ℕ} (hm : cfg.monitoring ∈ JUST_T) (hmet : cfg.metric = "param".toList)
    (ht : 0 < cfg.tolTheta) (hT : ∀ k, SeesParam (v k) (T k)) (hn : ∀ k, (T k).length = n) (k : ℕ) :
    (ocState cfg freshOC v (k + 2)).t.t0 = some (T 0) ∧ (ocState cfg freshOC v (k + 2)).t.tMem = some (T (k + 1)) ∧
    (ocState cfg freshOC v (k + 2)).t.deltaT1 = some (stepLen cfg (T 1) (T 0)) := by
  induction k with
  | zero =>
    have h1 : (ocState cfg freshOC v 1).t = ⟨some (T 0), none, none, none⟩ := by
      rw [state_succ, all_t hm]
      simp [ocState, freshOC, checkT, ht.not_ge, hmet, flatParam_sees (hT 0)]
    rw [state_succ, all_t hm]
    simp only [checkT, if_neg ht.not_ge, hmet, if_neg ne_grad_param, if_true, flatParam_sees (hT 1), h1,
      vsub_ok (hn 1) (hn 0)]
    exact ⟨trivial, trivial, rfl⟩
  | succ k ih =>
    obtain ⟨h0, h1, h2⟩ := ih
    rw [state_succ, all_t hm]
    simp only [checkT, if_neg ht.not_ge, hmet, if_neg ne_grad_param, if_true, flatParam_sees (hT (k + 2)), h0, h1, h2,
      vsub_ok (hn (k + 2)) (hn (k + 1))]
    exact ⟨trivial, trivial, trivial⟩

/-- **C44** (parameter metric) A new condition monitoring theta with a positive tolerance: call `k` (counted from 0) stops
exactly when `k >= 2` and the length of the last step is below the tolerance, relatively to the length of the first step or
absolutely.  No call fails. -/
theorem C44_parameters {T : ℕ → List ℝ} {n : ℕ} (hv : InLoop v) (hm : cfg.monitoring ∈ JUST_T) (hmode : IsMode cfg.mode)
    (hmet : cfg.metric = "param".toList) (ht : 0 < cfg.tolTheta) (hT : ∀ k, SeesParam (v k) (T k))
    (hn : ∀ k, (T k).length = n) (k : ℕ) :
    ∃ b, ocResult cfg freshOC v k = .ok b ∧
      (b = true ↔ 2 ≤ k ∧ Below cfg.mode (vnorm cfg.order (List.zipWith (· - ·) (T k) (T (k - 1))))
        (vnorm cfg.order (List.zipWith (· - ·) (T 1) (T 0))) cfg.tolTheta) := by
  classical
  match k with
  | 0 =>
    refine ⟨false, ?_, by simp⟩
    rw [result_eq hv, all_t hm]
    simp [ocState, freshOC, checkT, ht.not_ge, hmet, flatParam_sees (hT 0)]
  | 1 =>
    refine ⟨false, ?_, by simp⟩
    have h1 : (ocState cfg freshOC v 1).t = ⟨some (T 0), none, none, none⟩ := by
      rw [state_succ, all_t hm]
      simp [ocState, freshOC, checkT, ht.not_ge, hmet, flatParam_sees (hT 0)]
    rw [result_eq hv, all_t hm]
    simp only [checkT, if_neg ht.not_ge, hmet, if_neg ne_grad_param, if_true, flatParam_sees (hT 1), h1,
      vsub_ok (hn 1) (hn 0)]
  | k + 2 =>
    obtain ⟨h0, h1, h2⟩ := param_state hm hmet ht hT hn k
    refine ⟨decide (Below cfg.mode (vnorm cfg.order (List.zipWith (· - ·) (T (k + 2)) (T (k + 1))))
        (vnorm cfg.order (List.zipWith (· - ·) (T 1) (T 0))) cfg.tolTheta), ?_, by simp⟩
    rw [result_eq hv, all_t hm]
    simp only [checkT, if_neg ht.not_ge, hmet, if_neg ne_grad_param, if_true, flatParam_sees (hT (k + 2)), h0, h1, h2,
      vsub_ok (hn (k + 2)) (hn (k + 1))]
    exact checkMetric_below hmode _ _ _ _ (by simp [stepLen])

end C44

section C45
variable {cfg : OCConfig} {v : ℕ → OCView}

/-- the same condition, monitoring something else -/
def OCConfig.watching (cfg : OCConfig) (m : String) : OCConfig := { cfg with monitoring := m.toList }

theorem watch_l : (cfg.watching "lambda").monitoring ∈ JUST_L := by simp [OCConfig.watching, JUST_L]
theorem watch_t : (cfg.watching "theta").monitoring ∈ JUST_T := by simp [OCConfig.watching, JUST_T]

theorem checkL_watch (m : String) (s v) : checkL (cfg.watching m) s v = checkL cfg s v := rfl
theorem checkT_watch (m : String) (s v) : checkT (cfg.watching m) s v = checkT cfg s v := rfl

/-- both memories of the joint run are those of the two separate runs, as long as these do not fail -/
theorem joint_state {f : Bool → Bool → Bool} (hf : ∀ s v, checkAllParams cfg s v = checkBoth f cfg s v) (hv : InLoop v)
    (s : OCState) (k : ℕ)
    (hl : ∀ j < k, ∃ a, ocResult (cfg.watching "lambda") s v j = .ok a)
    (ht : ∀ j < k, ∃ a, ocResult (cfg.watching "theta") s v j = .ok a) :
    ocState cfg s v k = ⟨(ocState (cfg.watching "lambda") s v k).l, (ocState (cfg.watching "theta") s v k).t⟩ := by
  induction k with
  | zero => rfl
  | succ k ih =>
    have ih := ih (fun j hj => hl j (by omega)) (fun j hj => ht j (by omega))
    obtain ⟨a, ha⟩ := hl k (by omega)
    obtain ⟨b, hb⟩ := ht k (by omega)
    rw [result_eq hv, all_l watch_l, checkL_watch] at ha
    rw [result_eq hv, all_t watch_t, checkT_watch] at hb
    rw [state_succ, state_succ, state_succ, hf, all_l watch_l, all_t watch_t, checkL_watch, checkT_watch, ih]
    simp only at ha hb
    unfold checkBoth
    simp only
    rcases e1 : checkL cfg (ocState (cfg.watching "lambda") s v k).l (v k) with ⟨r, l⟩
    rcases e2 : checkT cfg (ocState (cfg.watching "theta") s v k).t (v k) with ⟨r2, t⟩
    rw [e1] at ha; rw [e2] at hb
    simp only at ha hb
    subst ha hb
    rfl

theorem joint_result {f : Bool → Bool → Bool} (hf : ∀ s v, checkAllParams cfg s v = checkBoth f cfg s v) (hv : InLoop v)
    (s : OCState) (k : ℕ) (la ta : ℕ → Bool)
    (hl : ∀ j ≤ k, ocResult (cfg.watching "lambda") s v j = .ok (la j))
    (ht : ∀ j ≤ k, ocResult (cfg.watching "theta") s v j = .ok (ta j)) :
    ocResult cfg s v k = .ok (f (la k) (ta k)) := by
  have hs := joint_state hf hv s k (fun j hj => ⟨_, hl j hj.le⟩) (fun j hj => ⟨_, ht j hj.le⟩)
  have ha := hl k le_rfl
  have hb := ht k le_rfl
  rw [result_eq hv, all_l watch_l, checkL_watch] at ha
  rw [result_eq hv, all_t watch_t, checkT_watch] at hb
  rw [result_eq hv, hf, hs]
  simp only at ha hb
  unfold checkBoth
  simp only
  rcases e1 : checkL cfg (ocState (cfg.watching "lambda") s v k).l (v k) with ⟨r, l⟩
  rcases e2 : checkT cfg (ocState (cfg.watching "theta") s v k).t (v k) with ⟨r2, t⟩
  rw [e1] at ha; rw [e2] at hb
  simp only at ha hb
  subst ha hb
  rfl

/-- **C45** (joint) Along any history on which the conditions monitoring only lambda and only theta answer `la` and `ta`, the
condition with any of the "both" settings answers `la and ta` at every call: both criteria are evaluated, and their memories
advance, at each call. -/
theorem C45_both (hm : cfg.monitoring ∈ L_AND_T) (hv : InLoop v) (s : OCState) (k : ℕ) (la ta : ℕ → Bool)
    (hl : ∀ j ≤ k, ocResult (cfg.watching "lambda") s v j = .ok (la j))
    (ht : ∀ j ≤ k, ocResult (cfg.watching "theta") s v j = .ok (ta j)) :
    ocResult cfg s v k = .ok (la k && ta k) := joint_result (all_and hm) hv s k la ta hl ht

/-- **C45** (either) The same with the "one" settings: the answer is `la or ta`. -/
theorem C45_one (hm : cfg.monitoring ∈ L_OR_T) (hv : InLoop v) (s : OCState) (k : ℕ) (la ta : ℕ → Bool)
    (hl : ∀ j ≤ k, ocResult (cfg.watching "lambda") s v j = .ok (la j))
    (ht : ∀ j ≤ k, ocResult (cfg.watching "theta") s v j = .ok (ta j)) :
    ocResult cfg s v k = .ok (la k || ta k) := joint_result (all_or hm) hv s k la ta hl ht

/-- **C45** (single, no interference) Monitoring lambda never reads theta: changing parameters and their gradients changes no
answer; and symmetrically. -/
theorem C45_single (s : OCState) (v w : ℕ → OCView) (hi : ∀ k, (v k).maxIter = (w k).maxIter) :
    (cfg.monitoring ∈ JUST_L → (∀ k, (v k).lamRef = (w k).lamRef ∧ (v k).heap = (w k).heap ∧ (v k).lamGrad = (w k).lamGrad) →
      ∀ k, ocResult cfg s v k = ocResult cfg s w k) ∧
    (cfg.monitoring ∈ JUST_T → (∀ k, (v k).params = (w k).params) → ∀ k, ocResult cfg s v k = ocResult cfg s w k) := by
  have key : (∀ s k, checkAllParams cfg s (v k) = checkAllParams cfg s (w k)) →
      ∀ k, ocResult cfg s v k = ocResult cfg s w k := by
    intro h
    have hs : ∀ k, ocState cfg s v k = ocState cfg s w k := by
      intro k
      induction k with
      | zero => rfl
      | succ k ih => rw [state_succ, state_succ, ih, h]
    intro k
    unfold ocResult ocCall
    rw [hs, h, hi]
  constructor
  · intro hm hvw
    refine key fun s k => ?_
    have : checkL cfg s.l (v k) = checkL cfg s.l (w k) := by
      simp only [checkL, lamGrad, (hvw k).1, (hvw k).2.1, (hvw k).2.2]
    rw [all_l hm, all_l hm, this]
  · intro hm hvw
    refine key fun s k => ?_
    have : checkT cfg s.t (v k) = checkT cfg s.t (w k) := by
      simp only [checkT, flatGrad, flatParam, hvw k]
    rw [all_t hm, all_t hm, this]

/-- **C45** (unknown setting) Any other setting makes every call fail with a ValueError. -/
theorem C45_unknown (h : cfg.monitoring ∉ L_AND_T ++ L_OR_T ++ JUST_T ++ JUST_L) (s : OCState) (v : ℕ → OCView) (k : ℕ) :
    ocResult cfg s v k = .error .valueError := by
  simp only [List.mem_append, not_or] at h
  unfold ocResult ocCall checkAllParams
  rw [if_neg h.1.1.1, if_neg h.1.1.2, if_neg h.2, if_neg h.1.2]

end C45

section C46
variable {cfg : OCConfig} {v : ℕ → OCView}

theorem lam_param_state {r : ℕ} (hm : cfg.monitoring ∈ JUST_L) (hmet : cfg.metric = "param".toList) (ht : 0 < cfg.tolLambda)
    (hr : ∀ k, (v k).lamRef = r) (k : ℕ) :
    (ocState cfg freshOC v (k + 2)).l = ⟨some r, some r, some 0, none⟩ := by
  induction k with
  | zero =>
    have h1 : (ocState cfg freshOC v 1).l = ⟨some r, none, none, none⟩ := by
      rw [state_succ, all_l hm]
      simp [ocState, freshOC, checkL, ht.not_ge, hmet, hr]
    rw [state_succ, all_l hm]
    simp [checkL, if_neg ht.not_ge, hmet, h1, hr]
  | succ k ih =>
    rw [state_succ, all_l hm]
    simp [checkL, if_neg ht.not_ge, hmet, ih, hr]

theorem lam_param_result {r : ℕ} (hv : InLoop v) (hm : cfg.monitoring ∈ JUST_L) (hmode : IsMode cfg.mode)
    (hmet : cfg.metric = "param".toList) (ht : 0 < cfg.tolLambda)
    (hr : ∀ k, (v k).lamRef = r) (k : ℕ) :
    ocResult cfg freshOC v k = .ok (decide (2 ≤ k ∧ cfg.mode = "abs".toList)) := by
  match k with
  | 0 =>
    rw [result_eq hv, all_l hm]
    simp [ocState, freshOC, checkL, ht.not_ge, hmet]
  | 1 =>
    have h1 : (ocState cfg freshOC v 1).l = ⟨some r, none, none, none⟩ := by
      rw [state_succ, all_l hm]
      simp [ocState, freshOC, checkL, ht.not_ge, hmet, hr]
    rw [result_eq hv, all_l hm]
    simp [checkL, if_neg ht.not_ge, hmet, h1]
  | k + 2 =>
    rw [result_eq hv, all_l hm]
    simp only [checkL, if_neg ht.not_ge, hmet, if_neg ne_grad_param, if_true, lam_param_state hm hmet ht hr k, hr, sub_self,
      abs_zero]
    refine checkMetric_below hmode _ _ _ _ ?_
    simp only [Below, mul_zero, lt_irrefl, and_false, false_or, ht, and_true, decide_eq_true_eq]
    constructor
    · exact fun h => h.2
    · exact fun h => ⟨by omega, h⟩

/-- **C46** (violated, relative) Monitoring the motion of lambda relatively never stops, whatever the trajectory of lambda:
even if it is constant. -/
theorem C46_relative_false {r : ℕ} (hv : InLoop v) (hm : cfg.monitoring ∈ JUST_L) (hmode : cfg.mode = "rel".toList)
    (hmet : cfg.metric = "param".toList) (ht : 0 < cfg.tolLambda) (hr : ∀ k, (v k).lamRef = r) (k : ℕ) :
    ocResult cfg freshOC v k = .ok false := by
  rw [lam_param_result hv hm (Or.inl hmode) hmet ht hr k, hmode]
  simp

/-- **C46** (violated, absolute) Monitoring the motion of lambda absolutely stops exactly from the third call on, whatever the
trajectory of lambda: even if it moves arbitrarily far. -/
theorem C46_absolute_false {r : ℕ} (hv : InLoop v) (hm : cfg.monitoring ∈ JUST_L) (hmode : cfg.mode = "abs".toList)
    (hmet : cfg.metric = "param".toList) (ht : 0 < cfg.tolLambda) (hr : ∀ k, (v k).lamRef = r) (k : ℕ) :
    ocResult cfg freshOC v k = .ok (decide (2 ≤ k)) := by
  rw [lam_param_result hv hm (Or.inr hmode) hmet ht hr k, hmode]
  simp

/-- **C46** (what holds) Monitoring lambda by its gradient works: call `k` stops exactly when it is not the first one and the
gradient is below the tolerance, relatively to the first one or absolutely.  (Missing: the parameter metric.) -/
theorem C46_gradient_partial {g : ℕ → ℝ} (hv : InLoop v) (hm : cfg.monitoring ∈ JUST_L) (hmode : IsMode cfg.mode)
    (hmet : cfg.metric = "grad".toList) (ht : 0 < cfg.tolLambda) (hg : ∀ k, (v k).lamGrad = some (g k)) (k : ℕ) :
    ∃ b, ocResult cfg freshOC v k = .ok b ∧ (b = true ↔ 1 ≤ k ∧ Below cfg.mode |g k| |g 0| cfg.tolLambda) := by
  classical
  have hG : ∀ k, lamGrad (v k) = .ok (g k) := fun k => by simp [lamGrad, hg]
  have hs : ∀ k, (ocState cfg freshOC v (k + 1)).l.lGrad0 = some |g 0| := by
    intro k
    induction k with
    | zero =>
      rw [state_succ, all_l hm]
      simp [ocState, freshOC, checkL, ht.not_ge, hmet, hG]
    | succ k ih =>
      rw [state_succ, all_l hm]
      simp only [checkL, if_neg ht.not_ge, hmet, if_true, hG, ih]
  refine ⟨decide (1 ≤ k ∧ Below cfg.mode |g k| |g 0| cfg.tolLambda), ?_, by simp⟩
  rw [result_eq hv, all_l hm]
  cases k with
  | zero => simp [ocState, freshOC, checkL, ht.not_ge, hmet, hG]
  | succ k =>
    simp only [checkL, if_neg ht.not_ge, hmet, if_true, hG, hs k]
    exact checkMetric_below hmode _ _ _ _ (by simp)

end C46

section C47
variable {cfg : OCConfig}

theorem grad_mem_keep {s : OCState} {x : ℝ} {v : ℕ → OCView} (hm : cfg.monitoring ∈ JUST_T) (hs : s.t.tGrad0 = some x)
    (hmet : cfg.metric = "grad".toList) (ht : 0 < cfg.tolTheta) {G : ℕ → List ℝ} (hG : ∀ k, SeesGrad (v k) (G k)) (k : ℕ) :
    (ocState cfg s v k).t.tGrad0 = some x := by
  induction k with
  | zero => exact hs
  | succ k ih =>
    rw [state_succ, all_t hm]
    simp only [checkT, if_neg ht.not_ge, hmet, if_true, flatGrad_sees (hG k), ih]

/-- **C47** (violated) A condition with the default settings (gradient metric, relative, monitoring theta) shared by two fits,
as the default argument of the estimators is: after a first fit of at least one iteration whose first gradient had norm `n0`, the
second fit is compared to `n0` from its very first iteration, so that it stops there when its first gradient is below
`tol * n0`, whereas a fit with its own condition never stops at its first iteration. -/
theorem C47_shared_false {v w : ℕ → OCView} {G H : ℕ → List ℝ} (hw : InLoop w)
    (hm : cfg.monitoring ∈ JUST_T) (hmode : cfg.mode = "rel".toList) (hmet : cfg.metric = "grad".toList) (ht : 0 < cfg.tolTheta)
    (hG : ∀ k, SeesGrad (v k) (G k)) (hH : ∀ k, SeesGrad (w k) (H k)) (n : ℕ)
    (hsmall : vnorm cfg.order (H 0) < cfg.tolTheta * vnorm cfg.order (G 0)) :
    ocResult cfg (ocState cfg freshOC v (n + 1)) w 0 = .ok true ∧ ocResult cfg freshOC w 0 = .ok false := by
  constructor
  · rw [result_eq hw, all_t hm]
    simp only [ocState.eq_1 cfg (ocState cfg freshOC v (n + 1)) w]
    simp only [checkT, if_neg ht.not_ge, hmet, if_true, flatGrad_sees (hH 0), grad_state hm hmet ht hG n]
    exact checkMetric_below (Or.inl hmode) _ _ _ _ (by simp [Below, hmode, hsmall])
  · rw [result_eq hw, all_t hm]
    simp [ocState, freshOC, checkT, ht.not_ge, hmet, flatGrad_sees (hH 0)]

/-- **C47** (what holds) In absolute mode with the gradient metric, decisions from the second iteration of a fit on do not
depend on fits that used the condition before.  (Missing: the first iteration, the relative mode, the parameter metric.) -/
theorem C47_absolute_partial {v w : ℕ → OCView} {G H : ℕ → List ℝ} (hw : InLoop w)
    (hm : cfg.monitoring ∈ JUST_T) (hmode : cfg.mode = "abs".toList) (hmet : cfg.metric = "grad".toList)
    (ht : 0 < cfg.tolTheta) (hG : ∀ k, SeesGrad (v k) (G k)) (hH : ∀ k, SeesGrad (w k) (H k)) (n k : ℕ) :
    ocResult cfg (ocState cfg freshOC v (n + 1)) w (k + 1) = ocResult cfg freshOC w (k + 1) := by
  have h1 := grad_mem_keep (v := w) hm (grad_state hm hmet ht hG n) hmet ht hH (k + 1)
  have h2 := grad_state hm hmet ht hH k
  rw [result_eq hw, result_eq hw, all_t hm, all_t hm]
  simp only [checkT, if_neg ht.not_ge, hmet, if_true, flatGrad_sees (hH (k + 1)), h1, h2]
  simp only [checkMetric, hmode, if_neg ne_abs_rel, if_true]

/-- **C47** (what holds) A condition with tolerances `<= 0` carries nothing from one fit to the next. -/
theorem C47_no_tolerance_partial (h1 : cfg.tolTheta ≤ 0) (h2 : cfg.tolLambda ≤ 0) (v w : ℕ → OCView) (n k : ℕ) :
    ocResult cfg (ocState cfg freshOC v n) w k = ocResult cfg freshOC w k := by
  have hk : ∀ s u, (checkAllParams cfg s u).2 = s := by
    intro s u
    unfold checkAllParams checkBoth
    simp only [checkL_tol h2, checkT_tol h1]
    split
    · rfl
    · split
      · rfl
      · split
        · rfl
        · split <;> rfl
  have hs : ∀ (s : OCState) (u : ℕ → OCView) n, ocState cfg s u n = s := by
    intro s u n
    induction n with
    | zero => rfl
    | succ n ih => rw [state_succ, hk, ih]
  rw [hs]

end C47

section examples

/-- the default condition `OptCondTorch(2)` -/
noncomputable def defaultOC : OCConfig :=
  ⟨.fin 2, 1 / 10 ^ 8, 1 / 10 ^ 8, "theta".toList, "rel".toList, "grad".toList⟩

/-- a view of a one-parameter model with value `t` and gradient `g` -/
def exView (t g : ℝ) : OCView := ⟨0, fun _ => t, some g, [([t], some [g])], 100⟩

theorem exView_grad (t g : ℝ) : SeesGrad (exView t g) [g] := ⟨by simp [exView], [[g]], rfl, rfl⟩
theorem exView_param (t g : ℝ) : SeesParam (exView t g) [t] := ⟨by simp [exView], rfl⟩

/-- non-vacuity of C44 and C47: a fit with gradients 4, 0, 0, ... stops at its second iteration; a later fit sharing the
condition, and starting at a point with gradient 0, stops at its first one, while it would not with its own condition. -/
example : ocResult defaultOC freshOC (fun k => { exView 1 (if k = 0 then 4 else 0) with maxIter := 0 }) 1 = .ok true ∧
    ocResult defaultOC (ocState defaultOC freshOC (fun k => { exView 1 (if k = 0 then 4 else 0) with maxIter := 0 }) 2)
      (fun _ => { exView 1 0 with maxIter := 0 }) 0 = .ok true ∧
    ocResult defaultOC freshOC (fun _ => { exView 1 0 with maxIter := 0 }) 0 = .ok false := by
  have hv : InLoop (fun k => { exView 1 (if k = 0 then 4 else 0) with maxIter := 0 }) := fun k => Or.inl le_rfl
  have hw : InLoop (fun _ => { exView 1 0 with maxIter := 0 }) := fun k => Or.inl le_rfl
  have hm : defaultOC.monitoring ∈ JUST_T := by simp [defaultOC, JUST_T]
  have ht : 0 < defaultOC.tolTheta := by simp [defaultOC]
  have n0 : vnorm defaultOC.order [0] = 0 := by simp [defaultOC, vnorm]
  have n4 : vnorm defaultOC.order [4] = 4 := by
    simp only [defaultOC, vnorm]
    rw [if_neg (by norm_num), List.map_singleton, List.sum_singleton, ← Real.rpow_mul (abs_nonneg _)]
    norm_num
  have hG : ∀ k : ℕ, SeesGrad { exView 1 (if k = 0 then 4 else 0) with maxIter := 0 } [if k = 0 then 4 else 0] :=
    fun k => exView_grad _ _
  have hH : ∀ k : ℕ, SeesGrad { exView 1 0 with maxIter := 0 } [0] := fun k => exView_grad _ _
  refine ⟨?_, C47_shared_false (v := fun k => { exView 1 (if k = 0 then 4 else 0) with maxIter := 0 })
    (G := fun k => [if k = 0 then 4 else 0]) (H := fun _ => [0]) hw hm rfl rfl ht hG hH 1 ?_⟩
  · obtain ⟨b, hb, hiff⟩ := C44_gradient (G := fun k => [if k = 0 then 4 else 0]) hv hm (Or.inl rfl) rfl ht hG 1
    rw [hb, hiff.2 ⟨le_rfl, Or.inl ⟨rfl, ?_⟩⟩]
    simp [n0, n4, ht]
  · simp [n0, n4, ht]

/-- non-vacuity of C46: lambda constant, yet the relative motion criterion never fires -/
example (k : ℕ) : ocResult { defaultOC with monitoring := "lambda".toList, metric := "param".toList } freshOC
    (fun _ => { exView 1 0 with maxIter := 0 }) k = .ok false :=
  C46_relative_false (r := 0) (fun k => Or.inl le_rfl) (by simp [JUST_L]) rfl rfl (by simp [defaultOC]) (fun _ => rfl) k

/-- views of a fit with no bound on the iterations: parameter `2^(-k)`, gradient `2^(-k)` -/
noncomputable def halving (k : ℕ) : OCView := { exView (1 / 2 ^ k) (1 / 2 ^ k) with maxIter := 0 }

theorem halving_inLoop : InLoop halving := fun _ => Or.inl le_rfl

/-- the default condition watching something else, in another mode, with another metric -/
noncomputable def ocWith (mon mode metric : String) : OCConfig :=
  { defaultOC with monitoring := mon.toList, mode := mode.toList, metric := metric.toList }

theorem ocWith_pos (mon mode metric : String) :
    0 < (ocWith mon mode metric).tolTheta ∧ 0 < (ocWith mon mode metric).tolLambda := by simp [ocWith, defaultOC]

/-- non-vacuity of C43 -/
example (k : ℕ) := C43_no_tolerance { defaultOC with tolTheta := 0, tolLambda := 0 } halving freshOC halving_inLoop le_rfl le_rfl k

example := C43_budget { defaultOC with tolTheta := 0, tolLambda := 0 } freshOC (exView 1 2) 100 le_rfl le_rfl
  (by simp [defaultOC, JUST_T])

example := C43_budget_reached { defaultOC with tolTheta := 0, tolLambda := 0 } freshOC (exView 1 2) 100 (by simp [exView])
  (by simp [exView]) true (by rw [C43_budget _ _ _ _ le_rfl le_rfl (by simp [defaultOC, JUST_T])]; simp [exView])

example (k : ℕ) := C43_no_tolerance_required { defaultOC with tolTheta := 0 } halving freshOC halving_inLoop
  (Or.inl ⟨le_rfl, by simp [defaultOC, JUST_T]⟩) k

example := C43_first_call_grad defaultOC halving halving_inLoop rfl

example := C43_first_calls_param (ocWith "theta" "rel" "param") halving halving_inLoop rfl 1 (by norm_num)

/-- non-vacuity of C44 -/
example (k : ℕ) := C44_parameters (cfg := ocWith "theta" "rel" "param") (v := halving) (T := fun k => [1 / 2 ^ k]) (n := 1)
  halving_inLoop (by simp [ocWith, JUST_T]) (Or.inl rfl) rfl (ocWith_pos _ _ _).1 (fun _ => exView_param _ _) (fun _ => rfl) k

/-- non-vacuity of C45: the two halves of the joint condition both answer -/
example (k : ℕ) : ∃ la ta : ℕ → Bool, ocResult (ocWith "both" "rel" "grad") freshOC halving k = .ok (la k && ta k) ∧
    ocResult (ocWith "one" "rel" "grad") freshOC halving k = .ok (la k || ta k) := by
  have hl : ∀ mon k, ∃ b, ocResult ((ocWith mon "rel" "grad").watching "lambda") freshOC halving k = .ok b := fun mon k =>
    (C46_gradient_partial (cfg := (ocWith mon "rel" "grad").watching "lambda") (v := halving) (g := fun k => 1 / 2 ^ k)
      halving_inLoop (by simp [OCConfig.watching, JUST_L]) (Or.inl rfl) rfl (ocWith_pos mon "rel" "grad").2 (fun _ => rfl) k).imp
        fun _ h => h.1
  have ht : ∀ mon k, ∃ b, ocResult ((ocWith mon "rel" "grad").watching "theta") freshOC halving k = .ok b := fun mon k =>
    (C44_gradient (cfg := (ocWith mon "rel" "grad").watching "theta") (v := halving) (G := fun k => [1 / 2 ^ k])
      halving_inLoop (by simp [OCConfig.watching, JUST_T]) (Or.inl rfl) rfl (ocWith_pos mon "rel" "grad").1 (fun _ => exView_grad _ _) k).imp
        fun _ h => h.1
  choose la hla using hl
  choose ta hta using ht
  refine ⟨la "both", ta "both", C45_both (by simp [ocWith, L_AND_T]) halving_inLoop freshOC k _ _ (fun j _ => hla _ j)
    (fun j _ => hta _ j), ?_⟩
  exact C45_one (cfg := ocWith "one" "rel" "grad") (by simp [ocWith, L_OR_T]) halving_inLoop freshOC k _ _ (fun j _ => hla "both" j)
    (fun j _ => hta "both" j)

/-- two fits whose gradients of the primal parameters differ, watched on the multiplier only -/
example := (C45_single (cfg := ocWith "lambda" "rel" "grad") freshOC halving (fun k => { halving k with params := [] })
  (fun _ => rfl)).1 (by simp [ocWith, JUST_L]) (fun _ => ⟨rfl, rfl, rfl⟩)

example (k : ℕ) := C45_unknown (cfg := ocWith "gamma" "rel" "grad") (by simp [ocWith, L_AND_T, L_OR_T, JUST_T, JUST_L]) freshOC
  halving k

/-- non-vacuity of C46 -/
example (k : ℕ) := C46_absolute_false (cfg := ocWith "lambda" "abs" "param") (v := halving) (r := 0) halving_inLoop
  (by simp [ocWith, JUST_L]) rfl rfl (ocWith_pos _ _ _).2 (fun _ => rfl) k

/-- non-vacuity of C47 -/
example (n k : ℕ) := C47_absolute_partial (cfg := ocWith "theta" "abs" "grad") (v := halving) (w := halving)
  (G := fun k => [1 / 2 ^ k]) (H := fun k => [1 / 2 ^ k]) halving_inLoop (by simp [ocWith, JUST_T]) rfl rfl (ocWith_pos _ _ _).1
  (fun _ => exView_grad _ _) (fun _ => exView_grad _ _) n k

example (n k : ℕ) := C47_no_tolerance_partial (cfg := { defaultOC with tolTheta := 0, tolLambda := 0 }) le_rfl le_rfl halving
  halving n k

end examples
/-! ## C78: building a condition -/

/-- **C78** An optimality condition can be built with the order `'inf'` or a positive number (infinity included), and with nothing else: zero, negative
numbers, NaN and all other strings are refused with `AssertionError`.  The order is the one given. -/
theorem C78_condition_order (o : OrderArg) (tt tl : ℝ) (mon mode metric : PyStr) :
    ((o = .str "inf".toList ∨ o = .num .pinf) → mkCond o tt tl mon mode metric = .ok (⟨.pinf, tt, tl, mon, mode, metric⟩, freshOC)) ∧
    (∀ x, 0 < x → o = .num (.fin x) → mkCond o tt tl mon mode metric = .ok (⟨.fin x, tt, tl, mon, mode, metric⟩, freshOC)) ∧
    ((o ≠ .str "inf".toList ∧ o ≠ .num .pinf ∧ ∀ x, 0 < x → o ≠ .num (.fin x)) →
      mkCond o tt tl mon mode metric = .error .assertionError) := by
  refine ⟨?_, ?_, ?_⟩
  · rintro (rfl | rfl) <;> simp [mkCond, condOrder]
  · rintro x hx rfl
    simp [mkCond, condOrder, hx]
  · rintro ⟨h1, h2, h3⟩
    match o, h1, h2, h3 with
    | .str s, h1, _, _ =>
      have : s ≠ "inf".toList := fun h => h1 (by rw [h])
      simp only [mkCond, condOrder, if_neg this]
    | .num (.fin x), _, _, h3 =>
      have : ¬ 0 < x := fun h => h3 x h rfl
      simp only [mkCond, condOrder, if_neg this]
    | .num .pinf, _, h2, _ => exact absurd rfl h2
    | .num .ninf, _, _, _ => rfl
    | .num .nan, _, _, _ => rfl

/-- **C78** (violated) The other settings are not checked at construction: a condition with a misspelt monitoring is built, and it is its first call
that fails (so does training, after its first step). -/
theorem C78_condition_false (o : OrderArg) (x : XNum ℝ) (ho : condOrder o = .ok x) (mon : PyStr)
    (h : mon ∉ L_AND_T ++ L_OR_T ++ JUST_T ++ JUST_L) (v : ℕ → OCView) :
    ∃ cfg s, mkCond o (monitoring := mon) = .ok (cfg, s) ∧ ∀ k, ocResult cfg s v k = .error .valueError :=
  ⟨⟨x, 1 / 10 ^ 8, 1 / 10 ^ 8, mon, "rel".toList, "grad".toList⟩, freshOC, by simp only [mkCond, ho], fun k => C45_unknown h _ v k⟩

example := C78_condition_false (.num (.fin 2)) (.fin 2) (by simp [condOrder]) "thetas".toList (by decide)
example : mkCond (.str "1".toList) = .error .assertionError :=
  (C78_condition_order _ _ _ _ _ _).2.2 ⟨by simp, by simp, by simp⟩

end Skwdro
