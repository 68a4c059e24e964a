import Verif.Lemmas.Solve
import Mathlib.Tactic.Linarith
import Mathlib.Tactic.NormNum

/-! # C48–C52, C72–C73: training loops -/

namespace Skwdro
open Spec

variable {W : Type} {env : Env W}

section C48

theorem _root_.Skwdro.Spec.TrainingRun.length_le {i n : ℕ} {vs : List (XNum ℝ)} {as : List (ℕ × Bool)}
    (h : TrainingRun i n vs as) : vs.length ≤ n := by
  induction h with
  | exhausted => simp
  | diverged => simp
  | satisfied => simp
  | next => simp; omega

/-- **C48** (pre-sampled) A completed fit: `A` is the history before the initialisation of the multiplier, `B` the one after.
Pre-training made exactly the requested number of steps.  The losses returned are those recorded during training, one per
training step, and training followed the documented stopping rule over at most `train` iterations. -/
theorem C48_presampled {p n : ℤ} {s s' : St W} {L : List (XNum ℝ)} (h : optimPre env p n s = (.ok L, s')) :
    ∃ A B, s'.tr = s.tr ++ A ++ [.guess] ++ B ∧ guesses A = 0 ∧ guesses B = 0 ∧ steps A = p.toNat ∧ records A = [] ∧
      asks A = [] ∧ L = records B ∧ steps B = L.length ∧ L.length ≤ n.toNat ∧ TrainingRun 0 n.toNat L (asks B) := by
  obtain ⟨A, B, h1, h2, h3, h4, h5, h6, h7, h8, h9, h10, h11⟩ := optimPre_spec h
  obtain ⟨k1, k2, k3, k4, k5, k6⟩ := h11 L rfl
  rcases h1 with ⟨-, -, e, he⟩ | ⟨h1, -⟩
  · simp at he
  · subst k4
    exact ⟨A, B, h1, h4, h5, k3, h8, h9, rfl, k5, k6.length_le, k6⟩

/-- **C48** (post-sampled) A completed fit: the same, except that the losses of the pre-training steps are recorded and returned
too, again one per step. -/
theorem C48_postsampled {p n : ℤ} {s s' : St W} {L : List (XNum ℝ)} (h : optimPost env p n s = (.ok L, s')) :
    ∃ A B, s'.tr = s.tr ++ A ++ [.guess] ++ B ∧ guesses A = 0 ∧ guesses B = 0 ∧ steps A = p.toNat ∧
      (records A).length = p.toNat ∧ asks A = [] ∧ L = records A ++ records B ∧ steps A + steps B = L.length ∧
      (records B).length ≤ n.toNat ∧ TrainingRun 0 n.toNat (records B) (asks B) := by
  obtain ⟨A, B, h1, h2, h3, h4, h5, h6, h7, h8, h9, h10, h11⟩ := optimPost_spec h
  obtain ⟨k1, k2, k3, k4, k5, k6, k7⟩ := h11 L rfl
  rcases h1 with ⟨-, -, e, he⟩ | ⟨h1, -⟩
  · simp at he
  · exact ⟨A, B, h1, h4, h5, k3, k4, h8, k5, by rw [k5, k3, k6]; simp [k4], k7.length_le, k7⟩

/-- **C48** Whatever happens, exceptions included, no fit makes more optimizer steps than requested, nor records more losses
than steps. -/
theorem C48_never_too_long (pre : Bool) {p n : ℤ} {s s' : St W} {r}
    (h : (if pre then optimPre env p n else optimPost env p n) s = (r, s')) :
    ∃ T, s'.tr = s.tr ++ T ∧ steps T ≤ p.toNat + n.toNat ∧ (records T).length ≤ steps T := by
  cases pre with
  | true =>
    obtain ⟨A, B, h1, h2, h3, h4, h5, h6, h7, h8, h9, h10, -⟩ := optimPre_spec h
    rcases h1 with ⟨h1, rfl, -⟩ | ⟨h1, -⟩
    · exact ⟨A, h1, by omega, by simp [h8]⟩
    · exact ⟨A ++ [.guess] ++ B, by rw [h1]; simp, by simp; omega, by simp [h8]; omega⟩
  | false =>
    obtain ⟨A, B, h1, h2, h3, h4, h5, h6, h7, h8, h9, h10, -⟩ := optimPost_spec h
    rcases h1 with ⟨h1, rfl, -⟩ | ⟨h1, -⟩
    · exact ⟨A, h1, by omega, h9⟩
    · exact ⟨A ++ [.guess] ++ B, by rw [h1]; simp, by simp; omega, by simp; omega⟩

/-- **C48** reading of the stopping rule: only the last recorded loss can be NaN or coincide with a satisfied condition, and
every other iteration asked the condition once, with its own number; if fewer than `n` iterations were made, the last one was
NaN or satisfied the condition. -/
theorem C48_stopping_rule {i n : ℕ} {vs : List (XNum ℝ)} {as : List (ℕ × Bool)} (h : TrainingRun i n vs as) :
    (∀ j, j + 1 < vs.length → vs[j]? ≠ some .nan ∧ as[j]? = some (i + j, false)) ∧
    (vs.length < n → vs.getLast? = some .nan ∨ as.getLast? = some (i + vs.length - 1, true)) ∧
    (∀ j, vs[j]? = some .nan → j + 1 = vs.length) ∧ (∀ j, (j, true) ∈ as → j + 1 = i + vs.length) := by
  induction h with
  | exhausted i => simp
  | diverged i n v hv =>
    subst hv
    refine ⟨by simp, by simp, fun j hj => ?_, by simp⟩
    cases j with
    | zero => rfl
    | succ j => simp at hj
  | satisfied i n v hv =>
    refine ⟨by simp, by simp, fun j hj => ?_, by simp⟩
    cases j with
    | zero => rfl
    | succ j => simp at hj
  | next i n v vs as hv hr ih =>
    obtain ⟨h1, h2, h3, h4⟩ := ih
    refine ⟨?_, ?_, ?_, ?_⟩
    · intro j hj
      cases j with
      | zero => simpa using hv
      | succ j =>
        simp only [List.length_cons] at hj
        have := h1 j (by omega)
        simp only [List.getElem?_cons_succ]
        refine ⟨this.1, ?_⟩
        rw [this.2]; congr 2; omega
    · intro hl
      simp only [List.length_cons] at hl
      rcases vs with _ | ⟨w, ws⟩
      · cases hr; simp at hl
      · rcases h2 (by omega) with h | h
        · left
          rw [List.getLast?_cons_cons, h]
        · right
          rcases as with _ | ⟨a, as⟩
          · simp at h
          · rw [List.getLast?_cons_cons, h]
            simp; omega
    · intro j hj
      cases j with
      | zero => simp [hv] at hj
      | succ j =>
        simp only [List.getElem?_cons_succ] at hj
        have := h3 j hj
        simp; omega
    · intro j hj
      simp only [List.mem_cons, Prod.mk.injEq, Bool.true_eq_false, and_false, false_or] at hj
      have := h4 j hj
      simp; omega

end C48

section C49

/-- **C49** (pre-sampled) Every evaluation before the initialisation of the multiplier is the ordinary loss, every one after is
the robust loss, whatever the optimizer does with the closure, also when the fit is interrupted. -/
theorem C49_presampled {p n : ℤ} {s s' : St W} {r} (h : optimPre env p n s = (r, s')) :
    ∃ A B, (s'.tr = s.tr ++ A ∧ B = [] ∨ s'.tr = s.tr ++ A ++ [.guess] ++ B ∧ steps A = p.toNat) ∧ AllErm true A ∧
      AllErm false B ∧ guesses A = 0 ∧ guesses B = 0 := by
  obtain ⟨A, B, h1, h2, h3, h4, h5, -⟩ := optimPre_spec h
  refine ⟨A, B, ?_, h2, h3, h4, h5⟩
  rcases h1 with ⟨h1, rfl, -⟩ | h1
  · exact Or.inl ⟨h1, rfl⟩
  · exact Or.inr h1

/-- **C49** (violated, post-sampled) No evaluation is ever the ordinary loss, pre-training included: with a positive number of
pre-training steps, a completed fit evaluates the robust loss before the multiplier is initialised. -/
theorem C49_postsampled_false {p n : ℤ} {s s' : St W} {L} (hp : 0 < p) (h : optimPost env p n s = (.ok L, s')) :
    ∃ A B, s'.tr = s.tr ++ A ++ [.guess] ++ B ∧ steps A = p.toNat ∧ AllErm false A ∧ AllErm false B ∧
      ∃ imp training v, Ev.eval false imp training true v ∈ A := by
  obtain ⟨A, B, h1, h2, h3, h4, h5, h6, h7, h8, h9, h10, h11⟩ := optimPost_spec h
  rcases h1 with ⟨-, -, e, he⟩ | ⟨h1, hA⟩
  · simp at he
  refine ⟨A, B, h1, hA, h2, h3, ?_⟩
  -- the first pre-training step evaluates the loss
  unfold optimPost at h
  have hb := M.bind_inv h; clear h; rcases hb with ⟨u, s1, k1, h⟩ | ⟨e, k1, hr⟩
  swap
  · simp at hr
  obtain ⟨-, rfl⟩ := M.modify_inv k1
  have hb := M.bind_inv h; clear h; rcases hb with ⟨L0, s2, k2, h⟩ | ⟨e, k2, hr⟩
  swap
  · simp at hr
  obtain ⟨q, hq⟩ : ∃ q, p.toNat = q + 1 := ⟨p.toNat - 1, by omega⟩
  rw [hq, postPretrain] at k2
  have hb := M.bind_inv k2; rcases hb with ⟨v, s3, k3, k4⟩ | ⟨e, k3, hr⟩
  swap
  · simp at hr
  obtain ⟨-, T, t1, -, -, -, -, -, t7⟩ := postStep_spec k3
  have t7 := t7 v rfl
  simp only at t1 t7
  have hb := M.bind_inv k4; rcases hb with ⟨w, s4, k5, k6⟩ | ⟨e, k5, hr⟩
  swap
  · simp at hr
  obtain ⟨-, rfl⟩ := M.modify_inv k5
  obtain ⟨-, U, u1, -⟩ := postPretrain_spec _ _ k6
  simp only at u1
  -- the rest of the run only appends, and the event lies before the only guess
  have hpre : ∃ V, s'.tr = s2.tr ++ V := by
    have hb := M.bind_inv h; rcases hb with ⟨u, s5, k7, h'⟩ | ⟨e, k7, hr⟩
    swap
    · simp at hr
    obtain ⟨⟨g1, -, -⟩, hg⟩ := guessDual_spec k7
    have hb := M.bind_inv h'; rcases hb with ⟨er, s6, k8, h''⟩ | ⟨e, k8, hr⟩
    swap
    · simp at hr
    obtain ⟨her, rfl⟩ := M.read_inv k8
    have hs2 : s2.erm = false := by
      obtain ⟨⟨a, -, -⟩, -⟩ := postPretrain_spec (env := env) (q + 1) [] (s := { s with erm := false }) (r := .ok L0) (s' := s2)
        (by rw [postPretrain]; exact k2)
      exact a
    simp only [Except.ok.injEq] at her
    rw [g1, hs2] at her
    subst her
    simp only [Bool.and_false, Bool.false_eq_true, if_false] at h''
    have hb := M.bind_inv h''; rcases hb with ⟨u, s7, k9, h3'⟩ | ⟨e, k9, hr⟩
    swap
    · simp at hr
    obtain ⟨-, rfl⟩ := M.modify_inv k9
    rw [List.range_eq_range'] at h3'
    obtain ⟨-, V, v1, -⟩ := trainLoop_spec postBody_spec n.toNat 0 L0 h3' rfl
    simp only at v1
    rcases hg with ⟨-, hg⟩ | ⟨⟨e, he⟩, -⟩
    · exact ⟨[.guess] ++ V, by rw [v1, hg]; simp⟩
    · simp at he
  obtain ⟨V, hV⟩ := hpre
  rw [hV, u1, t1, t7] at h1
  simp only [List.append_assoc, List.append_cancel_left_eq] at h1
  have hA0 : A ≠ [] := by
    rintro rfl
    simp at hA; omega
  obtain ⟨a, A', rfl⟩ := List.exists_cons_of_ne_nil hA0
  simp only [List.cons_append, List.cons.injEq] at h1
  exact ⟨_, _, _, by rw [← h1.1]; exact List.mem_cons_self⟩

/-- **C49** (what holds, post-sampled) Training after the initialisation of the multiplier is on the robust loss.  (Missing: the
pre-training.) -/
theorem C49_postsampled_partial {p n : ℤ} {s s' : St W} {L} (h : optimPost env p n s = (.ok L, s')) :
    ∃ A B, s'.tr = s.tr ++ A ++ [.guess] ++ B ∧ steps A = p.toNat ∧ AllErm false B ∧ guesses A = 0 ∧ guesses B = 0 := by
  obtain ⟨A, B, h1, h2, h3, h4, h5, -⟩ := optimPost_spec h
  rcases h1 with ⟨-, -, e, he⟩ | ⟨h1, hA⟩
  · simp at he
  exact ⟨A, B, h1, hA, h3, h4, h5⟩

end C49

section C50

/-- **C50** After every completed fit, the importance-sampling flag has the value it had before, in both regimes, for both
metrics and whatever stopped the fit; and the loss is in robust mode. -/
theorem C50_flag_kept (pre : Bool) {p n : ℤ} {s s' : St W} {L}
    (h : (if pre then optimPre env p n else optimPost env p n) s = (.ok L, s')) : s'.imp = s.imp ∧ s'.erm = false := by
  cases pre with
  | true =>
    obtain ⟨A, B, h1, h2, h3, h4, h5, h6, h7, h8, h9, h10, h11⟩ := optimPre_spec h
    exact ⟨(h11 L rfl).2.1, (h11 L rfl).1⟩
  | false =>
    obtain ⟨A, B, h1, h2, h3, h4, h5, h6, h7, h8, h9, h10, h11⟩ := optimPost_spec h
    exact ⟨(h11 L rfl).2.1, (h11 L rfl).1⟩

/-- evaluation in the pre-sampled training loop: importance sampling is used for the recorded loss exactly when the optimality
condition is on gradients and the user enabled it -/
theorem C50_recorded_evaluation {s s' : St W} {v} (h : preEval env s = (.ok v, s')) (hs : s.erm = false) :
    s'.imp = s.imp ∧ ∃ t, s'.tr = s.tr ++ [.eval false (env.gradMetric && s.imp) t env.gradMetric v] := by
  obtain ⟨-, T, t1, -, -, -, -, -, t7⟩ := preEval_spec h hs
  obtain ⟨t7, t8⟩ := t7 v rfl
  exact ⟨t7, _, by rw [t1, t8]⟩

end C50

section C72

/-- **C72** (violated) A pre-sampled fit interrupted while pre-training leaves the loss in ordinary (ERM) mode: any optimizer
that first calls the closure, any loss that raises. -/
theorem C72_pretraining_false {p n : ℤ} (s : St W) (e : PyErr) (hp : 0 < p) (hz : ∀ w, (env.genZetas w).1 = .ok ())
    (hprog : ∀ w, ∃ next, env.prog w = .eval next) (hf : ∀ a b c w, (env.forward a b c w).1 = .error e) :
    (optimPre env p n s).1 = .error e ∧ (optimPre env p n s).2.erm = true := by
  obtain ⟨q, hq⟩ : ∃ q, p.toNat = q + 1 := ⟨p.toNat - 1, by omega⟩
  have hc : ∀ s : St W, ∃ w, closure env true s = (.error e, { s with w := w }) := by
    intro s
    refine ⟨(env.forward s.erm s.imp s.training (env.zeroGrad s.w)).2, ?_⟩
    simp only [closure, if_true, M.bind_def, M.modify, fwd, M.read, M.call, hf]
  have hs : ∀ s : St W, ∃ w, stepC env s = (.error e, { s with w := w }) := by
    intro s
    obtain ⟨next, hn⟩ := hprog s.w
    obtain ⟨w, hw⟩ := hc s
    refine ⟨w, ?_⟩
    simp only [stepC, M.bind_def, M.read, hn, runProg, hw]
  obtain ⟨w, hw⟩ := hs { s with w := (env.genZetas s.w).2, erm := true }
  have : optimPre env p n s = (.error e, { s with w := w, erm := true }) := by
    simp only [optimPre, M.bind_def, M.call, hz, M.modify, hq, repeatM, hw]
  rw [this]
  exact ⟨rfl, rfl⟩

/-- **C72** (violated) A pre-sampled training monitored on parameters, interrupted while the loss of an iteration is evaluated,
leaves importance sampling off although the user had it on. -/
theorem C72_importance_false {n : ℤ} (s : St W) (e : PyErr) (hn : 0 < n) (hi : s.imp = true)
    (hz : ∀ w, (env.genZetas w).1 = .ok ()) (hd : ∀ w, (env.initDual w).1 = .ok ()) (hr : env.resetLbd = none)
    (hm : env.gradMetric = false) (hprog : ∀ w, env.prog w = .done) (hf : ∀ a b c w, (env.forward a b c w).1 = .error e) :
    (optimPre env 0 n s).1 = .error e ∧ (optimPre env 0 n s).2.imp ≠ s.imp := by
  obtain ⟨q, hq⟩ : ∃ q, n.toNat = q + 1 := ⟨n.toNat - 1, by omega⟩
  simp only [optimPre, M.bind_def, M.call, hz, M.modify, Int.toNat_zero, repeatM, M.pure_def, guessDual, hd, M.emit, resetOpt, hr,
    hq, List.range_eq_range', List.range'_succ, trainLoop, preBody, stepC, M.read, hprog, runProg, preEval, hm,
    Bool.false_eq_true, if_false, closure, lossEval_eq, fwd, hf, hi]
  exact ⟨trivial, by simp⟩

/-- **C72** (what holds) Post-sampled fits, interrupted or not, keep the importance-sampling flag and end in robust mode.
(Missing: pre-sampled fits.) -/
theorem C72_postsampled_partial {p n : ℤ} {s s' : St W} {r} (h : optimPost env p n s = (r, s')) :
    s'.erm = false ∧ s'.imp = s.imp ∧ s'.training = s.training := by
  have hfin : ∀ {i L v} {s s' : St W} {r}, finish env i L v s = (r, s') → SameFlags s s' := fun h => (finish_spec h).1
  have hbody : ∀ {i L} {s s' : St W} {r}, postBody env i L s = (r, s') → SameFlags s s' := by
    intro i L s s' r h
    unfold postBody at h
    have hb := M.bind_inv h; clear h; rcases hb with ⟨v, s1, h1, h⟩ | ⟨e, h1, hr⟩
    · obtain ⟨f1, f2, f3⟩ := (postStep_spec h1).1
      obtain ⟨g1, g2, g3⟩ := hfin h
      exact ⟨g1.trans f1, g2.trans f2, g3.trans f3⟩
    · exact (postStep_spec h1).1
  have hloop : ∀ (is : List ℕ) {L} {s s' : St W} {r}, trainLoop (postBody env) is L s = (r, s') → SameFlags s s' := by
    intro is
    induction is with
    | nil =>
      intro L s s' r h
      obtain ⟨-, rfl⟩ := M.pure_inv h
      exact ⟨rfl, rfl, rfl⟩
    | cons i is ih =>
      intro L s s' r h
      rw [trainLoop] at h
      have hb := M.bind_inv h; clear h; rcases hb with ⟨⟨L1, b⟩, s1, h1, h⟩ | ⟨e, h1, hr⟩
      · obtain ⟨f1, f2, f3⟩ := hbody h1
        simp only at h
        split at h
        · obtain ⟨-, rfl⟩ := M.pure_inv h
          exact ⟨f1, f2, f3⟩
        · obtain ⟨g1, g2, g3⟩ := ih h
          exact ⟨g1.trans f1, g2.trans f2, g3.trans f3⟩
      · exact hbody h1
  unfold optimPost at h
  have hb := M.bind_inv h; clear h; rcases hb with ⟨u, s1, h1, h⟩ | ⟨e, h1, hr⟩
  swap
  · exact absurd (M.modify_inv h1).1 (by simp)
  obtain ⟨-, rfl⟩ := M.modify_inv h1
  have hb := M.bind_inv h; clear h; rcases hb with ⟨L0, s1, h1, h⟩ | ⟨e, h1, hr⟩
  swap
  · exact (postPretrain_spec _ _ h1).1
  obtain ⟨f1, f2, f3⟩ := (postPretrain_spec _ _ h1).1
  simp only at f1 f2 f3
  have hb := M.bind_inv h; clear h; rcases hb with ⟨u, s2, h2, h⟩ | ⟨e, h2, hr⟩
  swap
  · obtain ⟨g1, g2, g3⟩ := (guessDual_spec h2).1
    exact ⟨g1.trans f1, g2.trans f2, g3.trans f3⟩
  obtain ⟨g1, g2, g3⟩ := (guessDual_spec h2).1
  have hb := M.bind_inv h; clear h; rcases hb with ⟨er, s3, h3, h⟩ | ⟨e, h3, hr⟩
  swap
  · exact absurd (M.read_inv h3).1 (by simp)
  obtain ⟨her, rfl⟩ := M.read_inv h3
  simp only [Except.ok.injEq] at her
  rw [g1, f1] at her
  subst her
  simp only [Bool.and_false, Bool.false_eq_true, if_false] at h
  have hb := M.bind_inv h; clear h; rcases hb with ⟨u, s5, h5, h⟩ | ⟨e, h5, hr⟩
  swap
  · exact absurd (M.modify_inv h5).1 (by simp)
  obtain ⟨-, rfl⟩ := M.modify_inv h5
  obtain ⟨k1, k2, k3⟩ := hloop _ h
  exact ⟨k1, k2.trans (g2.trans f2), k3.trans (g3.trans f3)⟩

end C72

section C73

/-- shape of the end of a loop, from the shape of one iteration -/
theorem trainLoop_last {body : ℕ → List (XNum ℝ) → M W (List (XNum ℝ) × Bool)} {Q : List Ev → XNum ℝ → Prop}
    (hbody : ∀ i L s s' L' b, body i L s = (.ok (L', b), s') → s.erm = false →
      s'.erm = false ∧ ∃ T v, s'.tr = s.tr ++ T ∧ L' = L ++ [v] ∧ Q T v) (is : List ℕ) :
    ∀ (L : List (XNum ℝ)) {s s' : St W} {L'}, is ≠ [] → trainLoop body is L s = (.ok L', s') → s.erm = false →
      ∃ U T v, s'.tr = s.tr ++ U ++ T ∧ L'.getLast? = some v ∧ Q T v := by
  induction is with
  | nil => intro L s s' L' h; exact absurd rfl h
  | cons i is ih =>
    intro L s s' L' _ h hs
    rw [trainLoop] at h
    have hb := M.bind_inv h; clear h; rcases hb with ⟨⟨L1, b⟩, s1, h1, h⟩ | ⟨e, h1, hr⟩
    swap
    · simp at hr
    obtain ⟨p0, T, v, p1, p2, p3⟩ := hbody _ _ _ _ _ _ h1 hs
    simp only at h
    split at h
    · obtain ⟨hL, rfl⟩ := M.pure_inv h
      simp only [Except.ok.injEq] at hL
      exact ⟨[], T, v, by simp [p1], by rw [hL, p2]; simp, p3⟩
    · by_cases hi : is = []
      · subst hi
        obtain ⟨hL, rfl⟩ := M.pure_inv h
        simp only [Except.ok.injEq] at hL
        exact ⟨[], T, v, by simp [p1], by rw [hL, p2]; simp, p3⟩
      · obtain ⟨U, T', v', q1, q2, q3⟩ := ih L1 hi h p0
        exact ⟨T ++ U, T', v', by rw [q1, p1]; simp, q2, q3⟩

theorem finish_shape {i : ℕ} {L L' : List (XNum ℝ)} {v : XNum ℝ} {b} {s s' : St W} (h : finish env i L v s = (.ok (L', b), s')) :
    L' = L ++ [v] ∧ ∃ T, s'.tr = s.tr ++ .record v :: T ∧ (T = [] ∨ T = [.ask i b]) := by
  unfold finish at h
  have hb := M.bind_inv h; clear h; rcases hb with ⟨u, s1, h1, h⟩ | ⟨e, h1, hr⟩
  swap
  · simp at hr
  obtain ⟨-, rfl⟩ := M.modify_inv h1
  split at h
  · obtain ⟨hL, rfl⟩ := M.pure_inv h
    simp only [Except.ok.injEq, Prod.mk.injEq] at hL
    exact ⟨hL.1, [], rfl, Or.inl rfl⟩
  · have hb := M.bind_inv h; clear h; rcases hb with ⟨b', s1, h1, h⟩ | ⟨e, h1, hr⟩
    swap
    · simp at hr
    obtain ⟨-, rfl⟩ := M.call_inv h1
    have hb := M.bind_inv h; clear h; rcases hb with ⟨u, s1, h1, h⟩ | ⟨e, h1, hr⟩
    swap
    · simp at hr
    obtain ⟨-, rfl⟩ := M.modify_inv h1
    obtain ⟨hL, rfl⟩ := M.pure_inv h
    simp only [Except.ok.injEq, Prod.mk.injEq] at hL
    exact ⟨hL.1, [.ask i b], by simp [hL.2], Or.inr rfl⟩

/-- **C73** (pre-sampled) The last loss, reported as the robust loss, was evaluated in robust mode after the last optimizer
step: nothing but its recording and the optimality condition happened since. -/
theorem C73_presampled {p n : ℤ} {s s' : St W} {L} (hn : 0 < n) (h : optimPre env p n s = (.ok L, s')) :
    ∃ v A B imp training grad, L.getLast? = some v ∧ s'.tr = A ++ [.step, .eval false imp training grad v] ++ B ∧
      (B = [.record v] ∨ ∃ i b, B = [.record v, .ask i b]) := by
  have hbody : ∀ i L s s' L' b, preBody env i L s = (.ok (L', b), s') → s.erm = false →
      s'.erm = false ∧ ∃ T v, s'.tr = s.tr ++ T ∧ L' = L ++ [v] ∧ (fun T v => ∃ A B imp training grad,
        T = A ++ [.step, .eval false imp training grad v] ++ B ∧
        (B = [.record v] ∨ ∃ i b, B = [.record v, .ask i b])) T v := by
    intro i L s s' L' b h hs
    refine ⟨(preBody_spec i L s s' _ h hs).1, ?_⟩
    unfold preBody at h
    have hb := M.bind_inv h; clear h; rcases hb with ⟨u, s1, h1, h⟩ | ⟨e, h1, hr⟩
    swap
    · simp at hr
    obtain ⟨⟨f1, -, -⟩, T, hT, hc⟩ := stepC_spec h1
    rcases hc with ⟨-, ht⟩ | ⟨⟨e, he⟩, -⟩
    swap
    · simp at he
    rw [hs] at f1
    have hb := M.bind_inv h; clear h; rcases hb with ⟨v, s2, h2, h⟩ | ⟨e, h2, hr⟩
    swap
    · simp at hr
    obtain ⟨-, U, u1, -, -, -, -, -, u7⟩ := preEval_spec h2 f1
    have u7 := (u7 v rfl).2
    obtain ⟨w1, V, w2, w3⟩ := finish_shape h
    refine ⟨T ++ [.step] ++ U ++ .record v :: V, v, by rw [w2, u1, ht]; simp, w1, T, .record v :: V, env.gradMetric && s1.imp,
      env.gradMetric && s1.training, env.gradMetric, by rw [u7]; simp, ?_⟩
    rcases w3 with rfl | rfl
    · exact Or.inl rfl
    · exact Or.inr ⟨_, _, rfl⟩
  have hr : List.range n.toNat ≠ [] := by simp; omega
  -- reach the training loop
  unfold optimPre at h
  have hb := M.bind_inv h; clear h; rcases hb with ⟨u, s1, h1, h⟩ | ⟨e, h1, hr⟩
  swap
  · simp at hr
  have hb := M.bind_inv h; clear h; rcases hb with ⟨u, s1, h1, h⟩ | ⟨e, h1, hr⟩
  swap
  · simp at hr
  have hb := M.bind_inv h; clear h; rcases hb with ⟨u, s1, h1, h⟩ | ⟨e, h1, hr⟩
  swap
  · simp at hr
  have hb := M.bind_inv h; clear h; rcases hb with ⟨u, s1, h1, h⟩ | ⟨e, h1, hr⟩
  swap
  · simp at hr
  have hb := M.bind_inv h; clear h; rcases hb with ⟨u, s2, h2, h⟩ | ⟨e, h1, hr⟩
  swap
  · simp at hr
  obtain ⟨-, rfl⟩ := M.modify_inv h2
  have hb := M.bind_inv h; clear h; rcases hb with ⟨u, s3, h3, h⟩ | ⟨e, h1, hr⟩
  swap
  · simp at hr
  obtain ⟨⟨k1, -, -⟩, -⟩ := resetOpt_spec h3
  obtain ⟨U, T, v, q1, q2, A, B, i, t, g, q3, q4⟩ := trainLoop_last hbody _ [] hr h k1
  exact ⟨v, s3.tr ++ U ++ A, B, i, t, g, q2, by rw [q1, q3]; simp, q4⟩

/-- **C73** (violated, post-sampled) The last loss, reported as the robust loss, was evaluated *before* the last optimizer step:
the returned parameters are not those it is the loss of. -/
theorem C73_postsampled_false {p n : ℤ} {s s' : St W} {L} (hn : 0 < n) (h : optimPost env p n s = (.ok L, s')) :
    ∃ v A B imp training grad, L.getLast? = some v ∧ s'.tr = A ++ [.eval false imp training grad v, .step] ++ B ∧
      (B = [.record v] ∨ ∃ i b, B = [.record v, .ask i b]) := by
  have hbody : ∀ i L s s' L' b, postBody env i L s = (.ok (L', b), s') → s.erm = false →
      s'.erm = false ∧ ∃ T v, s'.tr = s.tr ++ T ∧ L' = L ++ [v] ∧ (fun T v => ∃ A B imp training grad,
        T = A ++ [.eval false imp training grad v, .step] ++ B ∧
        (B = [.record v] ∨ ∃ i b, B = [.record v, .ask i b])) T v := by
    intro i L s s' L' b h hs
    refine ⟨(postBody_spec i L s s' _ h hs).1, ?_⟩
    unfold postBody at h
    have hb := M.bind_inv h; clear h; rcases hb with ⟨v, s1, h1, h⟩ | ⟨e, h1, hr⟩
    swap
    · simp at hr
    obtain ⟨-, T, t1, -, -, -, -, -, t7⟩ := postStep_spec h1
    have t7 := t7 v rfl
    rw [hs] at t7
    obtain ⟨w1, V, w2, w3⟩ := finish_shape h
    refine ⟨T ++ .record v :: V, v, by rw [w2, t1]; simp, w1, [], .record v :: V, s.imp,
      s.training, true, by rw [t7]; simp, ?_⟩
    rcases w3 with rfl | rfl
    · exact Or.inl rfl
    · exact Or.inr ⟨_, _, rfl⟩
  have hr : List.range n.toNat ≠ [] := by simp; omega
  unfold optimPost at h
  have hb := M.bind_inv h; clear h; rcases hb with ⟨u, s1, h1, h⟩ | ⟨e, h1, hr⟩
  swap
  · simp at hr
  obtain ⟨-, rfl⟩ := M.modify_inv h1
  have hb := M.bind_inv h; clear h; rcases hb with ⟨L0, s2, h2, h⟩ | ⟨e, h1, hr⟩
  swap
  · simp at hr
  obtain ⟨⟨f1, -, -⟩, -⟩ := postPretrain_spec _ _ h2
  have hb := M.bind_inv h; clear h; rcases hb with ⟨u, s3, h3, h⟩ | ⟨e, h1, hr⟩
  swap
  · simp at hr
  obtain ⟨⟨g1, -, -⟩, -⟩ := guessDual_spec h3
  have hb := M.bind_inv h; clear h; rcases hb with ⟨er, s4, h4, h⟩ | ⟨e, h1, hr⟩
  swap
  · simp at hr
  obtain ⟨her, rfl⟩ := M.read_inv h4
  simp only [Except.ok.injEq] at her
  rw [g1, f1] at her
  subst her
  simp only [Bool.and_false, Bool.false_eq_true, if_false] at h
  have hb := M.bind_inv h; clear h; rcases hb with ⟨u, s5, h5, h⟩ | ⟨e, h1, hr⟩
  swap
  · simp at hr
  obtain ⟨-, rfl⟩ := M.modify_inv h5
  obtain ⟨U, T, v, q1, q2, A, B, i, t, g, q3, q4⟩ := trainLoop_last hbody _ L0 hr h rfl
  exact ⟨v, s4.tr ++ U ++ A, B, i, t, g, q2, by rw [q1, q3]; simp, q4⟩

end C73

section C52

/-- rounding functions considered: monotone, exact on integers -/
def IsRounding (fl : ℝ → ℝ) : Prop := Monotone fl ∧ ∀ n : ℤ, fl n = n

theorem split03_mem : 0 ≤ split03 ∧ split03 ≤ 1 := by unfold split03; constructor <;> norm_num

/-- **C52** A number `n >= 0` of iterations is split into `0 <= pretrain <= train = n`, for any split in `[0, 1]` and any monotone
rounding that is exact on integers; training then makes `n` iterations. -/
theorem C52_integer {fl : ℝ → ℝ} (hfl : IsRounding fl) {n : ℤ} (hn : 0 ≤ n) {split : ℝ} (h0 : 0 ≤ split) (h1 : split ≤ 1) :
    ∃ p, interpretSteps fl split (.one n) = .ok (p, n) ∧ 0 ≤ p ∧ p ≤ n ∧ (Steps.one n).iterations = n := by
  have hn' : (0 : ℝ) ≤ n := by exact_mod_cast hn
  have hlo : 0 ≤ fl (n * split) := by
    have := hfl.1 (mul_nonneg hn' h0)
    rwa [show fl 0 = 0 by simpa using hfl.2 0] at this
  have hhi : fl (n * split) ≤ n := by
    have := hfl.1 (mul_le_of_le_one_right hn' h1)
    rwa [hfl.2 n] at this
  refine ⟨⌊fl (n * split)⌋, ?_, Int.floor_nonneg.2 hlo, ?_, rfl⟩
  · simp only [interpretSteps, if_pos (And.intro h0 h1), pyTrunc, if_pos hlo]
  · have := Int.floor_le_floor hhi
    rwa [Int.floor_intCast] at this

/-- **C52** With the default split and exact arithmetic, pre-training is within one iteration of 30% of training. -/
theorem C52_default_exact {n : ℤ} (hn : 0 ≤ n) (hs : n ≤ 10 ^ 15) :
    ∃ p, interpretSteps id split03 (.one n) = .ok (p, n) ∧ (3 * n - 10) / 10 ≤ p ∧ 10 * p ≤ 3 * n := by
  have hn' : (0 : ℝ) ≤ n := by exact_mod_cast hn
  have hs' : (n : ℝ) ≤ 10 ^ 15 := by exact_mod_cast hs
  have hlo : 0 ≤ (n : ℝ) * split03 := mul_nonneg hn' split03_mem.1
  refine ⟨⌊(n : ℝ) * split03⌋, ?_, ?_, ?_⟩
  · simp only [interpretSteps, if_pos split03_mem, pyTrunc, id, if_pos hlo]
  · apply Int.le_floor.2
    have h2 : ((3 * n - 10) / 10 : ℤ) * 10 ≤ 3 * n - 10 := Int.ediv_mul_le _ (by norm_num)
    have h3 : (((3 * n - 10) / 10 : ℤ) : ℝ) * 10 ≤ 3 * n - 10 := by exact_mod_cast h2
    unfold split03
    nlinarith
  · have h2 : ((⌊(n : ℝ) * split03⌋ : ℤ) : ℝ) ≤ n * split03 := Int.floor_le _
    have h3 : (n : ℝ) * split03 ≤ n * (3 / 10) := by
      apply mul_le_mul_of_nonneg_left _ hn'
      unfold split03; norm_num
    have : (10 * (⌊(n : ℝ) * split03⌋ : ℤ) : ℝ) ≤ 3 * n := by linarith
    exact_mod_cast this

/-- **C52** Pairs are kept. -/
theorem C52_pair (fl : ℝ → ℝ) (split : ℝ) (p n : ℤ) :
    interpretSteps fl split (.pair p n) = .ok (p, n) ∧ (Steps.pair p n).iterations = n := ⟨rfl, rfl⟩

/-- **C52** A split outside `[0, 1]` is refused for integers. -/
theorem C52_bad_split (fl : ℝ → ℝ) {split : ℝ} (h : split < 0 ∨ 1 < split) (n : ℤ) :
    interpretSteps fl split (.one n) = .error .assertionError := by
  simp only [interpretSteps]
  rw [if_neg]
  rintro ⟨h1, h2⟩
  rcases h with h | h <;> linarith

end C52

section C51

/-- a program that returns from every state -/
def Succeeds {α : Type} (m : M W α) : Prop := ∀ s, ∃ a s', m s = (.ok a, s')

theorem Succeeds.bind {α β : Type} {m : M W α} {f : α → M W β} (hm : Succeeds m) (hf : ∀ a, Succeeds (f a)) :
    Succeeds (m >>= f) := by
  intro s
  obtain ⟨a, s1, h⟩ := hm s
  obtain ⟨b, s2, h2⟩ := hf a s1
  exact ⟨b, s2, by rw [M.bind_def, h]; exact h2⟩
theorem Succeeds.pure {α : Type} (a : α) : Succeeds (W := W) (Pure.pure a) := fun s => ⟨a, s, rfl⟩
theorem Succeeds.read {α : Type} (f : St W → α) : Succeeds (M.read f) := fun s => ⟨_, s, rfl⟩
theorem Succeeds.modify (f : St W → St W) : Succeeds (M.modify f) := fun _ => ⟨(), _, rfl⟩
theorem Succeeds.emit (e : Ev) : Succeeds (W := W) (M.emit e) := fun _ => ⟨(), _, rfl⟩
theorem Succeeds.call {α : Type} {f : W → Except PyErr α × W} (h : ∀ w, ∃ a, (f w).1 = .ok a) : Succeeds (M.call f) := by
  intro s
  obtain ⟨a, ha⟩ := h s.w
  exact ⟨a, _, by rw [M.call, ha]⟩

/-- an optimizer interaction that never raises -/
inductive NoFail : OptProg W → Prop
  | done : NoFail .done
  | act (f next) : (∀ w, NoFail (next w)) → NoFail (.act f next)
  | eval (next) : (∀ v, NoFail (next v)) → NoFail (.eval next)

/-- nothing external raises -/
structure NoRaise (env : Env W) : Prop where
  forward : ∀ a b c w, ∃ v, (env.forward a b c w).1 = .ok v
  backward : ∀ w, ∃ v, (env.backward w).1 = .ok v
  prog : ∀ w, NoFail (env.prog w)
  step : ∀ w, ∃ v, (env.step w).1 = .ok v
  genZetas : ∀ w, ∃ v, (env.genZetas w).1 = .ok v
  initDual : ∀ w, ∃ v, (env.initDual w).1 = .ok v
  reset : ∀ f, env.resetLbd = some f → ∀ w, ∃ v, (f w).1 = .ok v
  stop : ∀ i w, ∃ v, (env.stop i w).1 = .ok v

theorem fwd_ok (h : NoRaise env) (g : Bool) : Succeeds (fwd env g) :=
  (Succeeds.read _).bind fun _ => (Succeeds.read _).bind fun _ => (Succeeds.read _).bind fun _ =>
    (Succeeds.call (h.forward _ _ _)).bind fun _ => (Succeeds.emit _).bind fun _ => Succeeds.pure _

theorem closure_ok (h : NoRaise env) (b : Bool) : Succeeds (closure env b) := by
  cases b with
  | true => exact (Succeeds.modify _).bind fun _ => (fwd_ok h _).bind fun _ => (Succeeds.call h.backward).bind fun _ => .pure _
  | false =>
    exact (Succeeds.modify _).bind fun _ => Succeeds.bind (m := lossEval env) (fun s => ⟨_, _, lossEval_eq s⟩) fun _ =>
      (fwd_ok h _).bind fun _ => Succeeds.bind (m := lossTrain env false) (fun s => ⟨_, _, lossTrain_eq false s⟩) fun _ => .pure _

theorem runProg_ok (h : NoRaise env) {p : OptProg W} (hp : NoFail p) : Succeeds (runProg env p) := by
  induction hp with
  | done => exact Succeeds.pure _
  | act f next _ ih =>
    intro s
    exact ih s.w { s with w := f s.w }
  | eval next _ ih => exact (closure_ok h true).bind ih

theorem stepC_ok (h : NoRaise env) : Succeeds (stepC env) := by
  intro s
  obtain ⟨u, s1, h1⟩ := runProg_ok h (h.prog s.w) s
  exact ⟨(), { s1 with tr := s1.tr ++ [.step] }, by
    show (M.read (fun s => env.prog s.w) >>= fun p => runProg env p >>= fun _ => M.emit .step) s = _
    simp only [M.bind_def, M.read, h1]; rfl⟩

theorem repeatM_ok {body : M W Unit} (h : Succeeds body) (n : ℕ) : Succeeds (repeatM body n) := by
  induction n with
  | zero => exact Succeeds.pure _
  | succ n ih => exact h.bind fun _ => ih

theorem finish_ok (h : NoRaise env) (i L v) : Succeeds (finish env i L v) := by
  refine (Succeeds.emit _).bind fun _ => ?_
  split
  · exact Succeeds.pure _
  · exact (Succeeds.call (h.stop i)).bind fun _ => (Succeeds.emit _).bind fun _ => Succeeds.pure _

theorem preEval_ok (h : NoRaise env) : Succeeds (preEval env) := by
  refine (Succeeds.read _).bind fun _ => ?_
  split
  · exact (closure_ok h true).bind fun _ => (Succeeds.modify _).bind fun _ => Succeeds.pure _
  · exact (Succeeds.modify _).bind fun _ => (closure_ok h false).bind fun _ => (Succeeds.modify _).bind fun _ => Succeeds.pure _

theorem postStep_ok (h : NoRaise env) : Succeeds (postStep env) :=
  (Succeeds.modify _).bind fun _ => (fwd_ok h _).bind fun _ => (Succeeds.call h.backward).bind fun _ =>
    (Succeeds.call h.step).bind fun _ => (Succeeds.emit _).bind fun _ => Succeeds.pure _

theorem trainLoop_ok {body : ℕ → List (XNum ℝ) → M W (List (XNum ℝ) × Bool)} (h : ∀ i L, Succeeds (body i L)) (is : List ℕ) :
    ∀ L, Succeeds (trainLoop body is L) := by
  induction is with
  | nil => exact fun L => Succeeds.pure _
  | cons i is ih =>
    intro L
    refine (h i L).bind fun ⟨L', b⟩ => ?_
    cases b
    · exact ih L'
    · exact Succeeds.pure _

theorem resetOpt_ok (h : NoRaise env) : Succeeds (resetOpt env) := by
  unfold resetOpt
  cases hq : env.resetLbd with
  | none => exact Succeeds.pure _
  | some f => exact (Succeeds.call (h.reset f hq)).bind fun _ => Succeeds.emit _

theorem guessDual_ok (h : NoRaise env) : Succeeds (guessDual env) :=
  (Succeeds.call h.initDual).bind fun _ => Succeeds.emit _

theorem postPretrain_ok (h : NoRaise env) (n : ℕ) : ∀ L, Succeeds (postPretrain env n L) := by
  induction n with
  | zero => exact fun L => Succeeds.pure _
  | succ n ih => exact fun L => (postStep_ok h).bind fun _ => (Succeeds.emit _).bind fun _ => ih _

theorem optimPre_ok (h : NoRaise env) (p n : ℤ) : Succeeds (optimPre env p n) :=
  (Succeeds.call h.genZetas).bind fun _ => (Succeeds.modify _).bind fun _ => (repeatM_ok (stepC_ok h) _).bind fun _ =>
    (guessDual_ok h).bind fun _ => (Succeeds.modify _).bind fun _ => (resetOpt_ok h).bind fun _ =>
    trainLoop_ok (fun _ _ => (stepC_ok h).bind fun _ => (preEval_ok h).bind fun _ => finish_ok h _ _ _) _ _

theorem optimPost_ok (h : NoRaise env) (p n : ℤ) : Succeeds (optimPost env p n) := by
  refine (Succeeds.modify _).bind fun _ => (postPretrain_ok h _ _).bind fun _ => (guessDual_ok h).bind fun _ =>
    (Succeeds.read _).bind fun er => ?_
  have hl : ∀ L, Succeeds (trainLoop (postBody env) (List.range n.toNat) L) :=
    trainLoop_ok (fun _ _ => (postStep_ok h).bind fun _ => finish_ok h _ _ _) _
  split
  · exact (resetOpt_ok h).bind fun _ => (Succeeds.modify _).bind fun _ => hl _
  · exact (Succeeds.modify _).bind fun _ => hl _

theorem trainingRun_pos {i n : ℕ} {vs as} (h : TrainingRun i (n + 1) vs as) : vs ≠ [] := by cases h <;> simp

/-- losses of a completed optimisation are empty exactly in these cases -/
theorem losses_empty_iff (pre : Bool) {p n : ℤ} {s s' : St W} {L}
    (h : (if pre then optimPre env p n else optimPost env p n) s = (.ok L, s')) :
    L = [] ↔ n ≤ 0 ∧ (pre = true ∨ p ≤ 0) := by
  cases pre with
  | true =>
    obtain ⟨A, B, h1, h2, h3, h4, h5, h6, h7, h8, h9, h10, h11⟩ := optimPre_spec h
    obtain ⟨k1, k2, k3, k4, k5, k6⟩ := h11 L rfl
    constructor
    · intro hL
      refine ⟨?_, Or.inl rfl⟩
      by_contra hn
      obtain ⟨m, hm⟩ : ∃ m, n.toNat = m + 1 := ⟨n.toNat - 1, by omega⟩
      rw [hm] at k6
      exact trainingRun_pos k6 (by rw [← k4, hL])
    · rintro ⟨hn, -⟩
      have := k6.length_le
      rw [← k4] at this
      exact List.length_eq_zero_iff.1 (by omega)
  | false =>
    obtain ⟨A, B, h1, h2, h3, h4, h5, h6, h7, h8, h9, h10, h11⟩ := optimPost_spec h
    obtain ⟨k1, k2, k3, k4, k5, k6, k7⟩ := h11 L rfl
    constructor
    · intro hL
      rw [k5, List.append_eq_nil_iff] at hL
      refine ⟨?_, Or.inr ?_⟩
      · by_contra hn
        obtain ⟨m, hm⟩ : ∃ m, n.toNat = m + 1 := ⟨n.toNat - 1, by omega⟩
        rw [hm] at k7
        exact trainingRun_pos k7 hL.2
      · rw [hL.1] at k4; simp at k4; omega
    · rintro ⟨hn, h | hp⟩
      · simp at h
      have := k7.length_le
      rw [k5, List.append_eq_nil_iff]
      exact ⟨List.length_eq_zero_iff.1 (by omega), List.length_eq_zero_iff.1 (by omega)⟩

theorem interpret_ok (fl : ℝ → ℝ) (sched : Steps) : ∃ p n, interpretSteps fl split03 sched = .ok (p, n) ∧
    (∀ a b, sched = .pair a b → p = a) := by
  cases sched with
  | one n => exact ⟨pyTrunc (fl (n * split03)), n, by simp only [interpretSteps, if_pos split03_mem], by simp⟩
  | pair a b => exact ⟨a, b, rfl, by intro a' b' h; simp only [Steps.pair.injEq] at h; exact h.1⟩

/-- **C51** (what holds) When nothing external raises and at least one training iteration is requested, solving returns the
coefficients, intercept and multiplier of the final state and the last recorded loss; the multiplier is reported as 0 unless
`rho > 0`.  (Missing: schedules without training iterations.) -/
theorem C51_result_partial {Θ : Type} (h : NoRaise env) (out : Readout W Θ) (pre rhoPos : Bool) (fl : ℝ → ℝ) (sched : Steps)
    (hn : 0 < sched.iterations) (s : St W) :
    ∃ v s', solveDual env out pre rhoPos fl sched s =
        (.ok ⟨out.theta s'.w, out.intercept s'.w, if rhoPos then out.lam s'.w else 0, v⟩, s') ∧
      ∃ p L, (if pre then optimPre env p sched.iterations else optimPost env p sched.iterations) s = (.ok L, s') ∧
        L.getLast? = some v := by
  obtain ⟨p, n, hp, -⟩ := interpret_ok fl sched
  obtain ⟨L, s', hL⟩ : ∃ L s', (if pre then optimPre env p sched.iterations else optimPost env p sched.iterations) s =
      (.ok L, s') := by
    cases pre
    · exact optimPost_ok h p _ s
    · exact optimPre_ok h p _ s
  have hne : L ≠ [] := fun h0 => by
    have := (losses_empty_iff pre hL).1 h0
    omega
  obtain ⟨v, hv⟩ : ∃ v, L.getLast? = some v := ⟨_, List.getLast?_eq_some_getLast hne⟩
  refine ⟨v, s', ?_, p, L, hL, hv⟩
  unfold solveDual
  simp only [hp]
  cases pre
  · simp only [Bool.false_eq_true, if_false] at hL
    simp only [M.bind_def, M.pure, Bool.false_eq_true, if_false, hL, M.read, hv, M.pure_def]
  · simp only [if_true] at hL
    simp only [M.bind_def, M.pure, if_true, hL, M.read, hv, M.pure_def]

/-- **C51** (violated) A schedule without training iterations: pre-sampled solving fails with an IndexError, after having
pre-trained; so does post-sampled solving when there is no pre-training either. -/
theorem C51_empty_false {Θ : Type} (h : NoRaise env) (out : Readout W Θ) (pre rhoPos : Bool) (fl : ℝ → ℝ) (p n : ℤ)
    (hn : n ≤ 0) (hp : pre = true ∨ p ≤ 0) (s : St W) :
    (solveDual env out pre rhoPos fl (.pair p n) s).1 = .error .indexError := by
  obtain ⟨L, s', hL⟩ : ∃ L s', (if pre then optimPre env p n else optimPost env p n) s = (.ok L, s') := by
    cases pre
    · exact optimPost_ok h p _ s
    · exact optimPre_ok h p _ s
  have hne : L = [] := (losses_empty_iff pre hL).2 ⟨hn, hp⟩
  subst hne
  unfold solveDual
  cases pre
  · simp only [Bool.false_eq_true, if_false] at hL
    simp only [interpretSteps, Steps.iterations, M.bind_def, M.pure, Bool.false_eq_true, if_false, hL, M.read, List.getLast?_nil,
      M.raise]
  · simp only [if_true] at hL
    simp only [interpretSteps, Steps.iterations, M.bind_def, M.pure, if_true, hL, M.read, List.getLast?_nil, M.raise]

/-- **C51** Whenever solving returns, the multiplier is 0 unless `rho > 0`. -/
theorem C51_multiplier {Θ : Type} (out : Readout W Θ) (pre : Bool) (fl : ℝ → ℝ) (sched : Steps) {s s' : St W} {r : Solved Θ}
    (h : solveDual env out pre false fl sched s = (.ok r, s')) : r.dual_var = 0 := by
  obtain ⟨p, n, hp, -⟩ := interpret_ok fl sched
  unfold solveDual at h
  simp only [hp] at h
  have hb := M.bind_inv h; clear h; rcases hb with ⟨u, s1, h1, h⟩ | ⟨e, h1, hr⟩
  swap
  · simp at hr
  have key : ∀ {L : List (XNum ℝ)} {s2 : St W},
      ((do
        let theta ← M.read (fun s : St W => out.theta s.w)
        let intercept ← M.read (fun s => out.intercept s.w)
        let lam ← M.read (fun s => out.lam s.w)
        let lambd := if false = true then lam else 0
        match L.getLast? with
        | some v => Pure.pure ⟨theta, intercept, lambd, v⟩
        | none => M.raise .indexError) : M W (Solved Θ)) s2 = (.ok r, s') → r.dual_var = 0 := by
    intro L s2 h
    simp only [M.bind_def, M.read, Bool.false_eq_true, if_false] at h
    cases hl : L.getLast? with
    | none => simp [hl, M.raise] at h
    | some v =>
      simp only [hl, M.pure_def, Prod.mk.injEq, Except.ok.injEq] at h
      rw [← h.1]
  cases pre
  · simp only [Bool.false_eq_true, if_false] at h
    have hb := M.bind_inv h; clear h; rcases hb with ⟨L, s2, h2, h⟩ | ⟨e, h1, hr⟩
    · exact key h
    · simp at hr
  · simp only [if_true] at h
    have hb := M.bind_inv h; clear h; rcases hb with ⟨L, s2, h2, h⟩ | ⟨e, h1, hr⟩
    · exact key h
    · simp at hr

end C51

section examples

/-- a toy problem: minimise `w` by unit steps from `w`, loss `w`, stop when `w <= 1`; NaN below zero -/
noncomputable def exEnv : Env ℝ where
  zeroGrad := id
  forward := fun _ _ _ w => (.ok (if w < 0 then .nan else .fin w), w)
  backward := fun w => (.ok (), w)
  prog := fun _ => .eval fun _ => .act (fun w => w - 1) fun _ => .done
  step := fun w => (.ok (), w - 1)
  propagate := fun _ w => w
  genZetas := fun w => (.ok (), w)
  initDual := fun w => (.ok (), w)
  resetLbd := none
  composite := false
  stop := fun _ w => (.ok (decide (w ≤ 1)), w)
  gradMetric := true

theorem exEnv_noRaise : NoRaise exEnv where
  forward := fun _ _ _ _ => ⟨_, rfl⟩
  backward := fun _ => ⟨_, rfl⟩
  prog := fun _ => .eval _ fun _ => .act _ _ fun _ => .done
  step := fun _ => ⟨_, rfl⟩
  genZetas := fun _ => ⟨_, rfl⟩
  initDual := fun _ => ⟨_, rfl⟩
  reset := fun f h => by simp [exEnv] at h
  stop := fun _ _ => ⟨_, rfl⟩

/-- non-vacuity: schedules `(2, 10)` complete from every state, in both regimes -/
example (s : St ℝ) : (∃ L s', optimPre exEnv 2 10 s = (.ok L, s')) ∧ (∃ L s', optimPost exEnv 2 10 s = (.ok L, s')) :=
  ⟨optimPre_ok exEnv_noRaise 2 10 s, optimPost_ok exEnv_noRaise 2 10 s⟩

/-- non-vacuity of C72: an environment whose loss always raises -/
example : (optimPre { exEnv with forward := fun _ _ _ w => (.error .runtimeError, w) } 1 1 ⟨0, false, true, true, []⟩).2.erm = true :=
  (C72_pretraining_false _ .runtimeError (by norm_num) (fun _ => rfl) (fun _ => ⟨_, rfl⟩) (fun _ _ _ _ => rfl)).2

/-- non-vacuity of C52: exact arithmetic is a rounding; so is rounding down to integers -/
example : IsRounding id ∧ IsRounding (fun x => (⌊x⌋ : ℝ)) :=
  ⟨⟨monotone_id, fun _ => rfl⟩, fun a b h => by
    have := Int.floor_le_floor h
    show ((⌊a⌋ : ℤ) : ℝ) ≤ ((⌊b⌋ : ℤ) : ℝ)
    exact_mod_cast this, fun n => by simp⟩

end examples
end Skwdro
