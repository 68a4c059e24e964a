import Verif.Spec.Solve
import Mathlib.Tactic.Ring

/-! Histories produced by the training loops. -/

namespace Skwdro
open Spec

section monad
variable {W α β : Type}

theorem M.bind_def (m : M W α) (f : α → M W β) (s : St W) :
    (m >>= f) s = match m s with
      | (.ok a, s') => f a s'
      | (.error e, s') => (.error e, s') := rfl

theorem M.pure_def (a : α) (s : St W) : (Pure.pure a : M W α) s = (.ok a, s) := rfl

theorem M.bind_inv {m : M W α} {f : α → M W β} {s s' : St W} {r : Except PyErr β} (h : (m >>= f) s = (r, s')) :
    (∃ a s1, m s = (.ok a, s1) ∧ f a s1 = (r, s')) ∨ (∃ e, m s = (.error e, s') ∧ r = .error e) := by
  rw [M.bind_def] at h
  rcases hm : m s with ⟨r1, s1⟩
  rw [hm] at h
  cases r1 with
  | ok a => exact Or.inl ⟨a, s1, rfl, h⟩
  | error e =>
    simp only [Prod.mk.injEq] at h
    exact Or.inr ⟨e, by rw [h.2], h.1.symm⟩

theorem M.modify_inv {f : St W → St W} {s s' : St W} {r : Except PyErr Unit} (h : M.modify f s = (r, s')) :
    r = .ok () ∧ s' = f s := by
  simp only [M.modify, Prod.mk.injEq] at h; exact ⟨h.1.symm, h.2.symm⟩

theorem M.pure_inv {a : α} {s s' : St W} {r : Except PyErr α} (h : (Pure.pure a : M W α) s = (r, s')) :
    r = .ok a ∧ s' = s := by
  rw [M.pure_def] at h
  simp only [Prod.mk.injEq] at h; exact ⟨h.1.symm, h.2.symm⟩

theorem M.read_inv {f : St W → α} {s s' : St W} {r : Except PyErr α} (h : M.read f s = (r, s')) :
    r = .ok (f s) ∧ s' = s := by
  simp only [M.read, Prod.mk.injEq] at h; exact ⟨h.1.symm, h.2.symm⟩

theorem M.call_inv {f : W → Except PyErr α × W} {s s' : St W} {r : Except PyErr α} (h : M.call f s = (r, s')) :
    r = (f s.w).1 ∧ s' = { s with w := (f s.w).2 } := by
  simp only [M.call, Prod.mk.injEq] at h; exact ⟨h.1.symm, h.2.symm⟩

end monad

section reading

@[simp] theorem steps_append (A B) : steps (A ++ B) = steps A + steps B := by simp [steps]
@[simp] theorem records_append (A B) : records (A ++ B) = records A ++ records B := by simp [records]
@[simp] theorem asks_append (A B) : asks (A ++ B) = asks A ++ asks B := by simp [asks]
@[simp] theorem guesses_append (A B) : guesses (A ++ B) = guesses A + guesses B := by simp [guesses]
@[simp] theorem steps_nil : steps [] = 0 := rfl
@[simp] theorem records_nil : records [] = [] := rfl
@[simp] theorem asks_nil : asks [] = [] := rfl
@[simp] theorem guesses_nil : guesses [] = 0 := rfl
@[simp] theorem steps_step  (T) : steps (.step :: T) = steps T + 1 := by simp [steps]
@[simp] theorem steps_record (v) (T) : steps (.record v :: T) = steps T := by simp [steps]
@[simp] theorem steps_ask (i b) (T) : steps (.ask i b :: T) = steps T := by simp [steps]
@[simp] theorem steps_guess  (T) : steps (.guess :: T) = steps T := by simp [steps]
@[simp] theorem steps_reset  (T) : steps (.reset :: T) = steps T := by simp [steps]
@[simp] theorem steps_eval (a b c d v) (T) : steps (.eval a b c d v :: T) = steps T := by simp [steps]
@[simp] theorem records_step  (T) : records (.step :: T) = records T := by simp [records]
@[simp] theorem records_record (v) (T) : records (.record v :: T) = v :: records T := by simp [records]
@[simp] theorem records_ask (i b) (T) : records (.ask i b :: T) = records T := by simp [records]
@[simp] theorem records_guess  (T) : records (.guess :: T) = records T := by simp [records]
@[simp] theorem records_reset  (T) : records (.reset :: T) = records T := by simp [records]
@[simp] theorem records_eval (a b c d v) (T) : records (.eval a b c d v :: T) = records T := by simp [records]
@[simp] theorem asks_step  (T) : asks (.step :: T) = asks T := by simp [asks]
@[simp] theorem asks_record (v) (T) : asks (.record v :: T) = asks T := by simp [asks]
@[simp] theorem asks_ask (i b) (T) : asks (.ask i b :: T) = (i, b) :: asks T := by simp [asks]
@[simp] theorem asks_guess  (T) : asks (.guess :: T) = asks T := by simp [asks]
@[simp] theorem asks_reset  (T) : asks (.reset :: T) = asks T := by simp [asks]
@[simp] theorem asks_eval (a b c d v) (T) : asks (.eval a b c d v :: T) = asks T := by simp [asks]
@[simp] theorem guesses_step  (T) : guesses (.step :: T) = guesses T := by simp [guesses]
@[simp] theorem guesses_record (v) (T) : guesses (.record v :: T) = guesses T := by simp [guesses]
@[simp] theorem guesses_ask (i b) (T) : guesses (.ask i b :: T) = guesses T := by simp [guesses]
@[simp] theorem guesses_guess  (T) : guesses (.guess :: T) = guesses T + 1 := by simp [guesses]
@[simp] theorem guesses_reset  (T) : guesses (.reset :: T) = guesses T := by simp [guesses]
@[simp] theorem guesses_eval (a b c d v) (T) : guesses (.eval a b c d v :: T) = guesses T := by simp [guesses]

/-- only evaluations, with the given modes -/
def OnlyEvals (e i t : Bool) (T : List Ev) : Prop := ∀ x ∈ T, ∃ g v, x = .eval e i t g v

theorem OnlyEvals.counts {e i t : Bool} {T : List Ev} (h : OnlyEvals e i t T) :
    steps T = 0 ∧ records T = [] ∧ asks T = [] ∧ guesses T = 0 := by
  refine ⟨?_, ?_, ?_, ?_⟩
  · simp only [steps, List.length_eq_zero_iff, List.filter_eq_nil_iff]
    intro x hx; obtain ⟨g, v, rfl⟩ := h x hx; simp
  · simp only [records, List.filterMap_eq_nil_iff]
    intro x hx; obtain ⟨g, v, rfl⟩ := h x hx; rfl
  · simp only [asks, List.filterMap_eq_nil_iff]
    intro x hx; obtain ⟨g, v, rfl⟩ := h x hx; rfl
  · simp only [guesses, List.length_eq_zero_iff, List.filter_eq_nil_iff]
    intro x hx; obtain ⟨g, v, rfl⟩ := h x hx; simp

theorem OnlyEvals.nil (e i t : Bool) : OnlyEvals e i t [] := by simp [OnlyEvals]
theorem OnlyEvals.single (e i t g : Bool) (v) : OnlyEvals e i t [.eval e i t g v] := by
  intro x hx; simp only [List.mem_singleton] at hx; exact ⟨g, v, hx⟩
theorem OnlyEvals.append {e i t : Bool} {A B : List Ev} (ha : OnlyEvals e i t A) (hb : OnlyEvals e i t B) :
    OnlyEvals e i t (A ++ B) := by
  intro x hx
  rcases List.mem_append.1 hx with h | h
  · exact ha x h
  · exact hb x h
theorem OnlyEvals.allErm {e i t : Bool} {T : List Ev} (h : OnlyEvals e i t T) : AllErm e T := by
  intro a b c d v hm
  obtain ⟨g, w, h⟩ := h _ hm
  simp only [Ev.eval.injEq] at h
  exact h.1

theorem _root_.Skwdro.Spec.AllErm.nil (e : Bool) : AllErm e [] := by simp [AllErm]
theorem _root_.Skwdro.Spec.AllErm.append {e : Bool} {A B : List Ev} (ha : AllErm e A) (hb : AllErm e B) : AllErm e (A ++ B) := by
  intro a b c d v hm
  rcases List.mem_append.1 hm with h | h
  · exact ha _ _ _ _ _ h
  · exact hb _ _ _ _ _ h
theorem _root_.Skwdro.Spec.AllErm.step (e : Bool) : AllErm e [.step] := by simp [AllErm]
theorem _root_.Skwdro.Spec.AllErm.record (e : Bool) (v) : AllErm e [.record v] := by simp [AllErm]
theorem _root_.Skwdro.Spec.AllErm.ask (e : Bool) (i b) : AllErm e [.ask i b] := by simp [AllErm]
theorem _root_.Skwdro.Spec.AllErm.guess (e : Bool) : AllErm e [.guess] := by simp [AllErm]
theorem _root_.Skwdro.Spec.AllErm.reset (e : Bool) : AllErm e [.reset] := by simp [AllErm]

end reading

section programs
variable {W : Type} {env : Env W}

/-- same flags -/
def SameFlags (s s' : St W) : Prop := s'.erm = s.erm ∧ s'.imp = s.imp ∧ s'.training = s.training

theorem fwd_spec {g : Bool} {s s' : St W} {r} (h : fwd env g s = (r, s')) :
    SameFlags s s' ∧ ((∃ e, r = .error e ∧ s'.tr = s.tr) ∨
      ∃ v, r = .ok v ∧ s'.tr = s.tr ++ [.eval s.erm s.imp s.training g v]) := by
  unfold fwd at h
  have hb := M.bind_inv h; clear h; rcases hb with ⟨a, s1, h1, h⟩ | ⟨e, h1, -⟩
  swap
  · exact absurd (M.read_inv h1).1 (by simp)
  obtain ⟨ha, rfl⟩ := M.read_inv h1
  have hb := M.bind_inv h; clear h; rcases hb with ⟨b, s2, h1, h⟩ | ⟨e, h1, -⟩
  swap
  · exact absurd (M.read_inv h1).1 (by simp)
  obtain ⟨hb, rfl⟩ := M.read_inv h1
  have hb := M.bind_inv h; clear h; rcases hb with ⟨c, s3, h1, h⟩ | ⟨e, h1, -⟩
  swap
  · exact absurd (M.read_inv h1).1 (by simp)
  obtain ⟨hc, rfl⟩ := M.read_inv h1
  have hb := M.bind_inv h; clear h; rcases hb with ⟨v, s4, h1, h⟩ | ⟨e, h1, hr⟩
  swap
  · obtain ⟨-, rfl⟩ := M.call_inv h1
    exact ⟨⟨rfl, rfl, rfl⟩, Or.inl ⟨e, hr, rfl⟩⟩
  obtain ⟨-, rfl⟩ := M.call_inv h1
  have hb := M.bind_inv h; clear h; rcases hb with ⟨u, s5, h1, h⟩ | ⟨e, h1, -⟩
  swap
  · exact absurd (M.modify_inv h1).1 (by simp)
  obtain ⟨-, rfl⟩ := M.modify_inv h1
  obtain ⟨rfl, rfl⟩ := M.pure_inv h
  simp only [Except.ok.injEq] at ha hb hc
  subst ha hb hc
  exact ⟨⟨rfl, rfl, rfl⟩, Or.inr ⟨v, rfl, rfl⟩⟩

theorem closure_true_spec {s s' : St W} {r} (h : closure env true s = (r, s')) :
    SameFlags s s' ∧ ∃ T, s'.tr = s.tr ++ T ∧ OnlyEvals s.erm s.imp s.training T ∧
      ∀ v, r = .ok v → T = [.eval s.erm s.imp s.training true v] := by
  unfold closure at h
  have hb := M.bind_inv h; clear h; rcases hb with ⟨a, s1, h1, h⟩ | ⟨e, h1, -⟩
  swap
  · exact absurd (M.modify_inv h1).1 (by simp)
  obtain ⟨-, rfl⟩ := M.modify_inv h1
  simp only [if_true] at h
  have hb := M.bind_inv h; clear h; rcases hb with ⟨v, s2, h1, h⟩ | ⟨e, h1, hr⟩
  · obtain ⟨hf, hv⟩ := fwd_spec h1
    rcases hv with ⟨e, he, -⟩ | ⟨v', hv', ht⟩
    · simp at he
    simp only [Except.ok.injEq] at hv'
    subst hv'
    have hb := M.bind_inv h; clear h; rcases hb with ⟨u, s3, h1, h⟩ | ⟨e, h1, hr⟩
    · obtain ⟨-, rfl⟩ := M.call_inv h1
      obtain ⟨rfl, rfl⟩ := M.pure_inv h
      exact ⟨hf, _, ht, .single _ _ _ _ _, fun v' hv' => by simp only [Except.ok.injEq] at hv'; rw [hv']⟩
    · obtain ⟨-, rfl⟩ := M.call_inv h1
      exact ⟨hf, _, ht, .single _ _ _ _ _, fun v' hv' => by simp [hr] at hv'⟩
  · obtain ⟨hf, hv⟩ := fwd_spec h1
    rcases hv with ⟨e', he, ht⟩ | ⟨v', hv', ht⟩
    · exact ⟨hf, [], by simpa using ht, .nil _ _ _, fun v' hv' => by simp [hr] at hv'⟩
    · simp at hv'

theorem lossEval_eq (s : St W) : lossEval env s =
    (.ok (), { s with erm := false, training := false, w := env.propagate false s.w }) := rfl
theorem lossTrain_eq (m : Bool) (s : St W) : lossTrain env m s =
    (.ok (), { s with erm := m, training := m, w := env.propagate m s.w }) := rfl

theorem closure_false_spec {s s' : St W} {r} (h : closure env false s = (r, s')) :
    s'.erm = false ∧ s'.training = false ∧ s'.imp = s.imp ∧ ∃ T, s'.tr = s.tr ++ T ∧ OnlyEvals false s.imp false T ∧
      ∀ v, r = .ok v → T = [.eval false s.imp false false v] := by
  unfold closure at h
  have hb := M.bind_inv h; clear h; rcases hb with ⟨a, s1, h1, h⟩ | ⟨e, h1, -⟩
  swap
  · exact absurd (M.modify_inv h1).1 (by simp)
  obtain ⟨-, rfl⟩ := M.modify_inv h1
  simp only [Bool.false_eq_true, if_false] at h
  have hb := M.bind_inv h; clear h; rcases hb with ⟨a, s1, h1, h⟩ | ⟨e, h1, -⟩
  swap
  · rw [lossEval_eq] at h1; simp at h1
  rw [lossEval_eq] at h1
  simp only [Prod.mk.injEq] at h1
  obtain ⟨-, rfl⟩ := h1
  have hb := M.bind_inv h; clear h; rcases hb with ⟨v, s2, h1, h⟩ | ⟨e, h1, hr⟩
  · obtain ⟨hf, hv⟩ := fwd_spec h1
    rcases hv with ⟨e, he, -⟩ | ⟨v', hv', ht⟩
    · simp at he
    simp only [Except.ok.injEq] at hv'
    subst hv'
    have hb := M.bind_inv h; clear h; rcases hb with ⟨a, s1, h1, h⟩ | ⟨e, h1, -⟩
    swap
    · rw [lossTrain_eq] at h1; simp at h1
    rw [lossTrain_eq] at h1
    simp only [Prod.mk.injEq] at h1
    obtain ⟨-, rfl⟩ := h1
    obtain ⟨rfl, rfl⟩ := M.pure_inv h
    exact ⟨rfl, rfl, hf.2.1, _, ht, .single _ _ _ _ _, fun v' hv' => by simp only [Except.ok.injEq] at hv'; rw [hv']⟩
  · obtain ⟨hf, hv⟩ := fwd_spec h1
    rcases hv with ⟨e', he, ht⟩ | ⟨v', hv', ht⟩
    · exact ⟨hf.1, hf.2.2, hf.2.1, [], by simpa using ht, .nil _ _ _, fun v' hv' => by simp [hr] at hv'⟩
    · simp at hv'

theorem runProg_spec (p : OptProg W) {s s' : St W} {r} (h : runProg env p s = (r, s')) :
    SameFlags s s' ∧ ∃ T, s'.tr = s.tr ++ T ∧ OnlyEvals s.erm s.imp s.training T := by
  induction p generalizing s with
  | done =>
    obtain ⟨-, rfl⟩ := M.pure_inv h
    exact ⟨⟨rfl, rfl, rfl⟩, [], by simp, .nil _ _ _⟩
  | fail e =>
    simp only [runProg, M.raise, Prod.mk.injEq] at h
    obtain ⟨-, rfl⟩ := h
    exact ⟨⟨rfl, rfl, rfl⟩, [], by simp, .nil _ _ _⟩
  | act f next ih =>
    rw [runProg] at h
    exact ih s.w (s := { s with w := f s.w }) h
  | eval next ih =>
    rw [runProg] at h
    have hb := M.bind_inv h; clear h; rcases hb with ⟨v, s1, h1, h⟩ | ⟨e, h1, hr⟩
    · obtain ⟨⟨f1, f2, f3⟩, T, ht, hT, -⟩ := closure_true_spec h1
      obtain ⟨⟨g1, g2, g3⟩, U, hu, hU⟩ := ih v h
      rw [f1, f2, f3] at hU
      exact ⟨⟨g1.trans f1, g2.trans f2, g3.trans f3⟩, T ++ U, by rw [hu, ht, List.append_assoc], hT.append hU⟩
    · obtain ⟨hf, T, ht, hT, -⟩ := closure_true_spec h1
      exact ⟨hf, T, ht, hT⟩

theorem stepC_spec {s s' : St W} {r} (h : stepC env s = (r, s')) :
    SameFlags s s' ∧ ∃ T, OnlyEvals s.erm s.imp s.training T ∧
      ((r = .ok () ∧ s'.tr = s.tr ++ (T ++ [.step])) ∨ ((∃ e, r = .error e) ∧ s'.tr = s.tr ++ T)) := by
  unfold stepC at h
  have hb := M.bind_inv h; clear h; rcases hb with ⟨p, s1, h1, h⟩ | ⟨e, h1, -⟩
  swap
  · exact absurd (M.read_inv h1).1 (by simp)
  obtain ⟨-, rfl⟩ := M.read_inv h1
  have hb := M.bind_inv h; clear h; rcases hb with ⟨u, s2, h1, h⟩ | ⟨e, h1, hr⟩
  · obtain ⟨hf, T, ht, hT⟩ := runProg_spec p h1
    obtain ⟨hr, rfl⟩ := M.modify_inv h
    exact ⟨hf, T, hT, Or.inl ⟨hr, by simp [ht]⟩⟩
  · obtain ⟨hf, T, ht, hT⟩ := runProg_spec _ h1
    exact ⟨hf, T, hT, Or.inr ⟨⟨e, hr⟩, ht⟩⟩

/-- pre-training -/
theorem repeatM_spec (n : ℕ) {s s' : St W} {r} (h : repeatM (stepC env) n s = (r, s')) :
    SameFlags s s' ∧ ∃ T, s'.tr = s.tr ++ T ∧ AllErm s.erm T ∧ records T = [] ∧ asks T = [] ∧ guesses T = 0 ∧ steps T ≤ n ∧
      (∀ u, r = .ok u → steps T = n) := by
  induction n generalizing s with
  | zero =>
    obtain ⟨-, rfl⟩ := M.pure_inv h
    exact ⟨⟨rfl, rfl, rfl⟩, [], by simp, .nil _, rfl, rfl, rfl, le_rfl, fun _ _ => rfl⟩
  | succ n ih =>
    rw [repeatM] at h
    have hb := M.bind_inv h; clear h; rcases hb with ⟨u, s1, h1, h⟩ | ⟨e, h1, hr⟩
    · obtain ⟨⟨f1, f2, f3⟩, T, hT, hc⟩ := stepC_spec h1
      obtain ⟨c1, c2, c3, c4⟩ := hT.counts
      rcases hc with ⟨-, ht⟩ | ⟨⟨e, he⟩, -⟩
      swap
      · simp at he
      obtain ⟨⟨g1, g2, g3⟩, U, hu, hU, u1, u2, u3, u4, u5⟩ := ih h
      rw [f1] at hU
      refine ⟨⟨g1.trans f1, g2.trans f2, g3.trans f3⟩, (T ++ [.step]) ++ U, by rw [hu, ht, List.append_assoc],
        (hT.allErm.append (.step _)).append hU, by simp [c2, u1], by simp [c3, u2], by simp [c4, u3], ?_, ?_⟩
      · simp [c1]; omega
      · intro u hu
        have := u5 u hu
        simp [c1, this]
    · obtain ⟨hf, T, hT, hc⟩ := stepC_spec h1
      obtain ⟨c1, c2, c3, c4⟩ := hT.counts
      rcases hc with ⟨he, -⟩ | ⟨-, ht⟩
      · simp at he
      · exact ⟨hf, T, ht, hT.allErm, c2, c3, c4, by omega, fun u hu => by simp [hr] at hu⟩

/-- evaluation after a step of the pre-sampled loop -/
theorem preEval_spec {s s' : St W} {r} (h : preEval env s = (r, s')) (hs : s.erm = false) :
    s'.erm = false ∧ ∃ T, s'.tr = s.tr ++ T ∧ AllErm false T ∧ steps T = 0 ∧ records T = [] ∧ asks T = [] ∧ guesses T = 0 ∧
      (∀ v, r = .ok v → s'.imp = s.imp ∧
        T = [.eval false (env.gradMetric && s.imp) (env.gradMetric && s.training) env.gradMetric v]) := by
  unfold preEval at h
  have hb := M.bind_inv h; clear h; rcases hb with ⟨i, s1, h1, h⟩ | ⟨e, h1, -⟩
  swap
  · exact absurd (M.read_inv h1).1 (by simp)
  obtain ⟨hi, rfl⟩ := M.read_inv h1
  simp only [Except.ok.injEq] at hi
  subst hi
  split at h
  · rename_i hg
    have hb := M.bind_inv h; clear h; rcases hb with ⟨v, s2, h1, h⟩ | ⟨e, h1, hr⟩
    · obtain ⟨⟨f1, f2, f3⟩, T, ht, hT, hv⟩ := closure_true_spec h1
      rw [hs] at f1 hT hv
      obtain ⟨c1, c2, c3, c4⟩ := hT.counts
      have hb := M.bind_inv h; clear h; rcases hb with ⟨u, s3, h1, h⟩ | ⟨e, h1, hr⟩
      swap
      · exact absurd (M.modify_inv h1).1 (by simp)
      obtain ⟨-, rfl⟩ := M.modify_inv h1
      obtain ⟨rfl, rfl⟩ := M.pure_inv h
      refine ⟨f1, T, ht, hT.allErm, c1, c2, c3, c4, fun v' hv' => ⟨rfl, ?_⟩⟩
      simp only [Except.ok.injEq] at hv'
      subst hv'
      simp [hg, hv v rfl]
    · obtain ⟨⟨f1, f2, f3⟩, T, ht, hT, hv⟩ := closure_true_spec h1
      rw [hs] at f1 hT
      obtain ⟨c1, c2, c3, c4⟩ := hT.counts
      exact ⟨f1, T, ht, hT.allErm, c1, c2, c3, c4, fun v' hv' => by simp [hr] at hv'⟩
  · rename_i hg
    have hb := M.bind_inv h; clear h; rcases hb with ⟨u, s2, h1, h⟩ | ⟨e, h1, hr⟩
    swap
    · exact absurd (M.modify_inv h1).1 (by simp)
    obtain ⟨-, rfl⟩ := M.modify_inv h1
    have hb := M.bind_inv h; clear h; rcases hb with ⟨v, s2, h1, h⟩ | ⟨e, h1, hr⟩
    · obtain ⟨f1, f2, f3, T, ht, hT, hv⟩ := closure_false_spec h1
      obtain ⟨c1, c2, c3, c4⟩ := hT.counts
      have hb := M.bind_inv h; clear h; rcases hb with ⟨u, s3, h1, h⟩ | ⟨e, h1, hr⟩
      swap
      · exact absurd (M.modify_inv h1).1 (by simp)
      obtain ⟨-, rfl⟩ := M.modify_inv h1
      obtain ⟨rfl, rfl⟩ := M.pure_inv h
      refine ⟨f1, T, ht, hT.allErm, c1, c2, c3, c4, fun v' hv' => ⟨rfl, ?_⟩⟩
      simp only [Except.ok.injEq] at hv'
      subst hv'
      simp [hg, hv v rfl]
    · obtain ⟨f1, f2, f3, T, ht, hT, hv⟩ := closure_false_spec h1
      obtain ⟨c1, c2, c3, c4⟩ := hT.counts
      exact ⟨f1, T, ht, hT.allErm, c1, c2, c3, c4, fun v' hv' => by simp [hr] at hv'⟩

theorem isNan_iff (v : XNum ℝ) : v.isNan = true ↔ v = .nan := by cases v <;> simp [XNum.isNan]

/-- end of an iteration -/
theorem finish_spec {i : ℕ} {L : List (XNum ℝ)} {v : XNum ℝ} {s s' : St W} {r} (h : finish env i L v s = (r, s')) :
    SameFlags s s' ∧ ∃ T, s'.tr = s.tr ++ T ∧ AllErm false T ∧ steps T = 0 ∧ records T = [v] ∧ guesses T = 0 ∧
      (∀ L' b, r = .ok (L', b) → L' = L ++ [v] ∧ ((v = .nan ∧ b = true ∧ asks T = []) ∨ (v ≠ .nan ∧ asks T = [(i, b)]))) := by
  unfold finish at h
  have hb := M.bind_inv h; clear h; rcases hb with ⟨u, s1, h1, h⟩ | ⟨e, h1, -⟩
  swap
  · exact absurd (M.modify_inv h1).1 (by simp)
  obtain ⟨-, rfl⟩ := M.modify_inv h1
  split at h
  · rename_i hn
    obtain ⟨rfl, rfl⟩ := M.pure_inv h
    refine ⟨⟨rfl, rfl, rfl⟩, [.record v], rfl, .record _ _, rfl, rfl, rfl, ?_⟩
    intro L' b hb
    simp only [Except.ok.injEq, Prod.mk.injEq] at hb
    exact ⟨hb.1.symm, Or.inl ⟨(isNan_iff v).1 hn, hb.2.symm, rfl⟩⟩
  · rename_i hn
    have hn' : v ≠ .nan := fun h => hn ((isNan_iff v).2 h)
    have hb := M.bind_inv h; clear h; rcases hb with ⟨b, s1, h1, h⟩ | ⟨e, h1, hr⟩
    · obtain ⟨-, rfl⟩ := M.call_inv h1
      have hb := M.bind_inv h; clear h; rcases hb with ⟨u, s1, h1, h⟩ | ⟨e, h1, -⟩
      swap
      · exact absurd (M.modify_inv h1).1 (by simp)
      obtain ⟨-, rfl⟩ := M.modify_inv h1
      obtain ⟨rfl, rfl⟩ := M.pure_inv h
      refine ⟨⟨rfl, rfl, rfl⟩, [.record v] ++ [.ask i b], by simp, (AllErm.record _ _).append (.ask _ _ _), by simp, by simp,
        by simp, ?_⟩
      intro L' b' hb
      simp only [Except.ok.injEq, Prod.mk.injEq] at hb
      exact ⟨hb.1.symm, Or.inr ⟨hn', by simp [hb.2]⟩⟩
    · obtain ⟨-, rfl⟩ := M.call_inv h1
      exact ⟨⟨rfl, rfl, rfl⟩, [.record v], rfl, .record _ _, rfl, rfl, rfl, fun L' b hb => by simp [hr] at hb⟩

/-- what one iteration of a training loop does; `lag` says whether the recorded loss was evaluated before the step -/
def IterSpec (body : ℕ → List (XNum ℝ) → M W (List (XNum ℝ) × Bool)) : Prop :=
  ∀ i L s s' r, body i L s = (r, s') → s.erm = false →
    s'.erm = false ∧ ∃ T, s'.tr = s.tr ++ T ∧ AllErm false T ∧ guesses T = 0 ∧ steps T ≤ 1 ∧ (records T).length ≤ steps T ∧
      (∀ L' b, r = .ok (L', b) → s'.imp = s.imp ∧ ∃ v, L' = L ++ [v] ∧ records T = [v] ∧ steps T = 1 ∧
        ((v = .nan ∧ b = true ∧ asks T = []) ∨ (v ≠ .nan ∧ asks T = [(i, b)])))

theorem preBody_spec : IterSpec (preBody env) := by
  intro i L s s' r h hs
  unfold preBody at h
  have hb := M.bind_inv h; clear h; rcases hb with ⟨u, s1, h1, h⟩ | ⟨e, h1, hr⟩
  · obtain ⟨⟨f1, f2, f3⟩, T, hT, hc⟩ := stepC_spec h1
    obtain ⟨c1, c2, c3, c4⟩ := hT.counts
    rcases hc with ⟨-, ht⟩ | ⟨⟨e, he⟩, -⟩
    swap
    · simp at he
    have hT0 := hT.allErm
    rw [hs] at hT0 f1
    have hb := M.bind_inv h; clear h; rcases hb with ⟨v, s2, h2, h⟩ | ⟨e, h2, hr⟩
    · obtain ⟨p0, U, p1, p2, p3, p4, p5, p6, p7⟩ := preEval_spec h2 f1
      obtain ⟨⟨g1, g2, g3⟩, V, q1, q2, q3, q4, q5, q6⟩ := finish_spec h
      refine ⟨g1.trans p0, (T ++ [.step]) ++ U ++ V, by rw [q1, p1, ht]; simp,
        ((hT0.append (.step _)).append p2).append q2, by simp [c4, p6, q5], by simp [c1, p3, q3],
        by simp [c2, p4, q4, c1, p3, q3], ?_⟩
      intro L' b hb
      obtain ⟨r1, r2⟩ := q6 L' b hb
      exact ⟨(g2.trans (p7 v rfl).1).trans f2, v, r1, by simp [c2, p4, q4], by simp [c1, p3, q3], by simpa [c3, p5] using r2⟩
    · obtain ⟨p0, U, p1, p2, p3, p4, p5, p6, p7⟩ := preEval_spec h2 f1
      exact ⟨p0, (T ++ [.step]) ++ U, by rw [p1, ht]; simp, (hT0.append (.step _)).append p2, by simp [c4, p6],
        by simp [c1, p3], by simp [c2, p4], fun L' b hb => by simp [hr] at hb⟩
  · obtain ⟨⟨f1, f2, f3⟩, T, hT, hc⟩ := stepC_spec h1
    obtain ⟨c1, c2, c3, c4⟩ := hT.counts
    rcases hc with ⟨he, -⟩ | ⟨-, ht⟩
    · simp at he
    have hT0 := hT.allErm
    rw [hs] at hT0 f1
    exact ⟨f1, T, ht, hT0, c4, by omega, by simp [c2], fun L' b hb => by simp [hr] at hb⟩

theorem postStep_spec {s s' : St W} {r} (h : postStep env s = (r, s')) :
    SameFlags s s' ∧ ∃ T, s'.tr = s.tr ++ T ∧ AllErm s.erm T ∧ guesses T = 0 ∧ steps T ≤ 1 ∧ records T = [] ∧ asks T = [] ∧
      (∀ v, r = .ok v → T = [.eval s.erm s.imp s.training true v, .step]) := by
  unfold postStep at h
  have hb := M.bind_inv h; clear h; rcases hb with ⟨a, s1, h1, h⟩ | ⟨e, h1, -⟩
  swap
  · exact absurd (M.modify_inv h1).1 (by simp)
  obtain ⟨-, rfl⟩ := M.modify_inv h1
  have hb := M.bind_inv h; clear h; rcases hb with ⟨v, s2, h1, h⟩ | ⟨e, h1, hr⟩
  · obtain ⟨hf, hv⟩ := fwd_spec h1
    rcases hv with ⟨e, he, -⟩ | ⟨v', hv', ht⟩
    · simp at he
    simp only [Except.ok.injEq] at hv'
    subst hv'
    have hA : OnlyEvals s.erm s.imp s.training [.eval s.erm s.imp s.training true v] := .single _ _ _ _ _
    have hb := M.bind_inv h; clear h; rcases hb with ⟨u, s3, h1, h⟩ | ⟨e, h1, hr⟩
    · obtain ⟨-, rfl⟩ := M.call_inv h1
      have hb := M.bind_inv h; clear h; rcases hb with ⟨u, s3, h1, h⟩ | ⟨e, h1, hr⟩
      · obtain ⟨-, rfl⟩ := M.call_inv h1
        have hb := M.bind_inv h; clear h; rcases hb with ⟨u, s3, h1, h⟩ | ⟨e, h1, hr⟩
        swap
        · exact absurd (M.modify_inv h1).1 (by simp)
        obtain ⟨-, rfl⟩ := M.modify_inv h1
        obtain ⟨rfl, rfl⟩ := M.pure_inv h
        refine ⟨hf, [.eval s.erm s.imp s.training true v] ++ [.step], by simp [ht], hA.allErm.append (.step _), by simp,
          by simp, by simp, by simp, fun v' hv' => ?_⟩
        simp only [Except.ok.injEq] at hv'
        rw [hv']; rfl
      · obtain ⟨-, rfl⟩ := M.call_inv h1
        exact ⟨hf, _, ht, hA.allErm, by simp, by simp, by simp, by simp, fun v' hv' => by simp [hr] at hv'⟩
    · obtain ⟨-, rfl⟩ := M.call_inv h1
      exact ⟨hf, _, ht, hA.allErm, by simp, by simp, by simp, by simp, fun v' hv' => by simp [hr] at hv'⟩
  · obtain ⟨hf, hv⟩ := fwd_spec h1
    rcases hv with ⟨e', he, ht⟩ | ⟨v', hv', ht⟩
    · exact ⟨hf, [], by simpa using ht, .nil _, by simp, by simp, by simp, by simp, fun v' hv' => by simp [hr] at hv'⟩
    · simp at hv'

theorem postBody_spec : IterSpec (postBody env) := by
  intro i L s s' r h hs
  unfold postBody at h
  have hb := M.bind_inv h; clear h; rcases hb with ⟨v, s1, h1, h⟩ | ⟨e, h1, hr⟩
  · obtain ⟨⟨f1, f2, f3⟩, T, t1, t2, t3, t4, t5, t6, t7⟩ := postStep_spec h1
    have t7 := t7 v rfl
    rw [hs] at f1 t2 t7
    have hst : steps T = 1 := by rw [t7]; rfl
    obtain ⟨⟨g1, g2, g3⟩, V, q1, q2, q3, q4, q5, q6⟩ := finish_spec h
    refine ⟨g1.trans f1, T ++ V, by rw [q1, t1]; simp, t2.append q2, by simp [t3, q5], by simp [hst, q3],
      by simp [t5, q4, hst, q3], ?_⟩
    intro L' b hb
    obtain ⟨r1, r2⟩ := q6 L' b hb
    exact ⟨g2.trans f2, v, r1, by simp [t5, q4], by simp [hst, q3], by simpa [t6] using r2⟩
  · obtain ⟨⟨f1, f2, f3⟩, T, t1, t2, t3, t4, t5, t6, t7⟩ := postStep_spec h1
    rw [hs] at f1 t2
    exact ⟨f1, T, t1, t2, t3, t4, by simp [t5], fun L' b hb => by simp [hr] at hb⟩

theorem trainLoop_spec {body : ℕ → List (XNum ℝ) → M W (List (XNum ℝ) × Bool)} (hbody : IterSpec body) (n : ℕ) :
    ∀ (i : ℕ) (L : List (XNum ℝ)) {s s' : St W} {r}, trainLoop body (List.range' i n) L s = (r, s') → s.erm = false →
      s'.erm = false ∧ ∃ T, s'.tr = s.tr ++ T ∧ AllErm false T ∧ guesses T = 0 ∧ steps T ≤ n ∧ (records T).length ≤ steps T ∧
        (∀ L', r = .ok L' → s'.imp = s.imp ∧ L' = L ++ records T ∧ steps T = (records T).length ∧
          TrainingRun i n (records T) (asks T)) := by
  induction n with
  | zero =>
    intro i L s s' r h hs
    obtain ⟨rfl, rfl⟩ := M.pure_inv h
    refine ⟨hs, [], by simp, .nil _, rfl, le_rfl, le_rfl, fun L' hL => ⟨rfl, ?_, rfl, .exhausted i⟩⟩
    simp only [Except.ok.injEq] at hL
    simp [hL]
  | succ n ih =>
    intro i L s s' r h hs
    rw [List.range'_succ, trainLoop] at h
    have hb := M.bind_inv h; clear h; rcases hb with ⟨⟨L1, b⟩, s1, h1, h⟩ | ⟨e, h1, hr⟩
    · obtain ⟨p0, T, p1, p2, p3, p4, p5, p6⟩ := hbody i L s s1 _ h1 hs
      obtain ⟨q0, v, q1, q2, q3, q4⟩ := p6 L1 b rfl
      simp only at h
      split at h
      · rename_i hb
        subst hb
        obtain ⟨rfl, rfl⟩ := M.pure_inv h
        refine ⟨p0, T, p1, p2, p3, by omega, p5, fun L' hL => ⟨q0, ?_, by rw [q2, q3]; rfl, ?_⟩⟩
        · simp only [Except.ok.injEq] at hL
          rw [← hL, q1, q2]
        · rw [q2]
          rcases q4 with ⟨hv, -, ha⟩ | ⟨hv, ha⟩
          · rw [ha]; exact .diverged _ _ _ hv
          · rw [ha]; exact .satisfied _ _ _ hv
      · rename_i hb
        have hb : b = false := by simpa using hb
        subst hb
        obtain ⟨r0, U, r1, r2, r3, r4, r5, r6⟩ := ih (i + 1) L1 h p0
        refine ⟨r0, T ++ U, by rw [r1, p1]; simp, p2.append r2, by simp [p3, r3], by simp; omega, by simp; omega, ?_⟩
        intro L' hL
        obtain ⟨w0, w1, w2, w3⟩ := r6 L' hL
        refine ⟨w0.trans q0, by rw [w1, q1, records_append, q2]; simp, by simp [q2, q3, w2]; omega, ?_⟩
        rcases q4 with ⟨hv, hb, ha⟩ | ⟨hv, ha⟩
        · simp at hb
        · rw [records_append, asks_append, q2, ha]
          exact .next _ _ _ _ _ hv w3
    · obtain ⟨p0, T, p1, p2, p3, p4, p5, p6⟩ := hbody i L s s' _ h1 hs
      exact ⟨p0, T, p1, p2, p3, by omega, p5, fun L' hL => by simp [hr] at hL⟩

theorem guessDual_spec {s s' : St W} {r} (h : guessDual env s = (r, s')) :
    SameFlags s s' ∧ ((r = .ok () ∧ s'.tr = s.tr ++ [.guess]) ∨ ((∃ e, r = .error e) ∧ s'.tr = s.tr)) := by
  unfold guessDual at h
  have hb := M.bind_inv h; clear h; rcases hb with ⟨u, s1, h1, h⟩ | ⟨e, h1, hr⟩
  · obtain ⟨-, rfl⟩ := M.call_inv h1
    obtain ⟨hr, rfl⟩ := M.modify_inv h
    exact ⟨⟨rfl, rfl, rfl⟩, Or.inl ⟨hr, rfl⟩⟩
  · obtain ⟨-, rfl⟩ := M.call_inv h1
    exact ⟨⟨rfl, rfl, rfl⟩, Or.inr ⟨⟨e, hr⟩, rfl⟩⟩

theorem resetOpt_spec {s s' : St W} {r} (h : resetOpt env s = (r, s')) :
    SameFlags s s' ∧ ∃ T, s'.tr = s.tr ++ T ∧ (T = [] ∨ T = [.reset]) := by
  unfold resetOpt at h
  cases hq : env.resetLbd with
  | some q =>
    simp only [hq] at h
    have hb := M.bind_inv h; clear h; rcases hb with ⟨u, s1, h1, h⟩ | ⟨e, h1, hr⟩
    · obtain ⟨-, rfl⟩ := M.call_inv h1
      obtain ⟨hr, rfl⟩ := M.modify_inv h
      exact ⟨⟨rfl, rfl, rfl⟩, _, rfl, Or.inr rfl⟩
    · obtain ⟨-, rfl⟩ := M.call_inv h1
      exact ⟨⟨rfl, rfl, rfl⟩, [], by simp, Or.inl rfl⟩
  | none =>
    simp only [hq] at h
    obtain ⟨-, rfl⟩ := M.pure_inv h
    exact ⟨⟨rfl, rfl, rfl⟩, [], by simp, Or.inl rfl⟩

theorem resetEvents {T : List Ev} (h : T = [] ∨ T = [.reset]) (e : Bool) :
    AllErm e T ∧ steps T = 0 ∧ records T = [] ∧ asks T = [] ∧ guesses T = 0 := by
  rcases h with rfl | rfl
  · exact ⟨.nil _, rfl, rfl, rfl, rfl⟩
  · exact ⟨.reset _, rfl, rfl, rfl, rfl⟩

/-- the whole pre-sampled optimisation: history `A` before the initialisation of the multiplier, `B` after -/
theorem optimPre_spec {p n : ℤ} {s s' : St W} {r} (h : optimPre env p n s = (r, s')) :
    ∃ A B, (s'.tr = s.tr ++ A ∧ B = [] ∧ (∃ e, r = .error e) ∨ s'.tr = s.tr ++ A ++ [.guess] ++ B ∧ steps A = p.toNat) ∧
      AllErm true A ∧ AllErm false B ∧
      guesses A = 0 ∧ guesses B = 0 ∧ steps A ≤ p.toNat ∧ steps B ≤ n.toNat ∧ records A = [] ∧ asks A = [] ∧
      (records B).length ≤ steps B ∧
      (∀ L, r = .ok L → s'.erm = false ∧ s'.imp = s.imp ∧ steps A = p.toNat ∧
        L = records B ∧ steps B = (records B).length ∧ TrainingRun 0 n.toNat (records B) (asks B)) := by
  unfold optimPre at h
  have hb := M.bind_inv h; clear h; rcases hb with ⟨u, s1, h1, h⟩ | ⟨e, h1, hr⟩
  swap
  · obtain ⟨-, rfl⟩ := M.call_inv h1
    exact ⟨[], [], Or.inl ⟨by simp, rfl, e, hr⟩, .nil _, .nil _, rfl, rfl, by simp, by simp, rfl, rfl, le_rfl,
      fun L hL => by simp [hr] at hL⟩
  obtain ⟨-, rfl⟩ := M.call_inv h1
  have hb := M.bind_inv h; clear h; rcases hb with ⟨u, s1, h1, h⟩ | ⟨e, h1, hr⟩
  swap
  · exact absurd (M.modify_inv h1).1 (by simp)
  obtain ⟨-, rfl⟩ := M.modify_inv h1
  have hb := M.bind_inv h; clear h; rcases hb with ⟨u, s1, h1, h⟩ | ⟨e, h1, hr⟩
  swap
  · obtain ⟨-, A, a1, a2, a3, a4, a5, a6, a7⟩ := repeatM_spec _ h1
    exact ⟨A, [], Or.inl ⟨a1, rfl, e, hr⟩, a2, .nil _, a5, rfl, a6, by simp, a3, a4, le_rfl,
      fun L hL => by simp [hr] at hL⟩
  obtain ⟨⟨f1, f2, f3⟩, A, a1, a2, a3, a4, a5, a6, a7⟩ := repeatM_spec _ h1
  have a7 := a7 u rfl
  simp only at a1 a2 f1 f2 f3
  have hb := M.bind_inv h; clear h; rcases hb with ⟨u, s2, h2, h⟩ | ⟨e, h2, hr⟩
  swap
  · obtain ⟨-, hg⟩ := guessDual_spec h2
    rcases hg with ⟨hg, -⟩ | ⟨-, hg⟩
    · simp at hg
    · exact ⟨A, [], Or.inl ⟨by rw [hg, a1], rfl, e, hr⟩, a2, .nil _, a5, rfl, a6, by simp, a3, a4, le_rfl,
        fun L hL => by simp [hr] at hL⟩
  obtain ⟨⟨g1, g2, g3⟩, hg⟩ := guessDual_spec h2
  rcases hg with ⟨-, hg⟩ | ⟨⟨e, he⟩, -⟩
  swap
  · simp at he
  have hb := M.bind_inv h; clear h; rcases hb with ⟨u, s3, h3, h⟩ | ⟨e, h3, hr⟩
  swap
  · exact absurd (M.modify_inv h3).1 (by simp)
  obtain ⟨-, rfl⟩ := M.modify_inv h3
  have hb := M.bind_inv h; clear h; rcases hb with ⟨u, s4, h4, h⟩ | ⟨e, h4, hr⟩
  swap
  · obtain ⟨-, R, r1, r2⟩ := resetOpt_spec h4
    obtain ⟨e1, e2, e3, e4, e5⟩ := resetEvents r2 false
    refine ⟨A, R, Or.inr ⟨by rw [r1]; simp [hg, a1], a7⟩, a2, e1, a5, e5, a6, by omega, a3, a4, by simp [e3], ?_⟩
    exact fun L hL => by simp [hr] at hL
  obtain ⟨⟨k1, k2, k3⟩, R, r1, r2⟩ := resetOpt_spec h4
  obtain ⟨e1, e2, e3, e4, e5⟩ := resetEvents r2 false
  simp only at k1 k2 r1
  rw [List.range_eq_range'] at h
  obtain ⟨l0, B, l1, l2, l3, l4, l5, l6⟩ := trainLoop_spec preBody_spec n.toNat 0 [] h k1
  refine ⟨A, R ++ B, Or.inr ⟨by rw [l1, r1]; simp [hg, a1], a7⟩, a2, e1.append l2, a5, by simp [e5, l3], a6, by simp [e2, l4],
    a3, a4, by simp [e3, e2, l5], ?_⟩
  intro L hL
  obtain ⟨m0, m1, m2, m3⟩ := l6 L hL
  exact ⟨l0, by rw [m0, k2, g2, f2], a7, by simp [m1, e3], by simp [e2, e3, m2], by simpa [e3, e4] using m3⟩

theorem postPretrain_spec (n : ℕ) : ∀ (L : List (XNum ℝ)) {s s' : St W} {r}, postPretrain env n L s = (r, s') →
    SameFlags s s' ∧ ∃ T, s'.tr = s.tr ++ T ∧ AllErm s.erm T ∧ guesses T = 0 ∧ asks T = [] ∧ steps T ≤ n ∧
      (records T).length ≤ steps T ∧
      (∀ L', r = .ok L' → L' = L ++ records T ∧ (records T).length = n ∧ steps T = n) := by
  induction n with
  | zero =>
    intro L s s' r h
    obtain ⟨rfl, rfl⟩ := M.pure_inv h
    refine ⟨⟨rfl, rfl, rfl⟩, [], by simp, .nil _, rfl, rfl, le_rfl, le_rfl, fun L' hL => ⟨?_, rfl, rfl⟩⟩
    simp only [Except.ok.injEq] at hL
    simp [hL]
  | succ n ih =>
    intro L s s' r h
    rw [postPretrain] at h
    have hb := M.bind_inv h; clear h; rcases hb with ⟨v, s1, h1, h⟩ | ⟨e, h1, hr⟩
    swap
    · obtain ⟨hf, T, t1, t2, t3, t4, t5, t6, t7⟩ := postStep_spec h1
      exact ⟨hf, T, t1, t2, t3, t6, by omega, by simp [t5], fun L' hL => by simp [hr] at hL⟩
    obtain ⟨⟨f1, f2, f3⟩, T, t1, t2, t3, t4, t5, t6, t7⟩ := postStep_spec h1
    have t7 : steps T = 1 := by rw [t7 v rfl]; rfl
    have hb := M.bind_inv h; clear h; rcases hb with ⟨u, s2, h2, h⟩ | ⟨e, h2, hr⟩
    swap
    · exact absurd (M.modify_inv h2).1 (by simp)
    obtain ⟨-, rfl⟩ := M.modify_inv h2
    obtain ⟨⟨g1, g2, g3⟩, U, u1, u2, u3, u4, u5, u6, u7⟩ := ih _ h
    simp only at g1 g2 g3 u1 u2
    rw [f1] at u2
    refine ⟨⟨g1.trans f1, g2.trans f2, g3.trans f3⟩, T ++ [.record v] ++ U, by rw [u1, t1]; simp,
      (t2.append (.record _ _)).append u2, by simp [t3, u3], by simp [t6, u4], by simp [t7]; omega, by simp [t5, t7]; omega, ?_⟩
    intro L' hL
    obtain ⟨w1, w2, w3⟩ := u7 L' hL
    exact ⟨by simp [w1, t5], by simp [t5, w2], by simp [t7, w3]; omega⟩

/-- the whole post-sampled optimisation -/
theorem optimPost_spec {p n : ℤ} {s s' : St W} {r} (h : optimPost env p n s = (r, s')) :
    ∃ A B, (s'.tr = s.tr ++ A ∧ B = [] ∧ (∃ e, r = .error e) ∨ s'.tr = s.tr ++ A ++ [.guess] ++ B ∧ steps A = p.toNat) ∧
      AllErm false A ∧ AllErm false B ∧
      guesses A = 0 ∧ guesses B = 0 ∧ steps A ≤ p.toNat ∧ steps B ≤ n.toNat ∧ asks A = [] ∧
      (records A).length ≤ steps A ∧ (records B).length ≤ steps B ∧
      (∀ L, r = .ok L → s'.erm = false ∧ s'.imp = s.imp ∧ steps A = p.toNat ∧ (records A).length = p.toNat ∧
        L = records A ++ records B ∧ steps B = (records B).length ∧ TrainingRun 0 n.toNat (records B) (asks B)) := by
  unfold optimPost at h
  have hb := M.bind_inv h; clear h; rcases hb with ⟨u, s1, h1, h⟩ | ⟨e, h1, hr⟩
  swap
  · exact absurd (M.modify_inv h1).1 (by simp)
  obtain ⟨-, rfl⟩ := M.modify_inv h1
  have hb := M.bind_inv h; clear h; rcases hb with ⟨L0, s1, h1, h⟩ | ⟨e, h1, hr⟩
  swap
  · obtain ⟨-, A, a1, a2, a3, a4, a5, a6, a7⟩ := postPretrain_spec _ _ h1
    exact ⟨A, [], Or.inl ⟨a1, rfl, e, hr⟩, a2, .nil _, a3, rfl, a5, by simp, a4, a6, le_rfl,
      fun L hL => by simp [hr] at hL⟩
  obtain ⟨⟨f1, f2, f3⟩, A, a1, a2, a3, a4, a5, a6, a7⟩ := postPretrain_spec _ _ h1
  obtain ⟨b1, b2, b3⟩ := a7 L0 rfl
  simp only at a1 a2 f1 f2 f3
  have hb := M.bind_inv h; clear h; rcases hb with ⟨u, s2, h2, h⟩ | ⟨e, h2, hr⟩
  swap
  · obtain ⟨-, hg⟩ := guessDual_spec h2
    rcases hg with ⟨hg, -⟩ | ⟨-, hg⟩
    · simp at hg
    · exact ⟨A, [], Or.inl ⟨by rw [hg, a1], rfl, e, hr⟩, a2, .nil _, a3, rfl, a5, by simp, a4, a6, le_rfl,
        fun L hL => by simp [hr] at hL⟩
  obtain ⟨⟨g1, g2, g3⟩, hg⟩ := guessDual_spec h2
  rcases hg with ⟨-, hg⟩ | ⟨⟨e, he⟩, -⟩
  swap
  · simp at he
  have hb := M.bind_inv h; clear h; rcases hb with ⟨er, s3, h3, h⟩ | ⟨e, h3, hr⟩
  swap
  · exact absurd (M.read_inv h3).1 (by simp)
  obtain ⟨her, rfl⟩ := M.read_inv h3
  simp only [Except.ok.injEq] at her
  rw [g1, f1] at her
  subst her
  simp only [Bool.and_false, Bool.false_eq_true, if_false] at h
  have hb := M.bind_inv h; clear h; rcases hb with ⟨u, s5, h5, h⟩ | ⟨e, h5, hr⟩
  swap
  · exact absurd (M.modify_inv h5).1 (by simp)
  obtain ⟨-, rfl⟩ := M.modify_inv h5
  rw [List.range_eq_range'] at h
  obtain ⟨l0, B, l1, l2, l3, l4, l5, l6⟩ := trainLoop_spec postBody_spec n.toNat 0 L0 h rfl
  refine ⟨A, B, Or.inr ⟨by rw [l1]; simp [hg, a1], b3⟩, a2, l2, a3, l3, a5, l4, a4, a6, l5, ?_⟩
  intro L hL
  obtain ⟨m0, m1, m2, m3⟩ := l6 L hL
  exact ⟨l0, by rw [m0]; exact g2.trans f2, b3, b2, by rw [m1, b1]; simp, m2, m3⟩

end programs
end Skwdro
