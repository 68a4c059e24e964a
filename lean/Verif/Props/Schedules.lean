import Verif.Spec.Schedules
import Verif.Lemmas.Fit
import Verif.Props.Solve
import Verif.Props.Optimizers

/-! # C110: learning rates follow the schedule of the training -/

namespace Skwdro
open Spec

section anneal

theorem annealed_start (T : ℤ) : annealed T 0 = 1 := by simp [annealed]

theorem annealed_end {T : ℕ} (h : 0 < T) : annealed T T = 0 := by
  have : (T : ℝ) ≠ 0 := by positivity
  simp [annealed, this]

theorem annealed_anti {T k l : ℕ} (hkl : k < l) (hl : l ≤ T) : annealed T l < annealed T k := by
  have hT : (0 : ℝ) < T := by exact_mod_cast (by omega : 0 < T)
  have hk : Real.pi * k / T < Real.pi * l / T := by
    have : (k : ℝ) < l := by exact_mod_cast hkl
    gcongr
  have hl' : Real.pi * l / T ≤ Real.pi := by
    rw [div_le_iff₀ hT]
    have : (l : ℝ) ≤ T := by exact_mod_cast hl
    exact mul_le_mul_of_nonneg_left this Real.pi_pos.le
  have h0 : 0 ≤ Real.pi * k / T := by positivity
  have := Real.strictAntiOn_cos (a := Real.pi * k / T) (b := Real.pi * l / T) ⟨h0, by linarith⟩ ⟨by linarith, hl'⟩ hk
  simp only [annealed, Int.cast_natCast]
  linarith

theorem annealed_pos {T k : ℕ} (h : k < T) : 0 < annealed T k := by
  rw [← annealed_end (by omega : 0 < T)]
  exact annealed_anti h le_rfl

/-- torch's recursion on the learning rate computes the annealed rate -/
theorem rate_annealed {T : ℤ} (hT : T ≠ 0) (base : ℝ) (k : ℕ) :
    (⟨T, base, k + 1⟩ : Cosine).rate (base * annealed T k) = .ok (base * annealed T (k + 1)) := by
  have hT' : (T : ℝ) ≠ 0 := by exact_mod_cast hT
  simp only [Cosine.rate, Nat.succ_ne_zero, if_false, hT, Nat.cast_add, Nat.cast_one, add_sub_cancel_right]
  split
  · next h =>
    obtain ⟨m, hm⟩ := h
    have hm' : (k : ℝ) = T + 2 * T * m := by
      have : (k : ℤ) = T + 2 * T * m := by omega
      exact_mod_cast this
    have h1 : Real.pi * k / T = Real.pi + m * (2 * Real.pi) := by rw [hm']; field_simp
    have h2 : Real.pi * (k + 1) / T = Real.pi / T + Real.pi + m * (2 * Real.pi) := by rw [hm']; field_simp; ring
    congr 1
    simp only [annealed, Nat.cast_add, Nat.cast_one]
    rw [h1, h2, Real.cos_add_int_mul_two_pi, Real.cos_add_int_mul_two_pi, Real.cos_pi, Real.cos_add_pi]
    ring
  · next h =>
    have hne : 1 + Real.cos (Real.pi * k / T) ≠ 0 := by
      intro h0
      apply h
      obtain ⟨m, hm⟩ := (Real.cos_eq_one_iff (Real.pi * k / T - Real.pi)).1 (by rw [Real.cos_sub_pi]; linarith)
      have key : ∃ m : ℤ, (k : ℝ) = T + 2 * T * m := by
        refine ⟨m, ?_⟩
        have hp := Real.pi_ne_zero
        field_simp at hm
        linarith
      obtain ⟨m, hm⟩ := key
      have : (k : ℤ) = T + 2 * T * m := by exact_mod_cast hm
      exact ⟨m, by omega⟩
    congr 1
    simp only [annealed, Nat.cast_add, Nat.cast_one]
    field_simp

end anneal

section rates
variable {S : Type} {o : InnerOpt S}

/-- the optimizer after `k` of the `p + n` iterations, none of them interrupted -/
def AtStep (o : InnerOpt S) (p n : ℤ) (bp bl : ℝ) (k : ℕ) (c : Composite S) : Prop :=
  c.cParams = some ⟨p + n, bp, k⟩ ∧ c.cLam = some ⟨n, bl, k⟩ ∧ o.lr c.sParams = bp * annealed (p + n) k ∧
    o.lr c.sLam = bl * annealed n k

theorem atStep_init (o : InnerOpt S) (p n : ℤ) (params : List ℝ) (lam : ℝ) (s0p s0l : S) :
    AtStep o p n (o.lr s0p) (o.lr s0l) 0 (.init o (some (p, n)) params lam s0p s0l) := by
  simp [AtStep, Composite.init, annealed_start]

theorem atStep_step (ho : KeepsRate o) {p n : ℤ} (hpn : p + n ≠ 0) (hn : n ≠ 0) {bp bl : ℝ} {k : ℕ} {c : Composite S}
    (h : AtStep o p n bp bl k c) (gp : List ℝ) (gl : ℝ) :
    (c.step o gp gl).1 = .ok () ∧ AtStep o p n bp bl (k + 1) (c.step o gp gl).2 := by
  obtain ⟨h1, h2, h3, h4⟩ := h
  have e1 : schedStep o (some ⟨p + n, bp, k⟩) (o.step c.params gp c.sParams).2 = (.ok (), some ⟨p + n, bp, k + 1⟩,
      o.setLr (bp * annealed (p + n) (k + 1)) (o.step c.params gp c.sParams).2) := by
    simp only [schedStep, ho.1, h3, rate_annealed hpn]
  have e2 : schedStep o (some ⟨n, bl, k⟩) (o.step [c.lam] [gl] c.sLam).2 = (.ok (), some ⟨n, bl, k + 1⟩,
      o.setLr (bl * annealed n (k + 1)) (o.step [c.lam] [gl] c.sLam).2) := by
    simp only [schedStep, ho.1, h4, rate_annealed hn]
  simp only [Composite.step, h1, h2, e1, e2, AtStep, ho.2, and_self]

/-- a number of steps with arbitrary gradients -/
def stepOps (gs : List (List ℝ × ℝ)) : List (CompositeOp S) := gs.map fun g => .step g.1 g.2

theorem atStep_run (ho : KeepsRate o) {p n : ℤ} (hpn : p + n ≠ 0) (hn : n ≠ 0) {bp bl : ℝ} (gs : List (List ℝ × ℝ)) {k : ℕ} {c : Composite S}
    (h : AtStep o p n bp bl k c) : (CompositeOp.runAll o (stepOps gs) c).1 = .ok () ∧
      AtStep o p n bp bl (k + gs.length) (CompositeOp.runAll o (stepOps gs) c).2 := by
  induction gs generalizing k c with
  | nil => exact ⟨rfl, h⟩
  | cons g gs ih =>
    obtain ⟨h1, h2⟩ := atStep_step ho hpn hn h g.1 g.2
    rcases he : c.step o g.1 g.2 with ⟨r, c'⟩
    rw [he] at h1 h2
    simp only at h1 h2
    subst h1
    have := ih h2
    simp only [stepOps, List.map_cons, CompositeOp.runAll, CompositeOp.run, he, List.length_cons]
    rw [show k + (gs.length + 1) = k + 1 + gs.length by omega]
    exact this

/-- **C110** ("prodigy") Every number of steps with any gradients goes through, and the learning rates are the initial ones times the
cosine annealing over all iterations for the model, over the robust iterations for the multiplier. -/
theorem C110_rates (ho : KeepsRate o) {p n : ℤ} (hpn : p + n ≠ 0) (hn : n ≠ 0) (params : List ℝ) (lam : ℝ) (s0p s0l : S)
    (gs : List (List ℝ × ℝ)) :
    let r := CompositeOp.runAll o (gs.map fun g => .step g.1 g.2) (.init o (some (p, n)) params lam s0p s0l)
    r.1 = .ok () ∧ o.lr r.2.sParams = o.lr s0p * annealed (p + n) gs.length ∧ o.lr r.2.sLam = o.lr s0l * annealed n gs.length := by
  obtain ⟨h1, h2⟩ := atStep_run ho hpn hn gs (atStep_init o p n params lam s0p s0l)
  rw [Nat.zero_add] at h2
  exact ⟨h1, h2.2.2.1, h2.2.2.2⟩

/-- **C110** ("mechanic") No schedule: the learning rates never change. -/
theorem C110_mechanic (ho : KeepsRate o) (params : List ℝ) (lam : ℝ) (s0p s0l : S) (gs : List (List ℝ × ℝ)) :
    let r := CompositeOp.runAll o (gs.map fun g => .step g.1 g.2) (.init o none params lam s0p s0l)
    r.1 = .ok () ∧ o.lr r.2.sParams = o.lr s0p ∧ o.lr r.2.sLam = o.lr s0l := by
  have key : ∀ (gs : List (List ℝ × ℝ)) (c : Composite S), c.cParams = none → c.cLam = none →
      let r := CompositeOp.runAll o (gs.map fun g => .step g.1 g.2) c
      r.1 = .ok () ∧ o.lr r.2.sParams = o.lr c.sParams ∧ o.lr r.2.sLam = o.lr c.sLam := by
    intro gs
    induction gs with
    | nil => exact fun c _ _ => ⟨rfl, rfl, rfl⟩
    | cons g gs ih =>
      intro c h1 h2
      have := ih (c.step o g.1 g.2).2 (by simp [Composite.step, h1, h2, schedStep]) (by simp [Composite.step, h1, h2, schedStep])
      simp only [Composite.step, h1, h2, schedStep, ho.1] at this
      simp only [List.map_cons, CompositeOp.runAll, CompositeOp.run, Composite.step, h1, h2, schedStep]
      exact this
  exact key gs _ rfl rfl

end rates

section fits
variable {V S : Type} {env : Env (V × Composite S)} {o : InnerOpt S} {grads : V → List ℝ × ℝ}

/-- A predicate that every step carries from `k` to `k + 1` and that everything else keeps holds at the number of steps made. -/
theorem post_ticks {W : Type} {env : Env W} {R : ℕ → W → Prop} (hz : ∀ k w, R k w → R k (env.zeroGrad w))
    (hf : ∀ k e i t w, R k w → R k (env.forward e i t w).2) (hb : ∀ k w, R k w → R k (env.backward w).2)
    (hi : ∀ k w, R k w → R k (env.initDual w).2) (hs : ∀ k i w, R k w → R k (env.stop i w).2)
    (hstep : ∀ k w, R k w → (env.step w).1 = .ok () → R (k + 1) (env.step w).2) (p n : ℤ) (T0 : List Ev) :
    Holds false (fun s => s.tr = T0 ∧ R 0 s.w) (optimPost env p n) (fun _ s => ∃ T, s.tr = T0 ++ T ∧ R (steps T) s.w) := by
  set P : St W → Prop := fun s => s.erm = false ∧ ∃ T, s.tr = T0 ++ T ∧ R (steps T) s.w with hP
  have good : ∀ {α : Type} (r : Except PyErr α × W) (Q : W → Prop), ((∃ a, r.1 = .ok a) → Q r.2) → Good false r (fun _ w => Q w) := by
    intro α r Q h
    rcases hr : r.1 with e | a
    · exact Or.inr ⟨rfl, e, hr⟩
    · exact Or.inl ⟨a, hr, h ⟨a, hr⟩⟩
  have call0 : ∀ {α : Type} (f : W → Except PyErr α × W), (∀ k w, R k w → R k (f w).2) → Holds false P (M.call f) (fun _ s => P s) := by
    intro α f hf
    refine Holds.call fun s ⟨h0, T, h1, h2⟩ => ?_
    exact good _ (fun w => P { s with w := w }) fun _ => ⟨h0, T, h1, hf _ _ h2⟩
  have emit0 : ∀ ev : Ev, ev ≠ .step → Holds false P (M.emit ev) (fun _ s => P s) := by
    intro ev hev
    refine Holds.emit fun s ⟨h0, T, h1, h2⟩ => ⟨h0, T ++ [ev], by simp [h1], ?_⟩
    have : steps (T ++ [ev]) = steps T := by cases ev <;> simp_all [steps]
    rw [this]; exact h2
  have read0 : ∀ {α : Type} (f : St W → α), Holds false P (M.read f) (fun _ s => P s) := fun f => Holds.read fun s hs => hs
  have hpost : Holds false P (postStep env) (fun _ s => P s) := by
    unfold postStep
    refine (Holds.modify (Q := fun _ s => P s) fun s ⟨h0, T, h1, h2⟩ => ⟨h0, T, h1, hz _ _ h2⟩).bind fun _ => ?_
    have hfwd : Holds false P (fwd env true) (fun _ s => P s) := by
      unfold fwd
      exact (read0 _).bind fun e => (read0 _).bind fun i => (read0 _).bind fun t =>
        (call0 _ fun k w => hf k _ _ _ w).bind fun v => (emit0 _ (by simp)).bind fun _ => Holds.pure fun s hs => hs
    refine hfwd.bind fun v => (call0 _ hb).bind fun _ => ?_
    refine Holds.bind (R := fun _ s => s.erm = false ∧ ∃ T, s.tr = T0 ++ T ∧ R (steps T + 1) s.w) ?_ fun _ => ?_
    · refine Holds.call fun s ⟨h0, T, h1, h2⟩ => ?_
      refine good _ (fun w => s.erm = false ∧ ∃ T, s.tr = T0 ++ T ∧ R (steps T + 1) w) fun ⟨_, hok⟩ => ⟨h0, T, h1, hstep _ _ h2 hok⟩
    · refine (Holds.emit (Q := fun _ s => P s) fun s ⟨h0, T, h1, h2⟩ => ⟨h0, T ++ [.step], by simp [h1], ?_⟩).bind fun _ => Holds.pure fun s hs => hs
      have : steps (T ++ [.step]) = steps T + 1 := by simp [steps]
      rw [this]; exact h2
  have hpre : ∀ (m : ℕ) (L : List (XNum ℝ)), Holds false P (postPretrain env m L) (fun _ s => P s) := by
    intro m
    induction m with
    | zero => exact fun L => Holds.pure fun s hs => hs
    | succ m ih => exact fun L => hpost.bind fun v => (emit0 _ (by simp)).bind fun _ => ih _
  have hbody : ∀ k L, Holds false P (postBody env k L) (fun _ s => P s) := by
    intro k L
    refine hpost.bind fun v => ?_
    unfold finish
    refine (emit0 _ (by simp)).bind fun _ => ?_
    split
    · exact Holds.pure fun s hs => hs
    · exact (call0 _ fun j w => hs j _ w).bind fun b => (emit0 _ (by simp)).bind fun _ => Holds.pure fun s hs => hs
  have hloop : ∀ (is : List ℕ) (L : List (XNum ℝ)), Holds false P (trainLoop (postBody env) is L) (fun _ s => P s) := by
    intro is
    induction is with
    | nil => exact fun L => Holds.pure fun s hs => hs
    | cons k is ih =>
      intro L
      refine (hbody k L).bind fun r => ?_
      dsimp only
      split
      · exact Holds.pure fun s hs => hs
      · exact ih _
  have hguess : Holds false P (guessDual env) (fun _ s => P s) := (call0 _ hi).bind fun _ => emit0 _ (by simp)
  unfold optimPost
  refine (Holds.modify (Q := fun _ s => P s) fun s ⟨h1, h2⟩ => ⟨rfl, [], by simp [h1], h2⟩).bind fun _ => ?_
  refine (hpre p.toNat []).bind fun L => hguess.bind fun _ => ?_
  refine (Holds.read (Q := fun e s => e = false ∧ P s) fun s hs => ⟨hs.1, hs⟩).bind fun e => ?_
  rcases e with _ | _
  · simp only [Bool.and_false, Bool.false_eq_true, if_false]
    refine (Holds.modify (Q := fun _ s => P s) fun s hs => ⟨rfl, hs.2.2⟩).bind fun _ => ?_
    exact (hloop _ _).weaken (fun s hs => hs) fun _ _ hs => hs.2
  · exact fun s hs => absurd hs.1 (by simp)

/-- number of losses returned = number of steps -/
theorem post_steps {W : Type} {env : Env W} {p n : ℤ} {s s' : St W} {L : List (XNum ℝ)} (h : optimPost env p n s = (.ok L, s')) :
    ∃ T, s'.tr = s.tr ++ T ∧ steps T = L.length := by
  obtain ⟨A, B, h1, -, -, -, -, -, -, h2, -⟩ := C48_postsampled h
  exact ⟨A ++ [.guess] ++ B, by rw [h1]; simp, by rw [← h2]; simp [steps]⟩

/-- **C110** (post-sampled fit with "prodigy") When a fit returns, wherever its stopping rule ended it, the learning rates are those of the
cosine annealing after as many iterations as losses were returned. -/
theorem C110_fit (ho : KeepsRate o) (hstep : StepsComposite o grads env) (hl : LeavesOptimizer env) {p n : ℤ} (hpn : p + n ≠ 0) (hn : n ≠ 0)
    {params : List ℝ} {lam : ℝ} {s0p s0l : S} {s s' : St (V × Composite S)} (hs : s.w.2 = .init o (some (p, n)) params lam s0p s0l)
    {L : List (XNum ℝ)} (h : optimPost env p n s = (.ok L, s')) :
    o.lr s'.w.2.sParams = o.lr s0p * annealed (p + n) L.length ∧ o.lr s'.w.2.sLam = o.lr s0l * annealed n L.length := by
  have same : ∀ {k : ℕ} {w w' : V × Composite S}, SameOptimizer w w' → AtStep o p n (o.lr s0p) (o.lr s0l) k w.2 →
      AtStep o p n (o.lr s0p) (o.lr s0l) k w'.2 := by
    rintro k w w' ⟨e1, e2, e3, e4⟩ ⟨a1, a2, a3, a4⟩
    exact ⟨e3.trans a1, e4.trans a2, by rw [e1]; exact a3, by rw [e2]; exact a4⟩
  have key := post_ticks (env := env) (R := fun k w => AtStep o p n (o.lr s0p) (o.lr s0l) k w.2) (fun k w => same (hl.zeroGrad w))
    (fun k e i t w => same (hl.forward e i t w)) (fun k w => same (hl.backward w)) (fun k w => same (hl.initDual w))
    (fun k i w => same (hl.stop i w)) (fun k w hw _ => by rw [hstep w]; exact (atStep_step ho hpn hn hw _ _).2) p n s.tr
  rcases key s ⟨rfl, by rw [hs]; exact atStep_init o p n params lam s0p s0l⟩ with ⟨a, s1, h1, T, h2, h3⟩ | ⟨-, e, s1, h1⟩
  · rw [h] at h1
    simp only [Prod.mk.injEq, Except.ok.injEq] at h1
    obtain ⟨rfl, rfl⟩ := h1
    obtain ⟨T', h4, h5⟩ := post_steps h
    rw [h2] at h4
    have := List.append_cancel_left h4
    subst this
    rw [h5] at h3
    exact ⟨h3.2.2.1, h3.2.2.2⟩
  · rw [h] at h1
    simp at h1

/-- **C110** The model's learning rate starts at its initial value, decreases at every iteration, stays positive until the last one and
reaches zero exactly at the end of the `p + n` iterations. -/
theorem C110_model {p n : ℕ} :
    annealed (p + n) 0 = 1 ∧ (∀ k l, k < l → l ≤ p + n → annealed (p + n) l < annealed (p + n) k) ∧
    (∀ k, k < p + n → 0 < annealed (p + n) k) ∧ (0 < p + n → annealed (p + n) (p + n) = 0) := by
  have e : ((p : ℤ) + n) = ((p + n : ℕ) : ℤ) := by push_cast; ring
  rw [e]
  exact ⟨annealed_start _, fun k l => annealed_anti, fun k => annealed_pos, annealed_end⟩

/-- **C110** (violated, multiplier) The schedule of the multiplier, as long as the robust training, already runs during pre-training.  A fit
that made all its `p + n` iterations, `0 < p < n`, ends with a positive learning rate for the multiplier; the rate was already
below its initial value when the robust training began, zero after `n - p` of its `n` iterations, and increased at all
following ones. -/
theorem C110_multiplier_false (ho : KeepsRate o) (hstep : StepsComposite o grads env) (hl : LeavesOptimizer env) {p n : ℕ} (hp : 0 < p) (hpn : p < n)
    {params : List ℝ} {lam : ℝ} {s0p s0l : S} (h0 : 0 < o.lr s0l) {s s' : St (V × Composite S)}
    (hs : s.w.2 = .init o (some ((p : ℤ), (n : ℤ))) params lam s0p s0l)
    {L : List (XNum ℝ)} (h : optimPost env p n s = (.ok L, s')) (hL : L.length = p + n) :
    0 < o.lr s'.w.2.sLam ∧ annealed n p < 1 ∧ annealed n (p + (n - p)) = 0 ∧
      ∀ j l, n - p ≤ j → j < l → l ≤ n → annealed n (p + j) < annealed n (p + l) := by
  have hn : 0 < n := by omega
  have hn' : (n : ℝ) ≠ 0 := by positivity
  have mirror : ∀ k : ℕ, annealed n (n + k) = 1 - annealed n k := by
    intro k
    have : Real.pi * ((n : ℝ) + k) / n = Real.pi * k / n + Real.pi := by field_simp; ring
    simp only [annealed, Nat.cast_add, Int.cast_natCast, this, Real.cos_add_pi]
    ring
  have hlt : annealed n p < 1 := by rw [← annealed_start (n : ℤ)]; exact annealed_anti hp hpn.le
  refine ⟨?_, hlt, ?_, fun j l hj hjl hln => ?_⟩
  · rw [(C110_fit ho hstep hl (by omega) (by omega) hs h).2, hL, add_comm p n, mirror]
    exact mul_pos h0 (by linarith)
  · rw [Nat.add_sub_cancel' hpn.le]
    exact annealed_end hn
  · obtain ⟨a, ha⟩ := Nat.exists_eq_add_of_le (show n ≤ p + j by omega)
    obtain ⟨b, hb⟩ := Nat.exists_eq_add_of_le (show n ≤ p + l by omega)
    rw [ha, hb, mirror, mirror]
    have := annealed_anti (T := n) (show a < b by omega) (by omega)
    linarith

/-- **C110** (violated) A schedule without robust iterations, `n_iter=(p, 0)`: no fit with "prodigy" ever returns, its first step raises
(see C53_empty_schedule_false). -/
theorem C110_no_robust_false (hstep : StepsComposite o grads env) (hl : LeavesOptimizer env) {p : ℤ} (hp : 0 < p)
    {params : List ℝ} {lam : ℝ} {s0p s0l : S} {s : St (V × Composite S)} (hs : s.w.2 = .init o (some (p, 0)) params lam s0p s0l)
    (L : List (XNum ℝ)) (s' : St (V × Composite S)) : optimPost env p 0 s ≠ (.ok L, s') := by
  intro h
  have key := post_ticks (env := env) (R := fun k w => k = 0 ∧ w.2.cParams = some ⟨p + 0, o.lr s0p, 0⟩ ∧ w.2.cLam = some ⟨0, o.lr s0l, 0⟩)
    (fun k w hw => ⟨hw.1, (hl.zeroGrad w).2.2.1.trans hw.2.1, (hl.zeroGrad w).2.2.2.trans hw.2.2⟩)
    (fun k e i t w hw => ⟨hw.1, (hl.forward e i t w).2.2.1.trans hw.2.1, (hl.forward e i t w).2.2.2.trans hw.2.2⟩)
    (fun k w hw => ⟨hw.1, (hl.backward w).2.2.1.trans hw.2.1, (hl.backward w).2.2.2.trans hw.2.2⟩)
    (fun k w hw => ⟨hw.1, (hl.initDual w).2.2.1.trans hw.2.1, (hl.initDual w).2.2.2.trans hw.2.2⟩)
    (fun k i w hw => ⟨hw.1, (hl.stop i w).2.2.1.trans hw.2.1, (hl.stop i w).2.2.2.trans hw.2.2⟩)
    (fun k w hw hok => by
      exfalso
      rw [hstep w] at hok
      obtain ⟨s1, e1⟩ := schedStep_ok o (k := some ⟨p + 0, o.lr s0p, 0⟩) (by rintro c ⟨⟩; simpa using hp.ne')
        (o.step w.2.params (grads w.1).1 w.2.sParams).2
      simp only [Composite.step, hw.2.1, hw.2.2, e1] at hok
      simp [schedStep, Cosine.rate] at hok) p 0 s.tr
  rcases key s ⟨rfl, by rw [hs]; exact ⟨rfl, rfl, rfl⟩⟩ with ⟨a, s1, h1, T, h2, h3⟩ | ⟨-, e, s1, h1⟩
  · rw [h] at h1
    simp only [Prod.mk.injEq, Except.ok.injEq] at h1
    obtain ⟨rfl, rfl⟩ := h1
    obtain ⟨T', h4, h5⟩ := post_steps h
    rw [h2] at h4
    have := List.append_cancel_left h4
    subst this
    obtain ⟨A, B, -, -, -, h6, -, -, -, h7, -⟩ := C48_postsampled h
    have := h3.1
    have := Int.toNat_of_nonneg hp.le
    omega
  · rw [h] at h1
    simp at h1

end fits

section saved
variable {S : Type} {o : InnerOpt S}

theorem not_dvd_turn {n k : ℕ} (hk : k < n) : ¬ (2 * (n : ℤ) ∣ ((k + 1 : ℕ) : ℤ) - 1 - n) := by
  rintro ⟨m, hm⟩
  push_cast at hm
  have h1 : (n : ℤ) * (2 * m + 1) = k := by linarith
  have h2 : (k : ℤ) < n := by exact_mod_cast hk
  have h3 : (0 : ℤ) ≤ k := by positivity
  have h4 : (0 : ℤ) < n := by omega
  have h5 : 2 * m + 1 < 1 := by
    by_contra hc
    have : (n : ℤ) * 1 ≤ n * (2 * m + 1) := mul_le_mul_of_nonneg_left (by omega) h4.le
    omega
  have h6 : -1 < 2 * m + 1 := by
    by_contra hc
    have : (n : ℤ) * (2 * m + 1) ≤ n * (-1) := mul_le_mul_of_nonneg_left (by omega) h4.le
    omega
  omega

/-- **C110** (violated, saved states) A state saved before the last of the `p + n` iterations and loaded into a new optimizer built for the
same schedule: the next step should bring the model's learning rate to zero, as it does in the optimizer that made the
previous steps, but leaves it positive, because saved states do not hold the position in the schedule. -/
theorem C110_restore_false (ho : KeepsRate o) {p n : ℕ} (hn : 0 < n) (h2 : 2 ≤ p + n) (params : List ℝ) (lam : ℝ) (s0p s0l : S) (h0 : 0 < o.lr s0p)
    (gs : List (List ℝ × ℝ)) (hgs : gs.length = p + n - 1) (g : List ℝ × ℝ) :
    let c := (CompositeOp.runAll o (gs.map fun g => .step g.1 g.2) (.init o (some ((p : ℤ), (n : ℤ))) params lam s0p s0l)).2
    let resumed := (Composite.init o (some ((p : ℤ), (n : ℤ))) c.params c.lam s0p s0l).load c.stateDict
    resumed.params = c.params ∧ resumed.lam = c.lam ∧ resumed.stateDict = c.stateDict ∧
      o.lr (c.step o g.1 g.2).2.sParams = 0 ∧ 0 < o.lr (resumed.step o g.1 g.2).2.sParams := by
  intro c resumed
  have hpn : (p : ℤ) + n ≠ 0 := by omega
  have hn0 : (n : ℤ) ≠ 0 := by omega
  have hc := (atStep_run ho hpn hn0 gs (atStep_init o p n params lam s0p s0l)).2
  rw [Nat.zero_add, hgs] at hc
  have hcast : (p : ℤ) + n = ((p + n : ℕ) : ℤ) := by push_cast; ring
  have hlr : o.lr c.sParams = o.lr s0p * annealed (p + n : ℕ) (p + n - 1) := by rw [← hcast]; exact hc.2.2.1
  refine ⟨rfl, rfl, rfl, ?_, ?_⟩
  · have := (atStep_step ho hpn hn0 hc g.1 g.2).2.2.2.1
    rw [Nat.sub_add_cancel (by omega), hcast, annealed_end (by omega), mul_zero] at this
    exact this
  · have hr : (⟨(p : ℤ) + n, o.lr s0p, 0 + 1⟩ : Cosine).rate (o.lr c.sParams) = .ok (annealed (p + n : ℕ) 1 * o.lr c.sParams) := by
      have hnd := not_dvd_turn (n := p + n) (k := 0) (by omega)
      rw [← hcast] at hnd
      simp only [Cosine.rate, Nat.succ_ne_zero, if_false, hpn, hnd]
      simp [annealed]
      norm_num
    have e1 : schedStep o (some ⟨(p : ℤ) + n, o.lr s0p, 0⟩) (o.step c.params g.1 c.sParams).2 = (.ok (), some ⟨(p : ℤ) + n, o.lr s0p, 0 + 1⟩,
        o.setLr (annealed (p + n : ℕ) 1 * o.lr c.sParams) (o.step c.params g.1 c.sParams).2) := by
      simp only [schedStep, ho.1, hr]
    obtain ⟨s2, e2⟩ := schedStep_ok o (k := some ⟨(n : ℤ), o.lr s0l, 0⟩) (by rintro k ⟨⟩; exact hn0) (o.step [c.lam] [g.2] c.sLam).2
    have : o.lr (resumed.step o g.1 g.2).2.sParams = annealed (p + n : ℕ) 1 * o.lr c.sParams := by
      simp only [resumed, Composite.step, Composite.load, Composite.init, Composite.stateDict, Option.map_some, e1, e2, ho.2]
    rw [this, hlr]
    exact mul_pos (annealed_pos (by omega)) (mul_pos h0 (annealed_pos (by omega)))

/-- **C110** (violated, reset) Resetting the multiplier's state after `p` iterations, `0 < p < n`, restores its initial learning rate but
not its schedule: one step later the rate is below that of a schedule that starts over. -/
theorem C110_reset_false (ho : KeepsRate o) {p n : ℕ} (hp : 0 < p) (hpn : p < n) (params : List ℝ) (lam : ℝ) (s0p s0l : S) (h0 : 0 < o.lr s0l)
    (gs : List (List ℝ × ℝ)) (hgs : gs.length = p) (g : List ℝ × ℝ) :
    let c := (CompositeOp.runAll o (gs.map fun g => .step g.1 g.2) (.init o (some ((p : ℤ), (n : ℤ))) params lam s0p s0l)).2
    o.lr c.resetLam.sLam = o.lr s0l ∧ o.lr (c.resetLam.step o g.1 g.2).2.sLam < o.lr s0l * annealed n 1 := by
  intro c
  have hpn0 : (p : ℤ) + n ≠ 0 := by omega
  have hn0 : (n : ℤ) ≠ 0 := by omega
  have hc := (atStep_run ho hpn0 hn0 gs (atStep_init o p n params lam s0p s0l)).2
  rw [Nat.zero_add, hgs] at hc
  have hinit : c.initLam = s0l := init_kept o _ _
  refine ⟨by rw [Composite.resetLam, hinit], ?_⟩
  set q : ℝ := (1 + Real.cos (Real.pi * (p + 1) / n)) / (1 + Real.cos (Real.pi * p / n)) with hq
  have hr : (⟨(n : ℤ), o.lr s0l, p + 1⟩ : Cosine).rate (o.lr s0l) = .ok (q * o.lr s0l) := by
    simp only [Cosine.rate, Nat.succ_ne_zero, if_false, hn0, not_dvd_turn hpn]
    simp [hq]
  have e2 : schedStep o (some ⟨(n : ℤ), o.lr s0l, p⟩) (o.step [c.lam] [g.2] s0l).2 = (.ok (), some ⟨(n : ℤ), o.lr s0l, p + 1⟩,
      o.setLr (q * o.lr s0l) (o.step [c.lam] [g.2] s0l).2) := by
    simp only [schedStep, ho.1, hr]
  obtain ⟨s1, e1⟩ := schedStep_ok o (k := some ⟨(p : ℤ) + n, o.lr s0p, p⟩) (by rintro k ⟨⟩; exact hpn0) (o.step c.params g.1 c.sParams).2
  have : o.lr (c.resetLam.step o g.1 g.2).2.sLam = q * o.lr s0l := by
    have hcp : c.cParams = _ := hc.1
    have hcl : c.cLam = _ := hc.2.1
    simp only [Composite.step, Composite.resetLam, hinit, hcp, hcl, e1, e2, ho.2]
  rw [this, mul_comm]
  apply mul_lt_mul_of_pos_left _ h0
  have hn : (0 : ℝ) < n := by exact_mod_cast (by omega : 0 < n)
  have hpr : (0 : ℝ) < p := by exact_mod_cast hp
  have half : ∀ x : ℝ, 1 + Real.cos x = 2 * Real.cos (x / 2) ^ 2 := by
    intro x
    rw [Real.cos_sq]
    rw [show 2 * (x / 2) = x by ring]
    ring
  set a : ℝ := Real.pi * p / n / 2 with ha
  set b : ℝ := Real.pi / n / 2 with hb
  have hab : Real.pi * (p + 1) / n / 2 = a + b := by rw [ha, hb]; field_simp
  have ha0 : 0 < a := by positivity
  have hb0 : 0 < b := by positivity
  have hle : a + b ≤ Real.pi / 2 := by
    rw [← hab, div_le_div_iff_of_pos_right (by norm_num), div_le_iff₀ hn]
    have : (p : ℝ) + 1 ≤ n := by exact_mod_cast hpn
    exact mul_le_mul_of_nonneg_left this Real.pi_pos.le
  have hca : 0 < Real.cos a := Real.cos_pos_of_mem_Ioo ⟨by linarith [Real.pi_pos], by linarith⟩
  have hcb : 0 < Real.cos b := Real.cos_pos_of_mem_Ioo ⟨by linarith [Real.pi_pos], by linarith⟩
  have hcab : 0 ≤ Real.cos (a + b) := Real.cos_nonneg_of_mem_Icc ⟨by linarith [Real.pi_pos], hle⟩
  have hs : 0 < Real.sin a * Real.sin b :=
    mul_pos (Real.sin_pos_of_pos_of_lt_pi ha0 (by linarith [Real.pi_pos])) (Real.sin_pos_of_pos_of_lt_pi hb0 (by linarith [Real.pi_pos]))
  have hlt : Real.cos (a + b) < Real.cos a * Real.cos b := by rw [Real.cos_add]; linarith
  have hq' : q = Real.cos (a + b) ^ 2 / Real.cos a ^ 2 := by
    rw [hq, half, half, hab, ← ha]
    field_simp
  have ha1 : annealed n 1 = Real.cos b ^ 2 := by
    simp only [annealed, Nat.cast_one, mul_one, Int.cast_natCast]
    rw [half, ← hb]; ring
  rw [hq', ha1, div_lt_iff₀ (by positivity), ← mul_pow, mul_comm (Real.cos b)]
  exact pow_lt_pow_left₀ hlt hcab (by norm_num)

end saved

section witness

/-- training on a constant loss 1: the rest of the world is empty, gradients are those of `x` for the parameter and `3` for the multiplier -/
noncomputable def exSchedEnv : Env (Unit × Composite ℝ) where
  zeroGrad := id
  forward _ _ _ w := (.ok (.fin 1), w)
  backward w := (.ok (), w)
  prog _ := .done
  step w := ((w.2.step exGD [1] 3).1, (w.1, (w.2.step exGD [1] 3).2))
  propagate _ := id
  genZetas w := (.ok (), w)
  initDual w := (.ok (), w)
  resetLbd := none
  composite := true
  stop _ w := (.ok false, w)
  gradMetric := false

theorem exSchedEnv_steps : StepsComposite exGD (fun _ => ([1], 3)) exSchedEnv := fun _ => rfl

theorem exSchedEnv_leaves : LeavesOptimizer exSchedEnv :=
  ⟨fun _ => ⟨rfl, rfl, rfl, rfl⟩, fun _ _ _ _ => ⟨rfl, rfl, rfl, rfl⟩, fun _ => ⟨rfl, rfl, rfl, rfl⟩, fun _ => ⟨rfl, rfl, rfl, rfl⟩,
    fun _ _ => ⟨rfl, rfl, rfl, rfl⟩⟩

theorem exPostStep {k : ℕ} {s : St (Unit × Composite ℝ)} (h : AtStep exGD 1 2 1 1 k s.w.2) :
    ∃ s', postStep exSchedEnv s = (.ok (.fin 1), s') ∧ AtStep exGD 1 2 1 1 (k + 1) s'.w.2 ∧ s'.erm = s.erm := by
  obtain ⟨h1, h2⟩ := atStep_step exGD_keeps (by norm_num) (by norm_num) h [1] 3
  refine ⟨⟨(s.w.1, (s.w.2.step exGD [1] 3).2), s.erm, s.imp, s.training,
    s.tr ++ [.eval s.erm s.imp s.training true (.fin 1)] ++ [.step]⟩, ?_, h2, rfl⟩
  simp only [postStep, fwd, M.bind_def, M.modify, M.read, M.call, M.emit, M.pure_def, exSchedEnv, id, h1]

/-- the whole training of one iteration of pre-training and two of robust training -/
theorem exSchedFit : ∃ L s', optimPost exSchedEnv 1 2 ⟨((), .init exGD (some (1, 2)) [5] 1 1 1), false, true, true, []⟩ = (.ok L, s') ∧
    L.length = 1 + 2 := by
  set s0 : St (Unit × Composite ℝ) := ⟨((), .init exGD (some (1, 2)) [5] 1 1 1), false, true, true, []⟩
  obtain ⟨s1, e1, a1, r1⟩ := exPostStep (s := { s0 with erm := false }) (atStep_init exGD 1 2 [5] 1 1 1)
  obtain ⟨s2, e2, a2, r2⟩ := exPostStep (s := ⟨s1.w, false, s1.imp, s1.training, s1.tr ++ [.record (.fin 1)] ++ [.guess]⟩) a1
  obtain ⟨s3, e3, a3, r3⟩ := exPostStep (s := ⟨s2.w, s2.erm, s2.imp, s2.training, s2.tr ++ [.record (.fin 1)] ++ [.ask 0 false]⟩) a2
  refine ⟨[.fin 1, .fin 1, .fin 1], ⟨s3.w, s3.erm, s3.imp, s3.training, s3.tr ++ [.record (.fin 1)] ++ [.ask 1 false]⟩, ?_, rfl⟩
  have hr1 : s1.erm = false := r1
  have ef : ∀ i w, exSchedEnv.stop i w = (.ok false, w) := fun _ _ => rfl
  have ei : ∀ w, exSchedEnv.initDual w = (.ok (), w) := fun _ => rfl
  simp only [optimPost, M.bind_def, M.modify, Int.toNat_one, postPretrain, e1, M.emit, M.pure_def, guessDual, M.call, ei, M.read, hr1,
    Bool.and_false, Bool.false_eq_true, if_false, show (2 : ℤ).toNat = 2 from rfl, List.range, List.range.loop, trainLoop, postBody, e2, finish,
    XNum.isNan, ef, e3, List.nil_append, List.cons_append]

example := C110_rates exGD_keeps (p := 1) (n := 2) (by norm_num) (by norm_num) [5] 1 1 1
example := C110_mechanic exGD_keeps [5] 1 1 1
example := C110_fit exGD_keeps exSchedEnv_steps exSchedEnv_leaves (p := 1) (n := 2) (by norm_num) (by norm_num) rfl
  exSchedFit.choose_spec.choose_spec.1
example := C110_multiplier_false exGD_keeps exSchedEnv_steps exSchedEnv_leaves (p := 1) (n := 2) (by norm_num) (by norm_num) (s0l := 1)
  (by norm_num [exGD]) rfl exSchedFit.choose_spec.choose_spec.1 exSchedFit.choose_spec.choose_spec.2
example := C110_no_robust_false exSchedEnv_steps exSchedEnv_leaves (p := 3) (by norm_num) (params := [5]) (lam := 1) (s0p := 1) (s0l := 1)
  (s := ⟨((), .init exGD (some (3, 0)) [5] 1 1 1), false, true, true, []⟩) rfl
example := C110_restore_false exGD_keeps (p := 1) (n := 2) (by norm_num) (by norm_num) [5] 1 1 1 (by norm_num [exGD]) [([1], 3), ([1], 3)] rfl ([1], 3)
example := C110_reset_false exGD_keeps (p := 1) (n := 2) (by norm_num) (by norm_num) [5] 1 1 1 (by norm_num [exGD]) [([1], 3)] rfl ([1], 3)

end witness
end Skwdro
