import Verif.Props.WitSampling
import Verif.Props.Lifecycle

/-! Concrete cases meeting the hypotheses of the theorems on the life cycle of samplers and optimizers, where the theorem's own file has none. -/

namespace Skwdro
open Spec Tensor

variable {G : Type} (ext : TorchExt G)

/-! ## C91 -/

/-- two forward passes, a reading and a drawing -/
noncomputable def witUses (D : DualLoss) : List LifeOp :=
  [.forward D (mat exX) (some (mat exX)) true, .read, .forward D (mat exX) none false, .zetas D (some 3)]

theorem witUses_uses (D : DualLoss) : ∀ op ∈ witUses D, Uses op := by simp [witUses, Uses]

example (g : G) := C91_lazy_false ext (witUses exCons) (witUses_uses _) g
example (g : G) := C91_deleted ext (witUses exCons) (witUses_uses _) (.set (witSampler none)) (by simp) g
example (g : G) := C91_none ext (witUses exCons) (witUses_uses _) (.set (witSampler none)) (mat exX) none (some 1) .quadratic g
example (g : G) := C91_init_labels ext witCost true (mat exX) none 1 none .unset g (by simp)
example (g : G) := C91_assigned ext (wit_built ext none g) .unset (witUses exCons) (witUses_uses _) g

theorem wit_initialise (seed : Option ℤ) (g : G) : (LifeOp.init witCost true (mat exX) (some (mat exX)) 1 seed).run ext .unset g =
    (.ok (.sampler (witSampler seed)), .set (witSampler seed), seedGlobal ext seed g) := by
  simp only [LifeOp.run, initSampler, wit_build]

example (seed : Option ℤ) (g : G) := C91_initialised ext (wit_initialise ext seed g)

theorem wit_forwarded (seed : Option ℤ) (g : G) : ∃ o slot g', (LifeOp.forward (witLoss seed) (mat exX) (some (mat exX)) true).run ext
    (.set (witSampler seed)) g = (.ok o, slot, g') := by
  obtain ⟨v, h⟩ := wit_forward ext seed g
  obtain ⟨s', h2⟩ := (C91_value ext (witLoss seed) (s := witSampler seed) (mat exX) (some (mat exX)) true g).1 h
  exact ⟨_, _, _, h2⟩

example (seed : Option ℤ) (g : G) := C91_recentred ext (wit_built ext seed g) (.reset (.start) (wit_reset ext seed g)) (witLoss seed) (mat exX) (some (mat exX))
  (wit_forwarded ext seed g).choose_spec.choose_spec.choose_spec

theorem counter_shapes (g : ℕ) (sh : List ℕ) : (counterExt.stdNormal g sh).1.shape = sh := rfl

example (y : Option (Tensor ℝ)) := C91_default_newsvendor counterExt counter_shapes (isMat_mat exX) y one_half_pos (some 3) 7
example := C91_default_regressions counterExt counter_shapes (.inl rfl) (isMat_mat exX) (isMat_mat exX) one_half_pos none 7
example := C91_default_regressions counterExt counter_shapes (.inr rfl) (isMat_mat exX) (isMat_mat exX) one_half_pos (some 3) 7
example := C91_default_refused counterExt (isMat_mat exX) (isMat_mat exX) (le_refl 0) (some 3) 7 (.inl rfl)

/-! ## C92, C93 -/

example (g : G) := C92_from_sampler ext exCons (witSampler none) 3 (by norm_num) g
example (lr : Option ℝ) (st : Steps) := C93_adamw (fun x => x) lr st (1 / 10) (by norm_num)
example (lr : Option ℝ) (st : Steps) (adapt : Option PyStr) := C93_lbfgs (fun x => x) adapt lr st (1 / 10) (by norm_num)
example (lr : Option ℝ) := C93_adaptive (fun x => x) lr 200 2800 (1 / 10) (by norm_num)
example (st : Steps) := C93_learning_rate_false (fun x => x) "prodigy".toList (.inl rfl) (some 1) (some 2) st (.num (1 / 10))
example (lr : Option ℝ) (st : Steps) := C93_trained (fun x => x) true none lr st (.num (1 / 10)) (C93_adamw (fun x => x) lr st (1 / 10) (by norm_num)).choose_spec.1

end Skwdro
