import Verif.Model.Solve

/-! Reading the history of a fit. -/

namespace Skwdro.Spec

/-- number of optimizer steps completed -/
def steps (T : List Ev) : ℕ := (T.filter fun | .step => true | _ => false).length

/-- losses recorded, in order -/
def records (T : List Ev) : List (XNum ℝ) := T.filterMap fun | .record v => some v | _ => none

/-- answers of the optimality condition, in order -/
def asks (T : List Ev) : List (ℕ × Bool) := T.filterMap fun | .ask i b => some (i, b) | _ => none

/-- number of initialisations of the multiplier -/
def guesses (T : List Ev) : ℕ := (T.filter fun | .guess => true | _ => false).length

/-- every evaluation of the loss in this part of the history was made with `erm_mode = e` -/
def AllErm (e : Bool) (T : List Ev) : Prop := ∀ erm imp training grad v, Ev.eval erm imp training grad v ∈ T → erm = e

/-- A training loop of at most `n` iterations numbered from `i`, as documented: each iteration yields one loss; a NaN loss ends
the loop; otherwise the optimality condition is asked once, and ends the loop if satisfied. -/
inductive TrainingRun : (i n : ℕ) → List (XNum ℝ) → List (ℕ × Bool) → Prop
  | exhausted (i : ℕ) : TrainingRun i 0 [] []
  | diverged (i n : ℕ) (v : XNum ℝ) : v = .nan → TrainingRun i (n + 1) [v] []
  | satisfied (i n : ℕ) (v : XNum ℝ) : v ≠ .nan → TrainingRun i (n + 1) [v] [(i, true)]
  | next (i n : ℕ) (v : XNum ℝ) (vs : List (XNum ℝ)) (as : List (ℕ × Bool)) : v ≠ .nan → TrainingRun (i + 1) n vs as →
      TrainingRun i (n + 1) (v :: vs) ((i, false) :: as)

/-- A completed fit with `p` steps of pre-training, the initialisation of the multiplier, then a training of at most `n` steps, one loss
each, following the documented stopping rule. -/
def Ran (T : List Ev) (p n : ℤ) : Prop :=
  ∃ A B, T = A ++ [.guess] ++ B ∧ guesses A = 0 ∧ guesses B = 0 ∧ steps A = p.toNat ∧ steps B = (records B).length ∧
    TrainingRun 0 n.toNat (records B) (asks B)

end Skwdro.Spec
