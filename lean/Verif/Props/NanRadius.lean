import Verif.Props.Dedicated

/-! # C121: a radius that is not a number, with the dedicated solvers -/

namespace Skwdro

open Spec

variable {G : Type} {P : EstParams}

/-- **C121** A dedicated linear regression with a NaN radius raises `AssertionError` on every data set, whatever the external solver. -/
theorem C121_linreg {n d : ℕ} (ext : TorchExt G) (grads : Autograd d) (solve : Oracle) (train : Trainer d) (init : LinInit d)
    (hP : P.solver = "dedicated".toList) (hc : ∃ c, cost_from_str P.cost = .ok c) (hR : P.rho = .nan) (hn : 0 < n) (hd : 0 < d)
    (X : Fin n → Fin d → ℝ) (y : Fin n → ℝ) (g : G) : linregFit ext grads solve train init P X y g = .error .assertionError := by
  obtain ⟨c, hc⟩ := hc
  have hr' : route .linreg P.solver = .ok .dedicated := by rw [(C66_route_partial .linreg P.solver).2.1 hP]; rfl
  unfold linregFit
  rw [if_neg (by omega), hc, hr', hR]
  rfl

/-- **C121** A dedicated logistic regression with a NaN radius raises on every data set of two classes, and a dedicated portfolio on every
data set. -/
theorem C121_programs {L : Type} [LinearOrder L] {n d J : ℕ} (ext : TorchExt G) (grads : Autograd d) (solve : Oracle) (train : Trainer d)
    (init : LinInit d) (hP : P.solver = "dedicated".toList) (hc : ∃ c, cost_from_str P.cost = .ok c) (hR : P.rho = .nan) (hn : 0 < n) (hd : 0 < d)
    (X : Fin n → Fin d → ℝ) (y : Fin n → L) (hy : (Finset.univ.image y).card = 2) (p0 : Portfolio) (C : Fin J → Fin d → ℝ) (D : Fin J → ℝ) (g : G) :
    logisticFit ext grads solve train init P X y g = .error .valueError ∧
      ∃ x, portfolioFit ext grads solve train p0 P C D X g = .error x := by
  obtain ⟨c, hc⟩ := hc
  have h1 : route .logistic P.solver = .ok .dedicated := by rw [(C66_route_partial .logistic P.solver).2.1 hP]; rfl
  have h2 : route .portfolio P.solver = .ok .dedicated := by rw [(C66_route_partial .portfolio P.solver).2.1 hP]; rfl
  have hl : (npUnique y).length = 2 := by simp [npUnique, hy]
  constructor
  · unfold logisticFit
    rw [if_neg (by omega)]
    dsimp only
    rw [if_neg (by omega), hc, h1, hR]
    simp only [ok_bind, hl]
    rfl
  · unfold portfolioFit
    rw [if_neg (by omega), hc, h2, hR]
    cases regAsFloat P with
    | error x => exact ⟨x, rfl⟩
    | ok u => exact ⟨_, rfl⟩

/-- **C121** (violated) A dedicated newsvendor with a NaN radius is fitted silently on every data set: with an exact external solver and
non-negative prices it stores the order of least average cost on the sample, with no robustness at all. -/
theorem C121_newsvendor_false {n d : ℕ} (ext : TorchExt G) (grads : Autograd 1) {solve : Oracle} (hs : ExactSolver solve) (train : Trainer 1)
    (theta0 : ℝ) (hP : P.solver = "dedicated".toList) (hc : ∃ c, cost_from_str P.cost = .ok c) (hR : P.rho = .nan) (hk : 0 ≤ P.k)
    (hu : 0 ≤ P.u) (hn : 0 < n) (hd : 0 < d) (X : Fin n → Fin d → ℝ) (g : G) :
    ∃ f cT theta, newsvendorFit ext grads solve train theta0 P X g = .ok f ∧ f.coef = some cT ∧ IsScalar cT theta ∧ 0 ≤ theta ∧
      ∀ t, 0 ≤ t → avg (fun i => newsvendor P.k P.u theta ((∑ j, X i j) / d)) ≤ avg (fun i => newsvendor P.k P.u t ((∑ j, X i j) / d)) := by
  obtain ⟨c, hc⟩ := hc
  have hr' : route .newsvendor P.solver = .ok .dedicated := by rw [(C66_route_partial .newsvendor P.solver).2.1 hP]; rfl
  have hne : List.ofFn (rowMeans X) ≠ [] := by
    intro h
    have := congrArg List.length h
    simp at this
    omega
  have havg : ∀ t, avgCost P.k P.u (List.ofFn (rowMeans X)) t = avg (fun i => newsvendor P.k P.u t ((∑ j, X i j) / d)) := by
    intro t
    unfold avgCost avg
    rw [List.map_ofFn, List.sum_ofFn, List.length_ofFn]
    rfl
  obtain ⟨r, theta, h1, h2, h3, h4, h5⟩ := C60_solver2 hs hk hu (List.ofFn (rowMeans X)) hne
  have hun : unpack2 r = .ok (some (.num theta), some (.num 0)) := by unfold unpack2; rw [h2]; rfl
  classical
  refine ⟨{ coef := some (Tensor.scalar theta), dual_var := some (Tensor.scalar (if theta = 0 then 0 else P.u)) }, Tensor.scalar theta, theta,
    ?_, rfl, ⟨rfl, rfl⟩, h4, fun t ht => by rw [← havg, ← havg]; exact h5 t ht⟩
  unfold newsvendorFit
  rw [if_neg (by omega), hc, hr', hR]
  simp only [ok_bind, newsvendorAt, h1, wrapResult, hun]
  congr 6

/-- the assumptions of the statements above are met: the default cost and prices with the dedicated solver and a NaN radius -/
example : ∃ P : EstParams, P.solver = "dedicated".toList ∧ (∃ c, cost_from_str P.cost = .ok c) ∧ P.rho = .nan ∧ 0 ≤ P.k ∧ 0 ≤ P.u :=
  ⟨{ EstKind.linreg.defaults with solver := "dedicated".toList, rho := .nan, k := 5, u := 7 }, rfl, by
    show ∃ c, cost_from_str "t-NLC-2-2".toList = .ok c
    exact default_cost, rfl, by norm_num, by norm_num⟩

end Skwdro
