import Verif.Props.Store
import Verif.Props.StoreAttrs
import Verif.Props.Features
import Verif.Props.WitFits

/-! Concrete cases for the theorems of Props/Store: estimators trained by gradient descent, then called with refused settings, other labels
or a training that fails. -/

namespace Skwdro
open Spec

noncomputable abbrev witPlace (d : ℕ) : InPlace d := realInPlace counterExt (gdTorch ℕ) defaultCond (fun x => x) freshOC 7

theorem witPlace_trainer (d : ℕ) : (witPlace d).trainer = witTrain d freshOC := realInPlace_trainer ..
theorem witPlace_good (d : ℕ) : GoodTrainer (witPlace d).trainer := by rw [witPlace_trainer]; exact witTrain_good d _

/-- the deprecated solver, refused by every estimator -/
noncomputable abbrev witOld : EstParams := { EstKind.linreg.defaults with solver := "entropic".toList }

/-! ## Linear regression -/

noncomputable def witLin : LinCall ℕ := ⟨2, 1, onesGrad 1, witPlace 1, witInit 1, witPD true, fun i _ => i.1, fun i => 2 * i.1, 7⟩
noncomputable def witLinOld : LinCall ℕ := ⟨3, 2, onesGrad 2, witPlace 2, witInit 2, witOld, fun i _ => i.1, fun i => i.1, 7⟩

theorem witLin_good : witLin.Good := witPlace_good 1
theorem witLin_ok : ∃ f, witLin.outcome counterExt witExact = .ok f := by
  unfold LinCall.outcome witLin
  rw [witPlace_trainer]
  exact wit_linreg_dedicated _ true
theorem witLinOld_raises : witLinOld.outcome counterExt witExact = .error .deprecationWarning := by
  obtain ⟨c, hc⟩ := default_cost
  unfold LinCall.outcome witLinOld linregFit
  rw [if_neg (by norm_num), show (witOld).cost = "t-NLC-2-2".toList from rfl, hc, ok_bind]
  rfl

theorem witLinOld_mem : ∀ c' ∈ [witLinOld, witLinOld], c'.Good ∧ ∃ x, c'.outcome counterExt witExact = .error x := by
  intro c' h
  simp only [List.mem_cons, List.not_mem_nil, or_false, or_self] at h
  subst h
  exact ⟨witPlace_good 2, _, witLinOld_raises⟩

example := C116_linreg counterExt witExact [witLinOld.run counterExt witExact] witLin_good witLin_ok.choose_spec [witLinOld, witLinOld] witLinOld_mem
  (N := 1) (fun _ _ => 3)
example := C116_unfitted_partial counterExt witExact [witLinOld, witLinOld] witLinOld_mem (N := 1) (d := 2) (fun _ _ => 3)
example := C116_unfitted_false counterExt witExact [witLinOld, witLinOld] witLinOld_mem ⟨_, List.mem_cons_self .., by norm_num [witLinOld], by norm_num [witLinOld]⟩
  (N := 1) (d := 2) (fun _ _ => 3)
example := C117_linreg counterExt witExact [witLinOld.run counterExt witExact] witLin_good witLin_ok.choose_spec (N := 1) (fun _ _ => 3)
example := C117_linreg_outcome counterExt witExact witLin_good

example := C119_linreg counterExt witExact [witLinOld.run counterExt witExact] witLin_good (witInit_good 1) witLin_ok.choose_spec [witLinOld, witLinOld]
  witLinOld_mem (N := 1) (d' := 3) (by norm_num [witLin]) (fun _ _ => 3)

/-! ## Logistic regression -/

noncomputable def witLog (c : ℕ) : LogCall ℕ ℕ := ⟨3, 2, onesGrad 2, witPlace 2, witInit 2, witP2 true, fun i _ => i.1, fun i => i.1 % c, 7⟩
/-- two labels 5 and 6, deprecated solver -/
noncomputable def witLogOld : LogCall ℕ ℕ :=
  ⟨2, 2, onesGrad 2, witPlace 2, witInit 2, { EstKind.logistic.defaults with solver := "entropic".toList }, fun i _ => i.1, fun i => i.1 + 5, 7⟩
/-- a single label -/
noncomputable def witLogOne : LogCall ℕ ℕ := ⟨2, 2, onesGrad 2, witPlace 2, witInit 2, witP2 true, fun i _ => i.1, fun _ => 5, 7⟩

theorem witLog_good (c : ℕ) : (witLog c).Good := ⟨witPlace_good 2, witInit_good 2⟩
theorem witLogOld_good : witLogOld.Good := ⟨witPlace_good 2, witInit_good 2⟩
theorem witLogOne_good : witLogOne.Good := ⟨witPlace_good 2, witInit_good 2⟩

theorem witLog_ok (solve : Oracle) (c : ℕ) (hc : 1 < c) : ∃ f, (witLog c).outcome counterExt solve = .ok f := by
  unfold LogCall.outcome witLog
  rw [witPlace_trainer]
  exact wit_logistic solve 2 (by norm_num) c hc true _

theorem npUnique_of_image {L : Type} [LinearOrder L] {n : ℕ} {y : Fin n → L} {l : List L} (h : Finset.univ.image y = l.toFinset) (hs : l.Pairwise (· < ·)) :
    npUnique y = l := by
  rw [npUnique, h]
  refine (List.toFinset_sort (· ≤ ·) (hs.imp fun h => h.ne)).2 ?_
  exact hs.imp fun h => h.le

theorem witLog_labels : npUnique (witLog 2).y = [0, 1] := npUnique_of_image (by decide) (by decide)
theorem witLogOld_labels : npUnique witLogOld.y = [5, 6] := npUnique_of_image (by decide) (by decide)
theorem witLogOld_raises (solve : Oracle) : witLogOld.outcome counterExt solve = .error .deprecationWarning := by
  obtain ⟨c, hc⟩ := default_cost
  have hl : ¬ (npUnique witLogOld.y).length < 2 := by rw [witLogOld_labels]; simp
  unfold LogCall.outcome logisticFit
  rw [if_neg (by norm_num [witLogOld])]
  dsimp only
  rw [if_neg hl, show witLogOld.P.cost = "t-NLC-2-2".toList from rfl, hc, ok_bind]
  rfl

section
variable (solve : Oracle)
example := C116_relabel_false counterExt solve [] (witLog_good 2) (witLog_ok solve 2 (by norm_num)).choose_spec witLog_labels witLogOld_good
  (witLogOld_raises solve) witLogOld_labels (by norm_num [witLogOld]) (by norm_num [witLogOld])
example := C116_multiclass_false counterExt solve [witLogOld.run counterExt solve] (witLog_good 3) (witLog_ok solve 3 (by norm_num)).choose_spec
  wit_three (show 2 ≠ (npUnique (fun i : Fin 3 => i.1 % 3)).length from wit_three.ne) witLogOne_good (by norm_num [witLogOne]) (by norm_num [witLogOne])
  (fun _ _ => rfl) (N := 1) (fun _ _ => 3)
example := C117_logistic counterExt solve [witLogOld.run counterExt solve] (witLog_good 3) (witLog_ok solve 3 (by norm_num)).choose_spec (N := 1) (fun _ _ => 3)
example := C117_logistic_outcome counterExt solve (witLog_good 3)

example := C116_logistic_partial counterExt solve [witLogOld.run counterExt solve] (witLog_good 2) (witLog_ok solve 2 (by norm_num)).choose_spec wit_two
  [witLogOne, witLogOne] (by
    intro c' h
    simp only [List.mem_cons, List.not_mem_nil, or_false, or_self] at h
    subst h
    refine ⟨witLogOne_good, ⟨_, C64_single_class _ _ _ _ _ _ _ _ _ fun _ _ => rfl⟩, Or.inl ?_⟩
    rw [npUnique, Finset.length_sort]; decide) (N := 1) (fun _ _ => 3)

/-- training fails at once -/
noncomputable def witLogFails : LogCall ℕ ℕ :=
  { witLog 3 with train := fun _ M _ => (.error .runtimeError, M) }

example := C116_untrained_false counterExt solve [] (c := witLogFails) default_ready (by norm_num [witLogFails, witLog]) (by norm_num [witLogFails, witLog])
  wit_three (x := .runtimeError) (fun _ _ => rfl) (N := 1) (fun _ _ => 3)

/-- a single feature -/
noncomputable def witLogSingle : LogCall ℕ ℕ := ⟨3, 1, onesGrad 1, witPlace 1, witInit 1, witP2 true, fun i _ => i.1, fun i => i.1 % 2, 7⟩
theorem witLogSingle_ok : ∃ f, witLogSingle.outcome counterExt solve = .ok f := by
  unfold LogCall.outcome witLogSingle
  rw [witPlace_trainer]
  exact wit_logistic solve 1 (by norm_num) 2 (by norm_num) true _

example := C119_predict counterExt solve [witLogOld.run counterExt solve] (witLog_good 3) (witLog_ok solve 3 (by norm_num)).choose_spec (N := 1) (d' := 5)
  (by norm_num [witLog]) (fun _ _ => 3)
example := C119_proba_partial counterExt solve [witLogOld.run counterExt solve] (witLog_good 2) (witLog_ok solve 2 (by norm_num)).choose_spec
  (Or.inl (by norm_num [witLog])) (N := 1) (d' := 5) (by norm_num [witLog]) (fun _ _ => 3)
example := C119_single_feature_false counterExt solve [witLogOld.run counterExt solve] (c := witLogSingle) ⟨witPlace_good 1, witInit_good 1⟩
  (witLogSingle_ok solve).choose_spec rfl wit_two (post := true) rfl rfl (N := 1) (d' := 5) (fun _ _ => 3)
end

/-! ## Operations research -/

noncomputable def witNvCall : NvCall ℕ := ⟨3, 1, onesGrad 1, witPlace 1, 2, witNV, fun i _ => i.1, 7⟩
theorem witNvCall_good : witNvCall.Good := witPlace_good 1
theorem witNvCall_ok (solve : Oracle) : ∃ f, witNvCall.outcome counterExt solve = .ok f := by
  unfold NvCall.outcome witNvCall
  rw [witPlace_trainer]
  exact wit_newsvendor solve _

/-- training fails after moving the order to 5 -/
noncomputable def witNvFails : NvCall ℕ := { witNvCall with train := fun _ _ _ => (.error .runtimeError, .newsvendor witNV.k witNV.u 5) }
/-- default settings: deprecated solver -/
noncomputable def witNvOld : NvCall ℕ := { witNvCall with P := EstKind.newsvendor.defaults }

theorem witNvOld_raises (solve : Oracle) : witNvOld.outcome counterExt solve = .error .deprecationWarning := by
  obtain ⟨c, hc⟩ := witNV_ready.code
  unfold NvCall.outcome newsvendorFit
  rw [if_neg (by norm_num [witNvOld, witNvCall]), show witNvOld.P.cost = witNV.cost from rfl, hc, ok_bind]
  rfl

example (solve : Oracle) := C117_newsvendor counterExt solve [witNvFails.run counterExt solve] witNvCall_good (witNvCall_ok solve).choose_spec (N := 1) (m := 1)
  (fun _ _ => 3)
example (solve : Oracle) (s : Store Unit) := C116_newsvendor_partial counterExt solve s (c := witNvOld) witNvCall_good (witNvOld_raises solve)
example (solve : Oracle) := C116_training_false counterExt solve [] (c' := witNvFails) witNvCall_good (witNvCall_ok solve).choose_spec (by decide)
  (by norm_num [witNvFails, witNvCall]) (by norm_num [witNvFails, witNvCall]) (post := false) (by decide) witNV_ready.code witNV_ready.cost.choose_spec.choose_spec.1 witNV_ready.cost.choose_spec.choose_spec.2.1
  witNV_ready.cost.choose_spec.choose_spec.2.2.1 (x := .runtimeError) (th' := 5) (fun _ _ => rfl)

noncomputable def witPfCall : PfCall ℕ :=
  ⟨3, 2, 1, onesGrad 2, witPlace 2, ⟨[0, 0], 0, 1, 1 / 2⟩, witPF, fun _ _ => 0, fun _ => 0, fun i _ => i.1, 7⟩
theorem witPfCall_ok (solve : Oracle) : ∃ f, witPfCall.outcome counterExt solve = .ok f := by
  unfold PfCall.outcome witPfCall
  rw [witPlace_trainer]
  exact wit_pf_torch solve _
/-- regularisation missing -/
noncomputable def witPfNone : PfCall ℕ := { witPfCall with P := { witPF with solver_reg := none } }

example (solve : Oracle) := C119_portfolio counterExt solve [] (c := witPfCall) (witPlace_good 2) rfl (witPfCall_ok solve).choose_spec true (N := 1) (d' := 3)
  (by norm_num [witPfCall]) (fun _ _ => 3)
example (solve : Oracle) := C117_portfolio counterExt solve [witPfNone.run counterExt solve] (c := witPfCall) (witPlace_good 2) (witPfCall_ok solve).choose_spec true
  (N := 1) (fun _ _ => 3)
example (solve : Oracle) (s : Store Unit) := C116_portfolio_partial counterExt solve s (c := witPfNone) (witPlace_good 2) (x := .typeError)
  (by unfold PfCall.outcome portfolioFit; rw [if_neg (by norm_num [witPfNone, witPfCall])]; rfl)
example (solve : Oracle) (s : Store Unit) := C117_stale_threshold_false counterExt solve s (c := witPfCall) (post := true) (by decide)
example (solve : Oracle) (s : Store Unit) := (C117_stale_false counterExt solve).1 s (c := witLin) (by decide)
example (solve : Oracle) := C117_outcome counterExt solve witNvCall_good (p := witPfCall) (witPlace_good 2) (w := ⟨3, 2, onesGrad 2, witPlace 2, fun _ => 0,
  EstKind.weber.defaults, fun i _ => i.1, fun i => 1 + i.1, 7⟩) (witPlace_good 2)

noncomputable def witWebCall : WebCall ℕ := ⟨3, 2, onesGrad 2, witPlace 2, fun _ => 0, EstKind.weber.defaults, fun i _ => i.1, fun i => 1 + i.1, 7⟩
theorem witWebCall_ok : ∃ f, witWebCall.outcome counterExt = .ok f := by
  unfold WebCall.outcome witWebCall
  rw [witPlace_trainer]
  exact wit_weber _
noncomputable def witWebOld : WebCall ℕ := { witWebCall with P := { EstKind.weber.defaults with solver := "dedicated".toList } }

example := C117_weber counterExt [witWebOld.run counterExt] (c := witWebCall) (witPlace_good 2) witWebCall_ok.choose_spec (N := 1) (fun _ _ => 3)
example (s : Store Unit) := C116_weber_partial counterExt s (c := witWebOld) (witPlace_good 2) (x := .notImplemented)
  (by unfold WebCall.outcome weberFit; rw [if_neg (by norm_num [witWebOld, witWebCall])]; rfl)

/-- non-vacuity of the statements on attributes -/
example := C117_dedicated_linreg counterExt witExact [witLinOld.run counterExt witExact] (c := witLin) (by decide) witLin_ok.choose_spec
example (solve : Oracle) := C117_torch_portfolio counterExt solve [] (c := witPfCall) (post := true) (witPlace_good 2) (by decide)
  (witPfCall_ok solve).choose_spec

end Skwdro
