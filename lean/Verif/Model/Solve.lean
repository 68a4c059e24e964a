import Verif.Model.Dual

/-!
# Training loops

`/repo/skwdro/solvers/entropic_dual_torch.py`; `interpret_steps_struct` of `/repo/skwdro/solvers/utils.py:83-92`;
`iterations` of `/repo/skwdro/solvers/_dual_interfaces/_misc_dual_interfaces.py:231-236`.

The loops are modelled as programs over a state holding the flags of the dual loss they read and write (`erm_mode`,
`imp_samp`, torch's `training`), an abstract world `W` (parameters, optimizer state, random generators, memory of the
optimality condition, flags of the user's module, stored samples) and a history of observable events.  Everything torch or the
user provides acts on the world through the parameters `Env`, each of which may raise.  A program returns its result or
exception *and* the state reached.
-/

namespace Skwdro

/-- observable events of a fit -/
inductive Ev
  /-- the loss was evaluated, with the given modes, for a gradient or not, and value `v` -/
  | eval (erm imp training grad : Bool) (v : XNum ℝ)
  /-- the optimizer completed a step -/
  | step
  /-- the multiplier was initialised -/
  | guess
  /-- the state of the multiplier's optimizer was reset -/
  | reset
  /-- a loss was recorded -/
  | record (v : XNum ℝ)
  /-- the optimality condition was asked at an iteration and answered -/
  | ask (i : ℕ) (b : Bool)

/-- state of a fit -/
structure St (W : Type) where
  w : W
  erm : Bool
  imp : Bool
  training : Bool
  tr : List Ev

/-- programs: exceptions are values and keep the state reached -/
def M (W α : Type) := St W → Except PyErr α × St W

namespace M
variable {W α β : Type}
/-- result -/
def pure (a : α) : M W α := fun s => (.ok a, s)
/-- sequence -/
def bind (m : M W α) (f : α → M W β) : M W β := fun s =>
  match m s with
  | (.ok a, s') => f a s'
  | (.error e, s') => (.error e, s')
instance : Monad (M W) where
  pure := M.pure
  bind := M.bind
/-- exception -/
def raise (e : PyErr) : M W α := fun s => (.error e, s)
/-- state update -/
def modify (f : St W → St W) : M W Unit := fun s => (.ok (), f s)
/-- state read -/
def read (f : St W → α) : M W α := fun s => (.ok (f s), s)
/-- record an event -/
def emit (e : Ev) : M W Unit := modify fun s => { s with tr := s.tr ++ [e] }
/-- external call -/
def call (f : W → Except PyErr α × W) : M W α := fun s => ((f s.w).1, { s with w := (f s.w).2 })
end M

/-- What `optimizer.step(closure)` may do: any finite interaction made of updates of the world and calls of the closure
(whose value it receives), possibly depending on the world, possibly raising. -/
inductive OptProg (W : Type)
  | done
  | fail (e : PyErr)
  | act (f : W → W) (next : W → OptProg W)
  | eval (next : XNum ℝ → OptProg W)

/-- torch, the user's loss and the optimality condition, seen from the loops -/
structure Env (W : Type) where
  /-- `optimizer.zero_grad()` -/
  zeroGrad : W → W
  /-- `loss(xi, xi_labels, ...)` in given modes, followed by `.item()` -/
  forward : (erm imp training : Bool) → W → Except PyErr (XNum ℝ) × W
  /-- `objective.backward()` -/
  backward : W → Except PyErr Unit × W
  /-- `optimizer.step(closure)` -/
  prog : W → OptProg W
  /-- `optimizer.step()` -/
  step : W → Except PyErr Unit × W
  /-- effect of `loss.train(mode)` on the modules below the dual loss -/
  propagate : Bool → W → W
  /-- `loss.init_sampler` if there is no sampler, `loss.generate_zetas()` -/
  genZetas : W → Except PyErr Unit × W
  /-- `loss.get_initial_guess_at_dual(xi, xi_labels)` -/
  initDual : W → Except PyErr Unit × W
  /-- `optimizer.reset_lbd_state`, if it has one -/
  resetLbd : Option (W → Except PyErr Unit × W)
  /-- `isinstance(optimizer, CompositeOptimizer)` -/
  composite : Bool
  /-- `opt_cond(loss, iteration)` -/
  stop : ℕ → W → Except PyErr Bool × W
  /-- `opt_cond.metric == 'grad'` -/
  gradMetric : Bool

section pre
variable {W : Type} (env : Env W)
open M

/-- `math.isnan` -/
def XNum.isNan {α : Type} : XNum α → Bool
  | .nan => true
  | _ => false

/-- `loss.train(mode)`, _misc_dual_interfaces.py:295-297: sets `erm_mode` and `training` to `mode` -/
def lossTrain (mode : Bool) : M W Unit := modify fun s =>
  { s with erm := mode, training := mode, w := env.propagate mode s.w }

/-- `loss.eval()`, _misc_dual_interfaces.py:291-293: `erm_mode = True` then `nn.Module.eval()`, i.e. `self.train(False)` -/
def lossEval : M W Unit := do
  modify fun s => { s with erm := true }
  lossTrain env false

/-- forward pass in the current modes, with its event -/
def fwd (grad : Bool) : M W (XNum ℝ) := do
  let erm ← read (·.erm)
  let imp ← read (·.imp)
  let training ← read (·.training)
  let v ← call (env.forward erm imp training)
  emit (.eval erm imp training grad v)
  Pure.pure v

/-- `closure(back)` of `optim_presample`, entropic_dual_torch.py:152-172 (simplification: `.item()` belongs to the forward
pass, hence happens before `backward()`) -/
def closure (back : Bool) : M W (XNum ℝ) := do
  modify fun s => { s with w := env.zeroGrad s.w }
  if back then do
    let v ← fwd env true
    call env.backward
    Pure.pure v
  else do
    lossEval env
    let v ← fwd env false
    lossTrain env false
    Pure.pure v

/-- run an optimizer's interaction, evaluations being `closure()` -/
def runProg : OptProg W → M W Unit
  | .done => Pure.pure ()
  | .fail e => raise e
  | .act f next => fun s => runProg (next s.w) { s with w := f s.w }
  | .eval next => do
    let v ← closure env true
    runProg (next v)

/-- `optimizer.step(closure)` -/
def stepC : M W Unit := do
  let p ← read (fun s => env.prog s.w)
  runProg env p
  emit .step

/-- `for _ in range(n): body` -/
def repeatM (body : M W Unit) : ℕ → M W Unit
  | 0 => Pure.pure ()
  | n + 1 => do
    body
    repeatM body n

/-- `for i in is: body`, where the body returns the extended list of losses and whether to `break` -/
def trainLoop (body : ℕ → List (XNum ℝ) → M W (List (XNum ℝ) × Bool)) : List ℕ → List (XNum ℝ) → M W (List (XNum ℝ))
  | [], losses => Pure.pure losses
  | i :: is, losses => do
    let (losses, brk) ← body i losses
    if brk then Pure.pure losses else trainLoop body is losses

/-- end of an iteration: record, break on NaN, ask the optimality condition; entropic_dual_torch.py:193-211 and 287-295 -/
def finish (i : ℕ) (losses : List (XNum ℝ)) (v : XNum ℝ) : M W (List (XNum ℝ) × Bool) := do
  emit (.record v)
  if v.isNan then Pure.pure (losses ++ [v], true) else do
    let b ← call (env.stop i)
    emit (.ask i b)
    Pure.pure (losses ++ [v], b)

/-- loss evaluation after a pre-sampled step, lines 193-204 -/
def preEval : M W (XNum ℝ) := do
  let is ← read (·.imp)
  if env.gradMetric then do
    let v ← closure env true
    modify fun s => { s with imp := is }
    Pure.pure v
  else do
    modify fun s => { s with imp := false }
    let v ← closure env false
    modify fun s => { s with imp := is }
    Pure.pure v

/-- one iteration of the training loop of `optim_presample`, lines 190-211 -/
def preBody (i : ℕ) (losses : List (XNum ℝ)) : M W (List (XNum ℝ) × Bool) := do
  stepC env
  let v ← preEval env
  finish env i losses v

/-- `optimizer.reset_lbd_state()` -/
def resetOpt : M W Unit :=
  match env.resetLbd with
  | some r => do
    call r
    emit .reset
  | none => Pure.pure ()

/-- `loss.get_initial_guess_at_dual(xi, xi_labels)` -/
def guessDual : M W Unit := do
  call env.initDual
  emit .guess

/-- `optim_presample`, entropic_dual_torch.py:111-213, with the interpreted schedule -/
def optimPre (pretrain train : ℤ) : M W (List (XNum ℝ)) := do
  call env.genZetas
  modify fun s => { s with erm := true }
  repeatM (stepC env) pretrain.toNat
  guessDual env
  modify fun s => { s with erm := false }
  resetOpt env
  trainLoop (preBody env) (List.range train.toNat) []

/-- one post-sampled step, lines 259-269 and 279-288: returns the loss evaluated *before* the step -/
def postStep : M W (XNum ℝ) := do
  modify fun s => { s with w := env.zeroGrad s.w }
  let v ← fwd env true
  call env.backward
  call env.step
  emit .step
  Pure.pure v

/-- pre-training of `optim_postsample`, lines 258-269: losses are recorded -/
def postPretrain : ℕ → List (XNum ℝ) → M W (List (XNum ℝ))
  | 0, losses => Pure.pure losses
  | n + 1, losses => do
    let v ← postStep env
    emit (.record v)
    postPretrain n (losses ++ [v])

/-- one iteration of the training loop, lines 278-297 -/
def postBody (i : ℕ) (losses : List (XNum ℝ)) : M W (List (XNum ℝ) × Bool) := do
  let v ← postStep env
  finish env i losses v

/-- `optim_postsample`, entropic_dual_torch.py:216-297 -/
def optimPost (pretrain train : ℤ) : M W (List (XNum ℝ)) := do
  modify fun s => { s with erm := false }
  let losses ← postPretrain env pretrain.toNat []
  guessDual env
  let erm ← read (·.erm)
  if env.composite && erm then resetOpt env else Pure.pure ()
  modify fun s => { s with erm := false }
  trainLoop (postBody env) (List.range train.toNat) losses

end pre

/-! ## Schedules -/

/-- `n_iter`: an integer or a pair -/
inductive Steps
  | one (n : ℤ)
  | pair (pretrain train : ℤ)
deriving DecidableEq

/-- python `int(x)`: truncation towards zero -/
noncomputable def pyTrunc (x : ℝ) : ℤ := if 0 ≤ x then ⌊x⌋ else ⌈x⌉

/-- `interpret_steps_struct(steps_spec, default_split)`, utils.py:83-92; `fl` is the rounding of a floating-point product -/
noncomputable def interpretSteps (fl : ℝ → ℝ) (split : ℝ) : Steps → Except PyErr (ℤ × ℤ)
  | .one n => if 0 ≤ split ∧ split ≤ 1 then .ok (pyTrunc (fl (n * split)), n) else .error .assertionError
  | .pair p n => .ok (p, n)

/-- the double nearest to 0.3, default value of `default_split` -/
noncomputable def split03 : ℝ := 5404319552844595 / 2 ^ 54

/-- number of passes of `for iteration in loss.iterations`, _misc_dual_interfaces.py:231-236 -/
def Steps.iterations : Steps → ℤ
  | .one n => n
  | .pair _ n => n

/-! ## Solving -/

/-- what the user gets back -/
structure Solved (Θ : Type) where
  coef : Θ
  intercept : Option Θ
  dual_var : ℝ
  robust_loss : XNum ℝ

/-- parameters read at the end -/
structure Readout (W Θ : Type) where
  theta : W → Θ
  intercept : W → Option Θ
  lam : W → ℝ

/-- `solve_dual_wdro`, entropic_dual_torch.py:45-108, before wrapping (data extraction and type assertions are not modelled).
`rhoPos` is the python test `loss.rho > 0.`  Both loops run the `iterations` of the schedule. -/
noncomputable def solveDual {W Θ : Type} (env : Env W) (out : Readout W Θ) (presample rhoPos : Bool) (fl : ℝ → ℝ) (sched : Steps) :
    M W (Solved Θ) := do
  let (pretrain, _) ← (match interpretSteps fl split03 sched with
    | .ok r => M.pure r
    | .error e => M.raise e)
  let losses ← if presample then optimPre env pretrain sched.iterations else optimPost env pretrain sched.iterations
  let theta ← M.read (fun s => out.theta s.w)
  let intercept ← M.read (fun s => out.intercept s.w)
  let lam ← M.read (fun s => out.lam s.w)
  let lambd := if rhoPos then lam else 0
  match losses.getLast? with
  | some v => Pure.pure ⟨theta, intercept, lambd, v⟩
  | none => M.raise .indexError

end Skwdro
