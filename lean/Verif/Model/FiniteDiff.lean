import Verif.Model.Residuals
import Mathlib.Data.Complex.Basic

/-!
Finite differences: `navlie/utils/common.py:385-515` (`jacobian`) and the `*_fd` methods of `navlie/types.py`.
-/

namespace Verif

open Matrix

variable {X Y U : Type} {N M : ℕ}

/-- `dx = np.zeros(N); dx[i] = step_size` (`common.py:488-489`). -/
def stepVec (h : ℝ) (i : Fin N) : Vec N := fun j => if j = i then h else 0

/-- The argument `method` of `jacobian`; every other string is `other`. -/
inductive FdMethod where
  | forward | central | cs | other
  deriving DecidableEq

/-- `common.py:447-451`: the default step. -/
noncomputable def defaultStep (m : FdMethod) : ℝ := if m = .cs then 10 ^ (-16 : ℤ) else 10 ^ (-6 : ℤ)

/-- The function given to `jacobian`, with what is needed of its input and output types: `plus` (the state's, or the sum
of arrays), `minus` (the state's, or the difference of arrays; flattened), and, for the complex-step method, the
function evaluated at `x` plus an imaginary perturbation, minus `fun(x)`. A function that raises is outside the
model. -/
structure FdFun (X Y : Type) (N M : ℕ) where
  f : X → Y
  plus : X → Vec N → X
  minus : Y → Y → Vec M
  cdiff : X → Vec N → Fin M → ℂ

/-- `common.py:469-471`: `func_to_diff`. -/
def FdFun.toDiff (F : FdFun X Y N M) (x : X) (dx : Vec N) : Vec M := F.minus (F.f (F.plus x dx)) (F.f x)

/-- One column (`common.py:491-512`). Division by a zero step (NaN or infinity in numpy) is excluded by hypotheses of the
theorems. -/
noncomputable def FdFun.column (F : FdFun X Y N M) (x : X) (h : ℝ) (m : FdMethod) (i : Fin N) :
    Except Err (Vec M) :=
  match m with
  | .forward => .ok fun k => (F.toDiff x (stepVec h i) k - F.toDiff x 0 k) / h
  | .central => .ok fun k => (F.toDiff x (stepVec h i) k - F.toDiff x (-stepVec h i) k) / (2 * h)
  | .cs => .ok fun k => (F.cdiff x (stepVec h i) k).im / h
  | .other => .error .valueError

/-- `common.py:385-515` (`jacobian`): the columns are computed one after the other (`jac_fd[:, i] = ...`). -/
noncomputable def utilsJacobian (F : FdFun X Y N M) (x : X) (step : Option ℝ) (m : FdMethod) : Except Err (Mat M N) := do
  let cols ← (List.finRange N).mapM (F.column x (step.getD (defaultStep m)) m)
  return .of fun k i => (cols.getD i.val 0) k

open Classical in
/-- `types.py:237-251` (`MeasurementModel.jacobian_fd`): `None.size` is an `AttributeError`, `None - y` a `TypeError`. -/
noncomputable def measJacobianFd (plus : X → Vec N → X) (evaluate : X → Option (Vec M)) (x : X) (h : ℝ) :
    Except Err (Mat M N) :=
  match evaluate x with
  | none => .error .attributeError
  | some y =>
    if ∃ i : Fin N, evaluate (plus x (stepVec h i)) = none then .error .typeError
    else .ok (.of fun k i => (((evaluate (plus x (stepVec h i))).getD y) k - y k) / h)

/-- `types.py:390-405` (`ProcessModel.jacobian_fd`). -/
noncomputable def procJacobianFd (o : StateOps X N) (evaluate : X → U → ℝ → X) (x : X) (u : U) (dt h : ℝ) : Mat N N :=
  .of fun k i => o.minus (evaluate (o.plus x (stepVec h i)) u dt) (evaluate x u dt) k / h

/-- `types.py:407-421` (`ProcessModel.input_jacobian_fd`). -/
noncomputable def inputJacobianFd (o : StateOps X N) (uplus : U → Vec M → U) (evaluate : X → U → ℝ → X) (x : X) (u : U)
    (dt h : ℝ) : Mat N M :=
  .of fun k i => o.minus (evaluate x (uplus u (stepVec h i)) dt) (evaluate x u dt) k / h

/-- `types.py:328-352` (`ProcessModel.covariance`): the default covariance, from the covariance of the input; the step of
`input_jacobian_fd` has its default value `1e-6`. -/
noncomputable def defaultCovariance (o : StateOps X N) (uplus : U → Vec M → U) (evaluate : X → U → ℝ → X)
    (inputCov : X → U → ℝ → Mat M M) (x : X) (u : U) (dt : ℝ) : Mat N N :=
  let L := inputJacobianFd o uplus evaluate x u dt (10 ^ (-6 : ℤ))
  L * inputCov x u dt * Lᵀ

/-- `types.py:131-144` (`State.plus_jacobian_fd`). -/
noncomputable def plusJacobianFd (o : StateOps X N) (x : X) (dx : Vec N) (h : ℝ) : Mat N N :=
  .of fun k i => o.minus (o.plus x (dx + stepVec h i)) (o.plus x dx) k / h

/-- A function of arrays, given together with its values at complex points. -/
def arrayFd (f : Vec N → Vec M) (fc : (Fin N → ℂ) → Fin M → ℂ) : FdFun (Vec N) (Vec M) N M where
  f := f
  plus x dx := x + dx
  minus y y' := y - y'
  cdiff x dx := fun k => fc (fun j => (x j : ℂ) + Complex.I * (dx j : ℂ)) k - (f x k : ℂ)

end Verif
