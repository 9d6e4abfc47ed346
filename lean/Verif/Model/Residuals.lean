import Verif.Model.Sigma
import Verif.Model.Iekf
import Verif.Model.Composite
import Verif.Model.Linear

/-!
The standard residuals of batch estimation: `navlie/batch/residuals.py:105-288`.
-/

namespace Verif

open Matrix

variable {V U : Type} {n : ℕ}

/-- `types.py:256-258`, `types.py:426-428`, `residuals.py:125`: `cholesky(inv(R))`. -/
noncomputable def sqrtInformation {n : ℕ} (R : Mat n n) : Except Err (Mat n n) := do
  let Ri ← npInv R
  npCholesky Ri

/-- The operations of a state class that residuals use (`types.py:48-183`). -/
structure StateOps (V : Type) (n : ℕ) where
  plus : V → Vec n → V
  minus : V → V → Vec n
  minusJac : V → V → Mat n n

/-- What `evaluate` returns: the error, and the Jacobians if asked for. -/
structure ResOut (m : ℕ) (n : ℕ) where
  error : Vec m
  jacobians : Option (List (Option (Mat m n)))

/-- A Jacobian that is computed only if the flag is set. -/
def whenAsked {α : Type} (flag : Bool) (J : α) : Option α := if flag then some J else none

/-- Python truth value of `compute_jacobians`: `None` and the empty list are false. -/
def truthy : Option (List Bool) → Bool
  | none => false
  | some l => !l.isEmpty

/-- `residuals.py:111-125`: the constructor of `PriorResidual`. -/
structure PriorRes (V : Type) (n : ℕ) where
  x0 : V
  L : Mat n n

/-- `residuals.py:116-126` (`PriorResidual.__init__`). -/
noncomputable def PriorRes.new (x0 : V) (cov : Mat n n) : Except Err (PriorRes V n) := do
  let L ← sqrtInformation cov
  return ⟨x0, L⟩

/-- `residuals.py:128-153` (`PriorResidual.evaluate`). -/
def PriorRes.evaluate (o : StateOps V n) (r : PriorRes V n) (states : List (St V)) (cj : Option (List Bool)) :
    Except Err (ResOut n n) := do
  let x ← pyGet states 0
  let e := r.Lᵀ *ᵥ o.minus x.value r.x0
  if truthy cj then do
    let f ← pyGet (cj.getD []) 0
    return ⟨e, some [whenAsked f (r.Lᵀ * o.minusJac x.value r.x0)]⟩
  else return ⟨e, none⟩

/-- `x_k.stamp - x_km1.stamp`: a missing stamp is a `TypeError`. -/
noncomputable def stampDiff (a b : Option ℝ) : Except Err ℝ :=
  match a, b with
  | some ta, some tb => .ok (ta - tb)
  | _, _ => .error .typeError

/-- `residuals.py:179-222` (`ProcessResidual.evaluate`). -/
noncomputable def processResidual (o : StateOps V n) (f : ProcModel V U n) (u : Inp U) (states : List (St V))
    (cj : Option (List Bool)) : Except Err (ResOut n n) := do
  let xkm1 ← pyGet states 0
  let xk ← pyGet states 1
  let dt ← stampDiff xk.stamp xkm1.stamp
  let xhat := f.evaluate xkm1 u dt
  let L ← sqrtInformation (f.covariance xkm1 u dt)
  let e := Lᵀ *ᵥ o.minus xk.value xhat.value
  if truthy cj then do
    let f0 ← pyGet (cj.getD []) 0
    let f1 ← pyGet (cj.getD []) 1
    return ⟨e, some (whenAsked f0 (-Lᵀ * f.jacobian xkm1 u dt) :: whenAsked f1 (Lᵀ * o.minusJac xk.value xhat.value) ::
      List.replicate (states.length - 2) none)⟩
  else return ⟨e, none⟩

/-- `residuals.py:246-280` (`MeasurementResidual.evaluate`). A model that returns `None` is an `AttributeError`
(`None.reshape`). -/
noncomputable def measurementResidual (y : Meas V n) (states : List (St V)) (cj : Option (List Bool)) :
    Except Err (ResOut y.m n) := do
  let x ← pyGet states 0
  match y.model.evaluate x with
  | none => .error .attributeError
  | some yc => do
    let L ← sqrtInformation (y.model.covariance x)
    let e := Lᵀ *ᵥ fun i => y.value i - yc i
    if truthy cj then do
      let f ← pyGet (cj.getD []) 0
      return ⟨e, some (whenAsked f (-Lᵀ * y.model.jacobian x) :: List.replicate (states.length - 1) none)⟩
    else return ⟨e, none⟩

end Verif
