import Verif.Model.Ekf
import Mathlib.Analysis.SpecialFunctions.Sqrt

/-!
`IteratedKalmanFilter` of `navlie/filters.py:263-449`.
-/

namespace Verif

open Matrix

variable {V U : Type} {n : ℕ}

/-- `numpy.linalg.inv`. -/
noncomputable def npInv {m : ℕ} (A : Mat m m) : Except Err (Mat m m) :=
  open Classical in if A.det = 0 then .error .linAlgError else .ok A⁻¹

/-- `numpy.linalg.norm` of a vector. -/
noncomputable def npNorm {m : ℕ} (v : Vec m) : ℝ := Real.sqrt (v ⬝ᵥ v)

/-- `navlie/filters.py:276-288`: attributes of an `IteratedKalmanFilter`, and the further state
operations its code uses (`State.minus`, `State.plus_jacobian`). -/
structure IekfEnv (V U : Type) (n : ℕ) extends EkfEnv V U n where
  stepTol : ℝ
  maxIters : ℕ
  lineSearch : Bool
  minus : V → V → Vec n
  plusJac : V → Vec n → Mat n n

/-- `navlie/filters.py:366-368` and `400-403`: `0.5 (eᵀ P⁻¹ e + zᵀ R⁻¹ z)`. -/
noncomputable def gnCost {m : ℕ} (Pinv : Mat n n) (Rinv : Mat m m) (e : Vec n) (z : Vec m) : ℝ :=
  (1 / 2) * (e ⬝ᵥ Pinv *ᵥ e + z ⬝ᵥ Rinv *ᵥ z)

/-- `Measurement.minus` on the result of `MeasurementModel.evaluate` (`types.py:502-509`):
`None.reshape` is an `AttributeError`. -/
def measMinus {m : ℕ} (value : Vec m) : Option (Vec m) → Except Err (Vec m)
  | none => .error .attributeError
  | some yc => .ok (fun i => value i - yc i)

/-- `navlie/filters.py:393-408`: the backtracking line search. `none` inside `ok` means the step was not
accepted. The `while` loop carries fuel; running out of fuel is reported as `diverges`. -/
noncomputable def IekfEnv.lineSearchLoop (f : IekfEnv V U n) (x : SWC V n) (y : Meas V n)
    (xop : St V) (dx : Vec n) (Pinv : Mat n n) (Rinv : Mat y.m y.m) (costOld : ℝ) :
    ℕ → ℝ → Except Err (Option (St V))
  | 0, _ => .error .diverges
  | fuel + 1, alpha =>
    if alpha > f.stepTol then do
      let xnew := f.plusSt xop (alpha • dx)
      let znew ← measMinus y.value (y.model.evaluate xnew)
      let enew := f.minus xnew.value x.state.value
      let costNew := gnCost Pinv Rinv enew znew
      if costNew < costOld then .ok (some xnew)
      else f.lineSearchLoop x y xop dx Pinv Rinv costOld fuel (alpha * (9 / 10))
    else .ok none

/-- `navlie/filters.py:376-378`: the NIS test, if requested. -/
noncomputable def maybeOutlier (chi2ppf99 : ℕ → ℝ) (reject : Bool) {m : ℕ} (z : Vec m)
    (S : Mat m m) : Except Err Bool :=
  if reject then checkOutlier chi2ppf99 z S else .ok false

/-- Outcome of one pass through the body of the outer loop. -/
inductive GnOutcome (V : Type) where
  | outlier                 -- `break` at 382
  | stop                    -- `break` at 389 or 420
  | step (xnew : St V)      -- 418, continue

/-- `navlie/filters.py:349-420`: one Gauss-Newton pass at operating point `xop` (prior `x`). -/
noncomputable def IekfEnv.gnPass (f : IekfEnv V U n) (lsFuel : ℕ) (x : SWC V n) (y : Meas V n)
    (reject : Bool) (xop : St V) : Except Err (GnOutcome V) := do
  let R := y.model.covariance xop
  let G := y.model.jacobian xop
  let z ← measMinus y.value (y.model.evaluate xop)
  let e := f.minus xop.value x.state.value
  let J := f.plusJac xop.value e
  let Pinv ← npInv x.cov
  let Rinv ← npInv R
  let costOld := gnCost Pinv Rinv e z
  let P := J * x.cov * Jᵀ
  let S := symmetrize (G * P * Gᵀ + R)
  let outlier ← maybeOutlier f.chi2ppf99 reject z S
  if outlier then .ok .outlier
  else do
    let Kt ← solve Sᵀ (P * Gᵀ)ᵀ
    let K := Ktᵀ
    let dx : Vec n := -(J *ᵥ e) + K *ᵥ (z + G *ᵥ (J *ᵥ e))
    if npNorm dx < f.stepTol then .ok .stop
    else if f.lineSearch then do
      let r ← f.lineSearchLoop x y xop dx Pinv Rinv costOld lsFuel 1
      match r with
      | some xnew => .ok (.step xnew)
      | none => .ok .stop
    else .ok (.step (f.plusSt xop dx))

/-- `navlie/filters.py:348-422`: the outer loop, run for at most `k` more passes. Returns the outlier
flag, the operating point, and (ghost) the list of accepted operating points, latest first. -/
noncomputable def IekfEnv.gnLoop (f : IekfEnv V U n) (lsFuel : ℕ) (x : SWC V n) (y : Meas V n)
    (reject : Bool) : ℕ → St V → List (St V) → Except Err (Bool × St V × List (St V))
  | 0, xop, tr => .ok (false, xop, tr)
  | k + 1, xop, tr => do
    match ← f.gnPass lsFuel x y reject xop with
    | .outlier => .ok (true, xop, tr)
    | .stop => .ok (false, xop, tr)
    | .step xnew => f.gnLoop lsFuel x y reject k xnew (xnew :: tr)

/-- `navlie/filters.py:427-445`: recomputation of the covariance at the final operating point. -/
noncomputable def IekfEnv.finish (f : IekfEnv V U n) (x : SWC V n) (y : Meas V n)
    (xjac : Option (St V)) (xop : St V) : Except Err (SWC V n) := do
  let xj := xjac.getD xop
  let G := y.model.jacobian xj
  let R := y.model.covariance xj
  let e := f.minus xop.value x.state.value
  let J := f.plusJac xop.value e
  let P := J * x.cov * Jᵀ
  let S := symmetrize (G * P * Gᵀ + R)
  let Kt ← solve Sᵀ (P * Gᵀ)ᵀ
  let K := Ktᵀ
  return { state := xop, cov := (1 - K * G) * (J * x.cov * Jᵀ) }

/-- `navlie/filters.py:424-445`: keep the prior if the measurement was an outlier. -/
noncomputable def IekfEnv.conclude (f : IekfEnv V U n) (x : SWC V n) (y : Meas V n)
    (xjac : Option (St V)) (outlier : Bool) (xop : St V) : Except Err (SWC V n) :=
  if outlier then .ok x else f.finish x y xjac xop

/-- `navlie/filters.py:325-343`: stamp loading, refusal of old measurements, prediction. -/
noncomputable def IekfEnv.advanceI (f : IekfEnv V U n) (x : SWC V n) (y : Meas V n)
    (u : Option (Inp U)) : Except Err (SWC V n) :=
  let x : SWC V n :=
    match x.state.stamp with
    | none => { x with state := { x.state with stamp := y.stamp } }
    | some _ => x
  match y.stamp with
  | none => .ok x
  | some ty =>
    match x.state.stamp with
    | none => .error .typeError -- unreachable: the stamp was filled above
    | some tx =>
      let dt := ty - tx
      if dt < 0 then .error .runtimeError
      else match u with
        | none => .ok x
        | some u => if dt > 0 then f.predict x (some u) (some dt) none else .ok x

/-- `navlie/filters.py:345-449`: the iteration and the covariance update after the optional
prediction. With `max_iters = 0` the name `outlier` is unbound at line 424. The second component is the
ghost list of accepted iterates. -/
noncomputable def IekfEnv.fuseI (f : IekfEnv V U n) (lsFuel : ℕ) (x : SWC V n) (y : Meas V n)
    (xjac : Option (St V)) (reject : Bool) : Except Err (SWC V n × List (St V)) :=
  if f.maxIters = 0 then .error .unboundLocal
  else do
    let (outlier, xop, tr) ← f.gnLoop lsFuel x y reject f.maxIters x.state []
    let x' ← f.conclude x y xjac outlier xop
    return ({ x' with cov := symmetrize x'.cov }, tr)

/-- `navlie/filters.py:290-449` (`IteratedKalmanFilter.correct`), with the ghost trace. -/
noncomputable def IekfEnv.correctT (f : IekfEnv V U n) (lsFuel : ℕ) (x : SWC V n) (y : Meas V n)
    (u : Option (Inp U)) (xjac : Option (St V)) (reject : Option Bool) :
    Except Err (SWC V n × List (St V)) := do
  let xp ← f.advanceI x y u
  f.fuseI lsFuel xp y xjac (reject.getD f.rejectOutliers)

/-- `IteratedKalmanFilter.correct`. -/
noncomputable def IekfEnv.correctI (f : IekfEnv V U n) (lsFuel : ℕ) (x : SWC V n) (y : Meas V n)
    (u : Option (Inp U)) (xjac : Option (St V)) (reject : Option Bool) : Except Err (SWC V n) :=
  (f.correctT lsFuel x y u xjac reject).map Prod.fst

end Verif
