import Verif.Model.Basic

/-!
`ExtendedKalmanFilter` of `navlie/filters.py`.
-/

namespace Verif

open Matrix

variable {V U : Type} {n : ℕ}

/-- The parts of a filter object and of the environment that the EKF code reads:
the process model, `self.reject_outliers`, the state's `plus` (value part), and
`scipy.stats.chi2.ppf(0.99, df)` as a function of `df`. -/
structure EkfEnv (V U : Type) (n : ℕ) where
  proc : ProcModel V U n
  rejectOutliers : Bool
  plus : V → Vec n → V
  chi2ppf99 : ℕ → ℝ

/-- `navlie/types.py:95-101` (`State.plus` of a concrete state): acts on the value, keeps the stamp. -/
def EkfEnv.plusSt (e : EkfEnv V U n) (x : St V) (dx : Vec n) : St V :=
  { value := e.plus x.value dx, stamp := x.stamp }

/-- A column vector as a matrix (`reshape((-1, 1))`). -/
def col {m : ℕ} (z : Vec m) : Matrix (Fin m) Unit ℝ := fun i _ => z i

/-- `navlie/filters.py:25-37` (`check_outlier`). -/
noncomputable def checkOutlier (chi2ppf99 : ℕ → ℝ) {m : ℕ} (z : Vec m) (S : Mat m m) :
    Except Err Bool := do
  let w ← solve S (col z)
  let nis : ℝ := ∑ i, z i * w i ()
  return decide (nis > chi2ppf99 m)

/-- `navlie/filters.py:134-145`: the time logic of `predict`; returns `(t_km1, dt)`.
`u = none` is Python's `None`. -/
noncomputable def predictTime (xstamp : Option ℝ) (u : Option (Inp U)) (dt : Option ℝ) :
    Except Err (ℝ × ℝ) := do
  -- 134-139
  let tkm1 ← match xstamp with
    | none => match u with
      | none => Except.error Err.attributeError      -- `None.stamp`
      | some u => match u.stamp with
        | none => Except.error Err.valueError
        | some t => Except.ok t
    | some t => Except.ok t
  -- 141-142
  let dt ← match dt with
    | some d => Except.ok d
    | none => match u with
      | none => Except.error Err.attributeError      -- `None.stamp`
      | some u => match u.stamp with
        | none => Except.error Err.typeError         -- `None - t_km1`
        | some t => Except.ok (t - tkm1)
  -- 144-145
  if dt < 0 then Except.error Err.runtimeError else Except.ok (tkm1, dt)

/-- `navlie/filters.py:152-159`: the propagation itself. -/
noncomputable def EkfEnv.propagate (e : EkfEnv V U n) (x : SWC V n) (u : Inp U) (tkm1 dt : ℝ)
    (xj : St V) : SWC V n :=
  let Q := e.proc.covariance xj u dt
  let xs := e.proc.evaluate x.state u dt
  let A := e.proc.jacobian x.state u dt
  { state := { xs with stamp := some (tkm1 + dt) }
    cov := symmetrize (A * x.cov * Aᵀ + Q) }

/-- `navlie/filters.py:94-166` (`ExtendedKalmanFilter.predict`), without the `details` dict.
The original `x` is not modified because a copy is made (line 130). -/
noncomputable def EkfEnv.predict (e : EkfEnv V U n) (x : SWC V n) (u : Option (Inp U))
    (dt : Option ℝ) (xjac : Option (St V)) : Except Err (SWC V n) := do
  let (tkm1, dt) ← predictTime x.state.stamp u dt
  match u with
  | none => Except.ok x
  | some u => Except.ok (e.propagate x u tkm1 dt (xjac.getD x.state))   -- 148-149, 152-159

/-- The information returned in the `details` dict of `correct` (`filters.py:255`). -/
structure CorrectDetails where
  m : ℕ
  z : Vec m
  S : Mat m m
  isOutlier : Bool

/-- `navlie/filters.py:228-255`: the fusion part of `ExtendedKalmanFilter.correct`, after the
optional prediction. Returns the corrected estimate and the details (absent when `y_check is None`). -/
noncomputable def EkfEnv.fuse (e : EkfEnv V U n) (x : SWC V n) (y : Meas V n)
    (xjac : Option (St V)) (reject : Bool) : Except Err (SWC V n × Option CorrectDetails) := do
  let xj := xjac.getD x.state
  match y.model.evaluate x.state with
  | none => Except.ok (x, none)
  | some ycheck =>
    let G := y.model.jacobian x.state
    let P := x.cov
    let R := y.model.covariance xj
    let z : Vec y.m := fun i => y.value i - ycheck i
    let S := G * P * Gᵀ + R
    let outlier ← if reject then checkOutlier e.chi2ppf99 z S else Except.ok false
    if outlier then Except.ok (x, some ⟨y.m, z, S, true⟩)
    else
      let Kt ← solve Sᵀ (P * Gᵀ)ᵀ
      let K := Ktᵀ
      let dx : Vec n := K *ᵥ z
      Except.ok
        ({ state := e.plusSt x.state dx
           cov := symmetrize ((1 - K * G) * P) }, some ⟨y.m, z, S, false⟩)

/-- `navlie/filters.py:208-226`: the part of `correct` that brings the estimate to the time of the
measurement: load a missing stamp from the measurement, refuse or predict. -/
noncomputable def EkfEnv.advance (e : EkfEnv V U n) (x : SWC V n) (y : Meas V n)
    (u : Option (Inp U)) : Except Err (SWC V n) :=
  -- 210-211
  let x : SWC V n :=
    match x.state.stamp with
    | none => { x with state := { x.state with stamp := y.stamp } }
    | some _ => x
  -- 219-226
  match y.stamp with
  | none => Except.ok x
  | some ty =>
    match x.state.stamp with
    | none => Except.error Err.typeError -- unreachable: the stamp was filled above
    | some tx =>
      let dt := ty - tx
      if dt < -(10 ^ 10 : ℝ) then Except.error Err.runtimeError
      else
        match u with
        | none => Except.ok x
        | some u =>
          if dt > (1 / 10 ^ 11 : ℝ) then e.predict x (some u) (some dt) none else Except.ok x

/-- `navlie/filters.py:168-260` (`ExtendedKalmanFilter.correct`). -/
noncomputable def EkfEnv.correctD (e : EkfEnv V U n) (x : SWC V n) (y : Meas V n)
    (u : Option (Inp U)) (xjac : Option (St V)) (reject : Option Bool) :
    Except Err (SWC V n × Option CorrectDetails) := do
  let xp ← e.advance x y u
  -- 214-215 (default of `reject_outlier`), then 228-255
  e.fuse xp y xjac (reject.getD e.rejectOutliers)

/-- `correct` with `output_details=False`. -/
noncomputable def EkfEnv.correct (e : EkfEnv V U n) (x : SWC V n) (y : Meas V n)
    (u : Option (Inp U)) (xjac : Option (St V)) (reject : Option Bool) :
    Except Err (SWC V n) :=
  (e.correctD x y u xjac reject).map Prod.fst

/-- One call of the EKF API. -/
inductive EkfOp (V U : Type) (n : ℕ) where
  | predict (u : Option (Inp U)) (dt : Option ℝ) (xjac : Option (St V))
  | correct (y : Meas V n) (u : Option (Inp U)) (xjac : Option (St V)) (reject : Option Bool)

/-- Execute one API call on the current estimate. -/
noncomputable def EkfEnv.step (e : EkfEnv V U n) (x : SWC V n) : EkfOp V U n → Except Err (SWC V n)
  | .predict u dt xjac => e.predict x u dt xjac
  | .correct y u xjac reject => e.correct x y u xjac reject

/-- Execute a history of API calls, stopping at the first exception. -/
noncomputable def EkfEnv.run (e : EkfEnv V U n) (x : SWC V n) (ops : List (EkfOp V U n)) :
    Except Err (SWC V n) :=
  ops.foldlM e.step x

end Verif
