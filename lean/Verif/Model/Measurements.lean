import Verif.Model.Group
import Verif.Model.Camera
import Mathlib.Data.Matrix.ColumnRowPartitioned

/-!
The measurement models: `navlie/lib/models.py:204-217, 346-1263`. A measurement model only calls some methods and properties of
the state it is given; `PoseOps` collects them. Simplification: arrays have the sizes the documentation asks for.
-/

namespace Verif

open Matrix

/-- The attitude group a model picks from the shape of the attitude (`models.py:475-478, 765-768, …`): `pymlg.SO2` or `SO3`. -/
structure AttGroup (α : Type) (n : ℕ) where
  wedge : (α → ℝ) → Mat n n
  odot : Vec n → Matrix (Fin n) α ℝ

/-- `pymlg.SO2`: `odot(b) = [-b[1], b[0]]`. -/
def so2Att : AttGroup (Fin 1) 2 where
  wedge a := skew2 (a 0)
  odot b := !![-b 1; b 0]

/-- `pymlg.SO3`: `odot(b) = -cross(b)`. -/
def so3Att : AttGroup (Fin 3) 3 where
  wedge := skew
  odot b := -skew b

/-- What measurement models use of a state: `plus`, `direction`, `attitude`, `position`, `velocity`, and
`jacobian_from_blocks(attitude, position, velocity)`. -/
structure PoseOps (S κ α : Type) (n : ℕ) where
  plus : S → (κ → ℝ) → S
  dir : S → Dir
  att : S → Mat n n
  pos : S → Except Err (Vec n)
  vel : S → Except Err (Vec n)
  blocks : {μ : Type} → Option (Matrix μ α ℝ) → Option (Matrix μ (Fin n) ℝ) → Option (Matrix μ (Fin n) ℝ) →
    Except Err (Matrix μ κ ℝ)

/-- `SE2State` (`navlie/lib/states.py:345-414`). -/
noncomputable def se2Ops : PoseOps (GSt (Fin 2 ⊕ Fin 1)) (Fin 1 ⊕ Fin 2) (Fin 1) 2 where
  plus := GSt.plus se2
  dir x := x.dir
  att x := x.value.toBlocks₁₁
  pos x := .ok fun i => x.value (.inl i) (.inr 0)
  vel _ := .error .notImplemented
  blocks a p v :=
    match a, p, v with
    | _, _, some _ => .error .typeError
    | none, none, none => .error .unboundLocal
    | a, p, none => .ok (fromCols (a.getD 0) (p.getD 0))

/-- `SE3State` (`navlie/lib/states.py:417-544`). -/
noncomputable def se3Ops : PoseOps (GSt (Fin 3 ⊕ Fin 1)) (Fin 3 ⊕ Fin 3) (Fin 3) 3 where
  plus := GSt.plus se3
  dir x := x.dir
  att x := Pose.rot x.value
  pos x := .ok (Pose.pos x.value)
  vel _ := .error .notImplemented
  blocks a p v :=
    match a, p, v with
    | _, _, some _ => .error .typeError
    | none, none, none => .error .unboundLocal
    | a, p, none => .ok (fromCols (a.getD 0) (p.getD 0))

/-- The columns of attitude, velocity, position side by side. -/
def navCols {μ : Type} (a v p : Matrix μ (Fin 3) ℝ) : Matrix μ (Fin 3 × Fin 3) ℝ := .of fun i k => ![a, v, p] k.1 i k.2

/-- `SE23State` (`navlie/lib/states.py:547-629`). -/
noncomputable def se23Ops : PoseOps (GSt (Fin 3 ⊕ Fin 2)) (Fin 3 × Fin 3) (Fin 3) 3 where
  plus := GSt.plus se23
  dir x := x.dir
  att x := EPose.rot x.value
  pos x := .ok (EPose.colB x.value)
  vel x := .ok (EPose.colA x.value)
  blocks a p v :=
    match a, p, v with
    | none, none, none => .error .unboundLocal
    | a, p, v => .ok (navCols (a.getD 0) (v.getD 0) (p.getD 0))

/-- `SO3State` (`navlie/lib/states.py:260-341`): `jacobian_from_blocks` knows the attitude only. -/
noncomputable def so3Ops : PoseOps (GSt (Fin 3)) (Fin 3) (Fin 3) 3 where
  plus := GSt.plus so3
  dir x := x.dir
  att x := x.value
  pos _ := .error .notImplemented
  vel _ := .error .notImplemented
  blocks a p v :=
    match a, p, v with
    | some a, none, none => .ok a
    | _, _, _ => .error .typeError

/-- `IMUState` (`navlie/lib/imu.py:138-297`) with biases: `jacobian_from_blocks` without bias blocks. -/
noncomputable def imuOps : PoseOps ImuSt (Fin 5 × Fin 3) (Fin 3) 3 where
  plus x ξ := x.plus fun i p => ξ (i, p)
  dir x := x.dir
  att x := x.pose.rot
  pos x := .ok x.pose.colB
  vel x := .ok x.pose.colA
  blocks a p v :=
    match a, p, v with
    | none, none, none => .error .unboundLocal
    | a, p, v => .ok (.of fun i k => ![a.getD 0, v.getD 0, p.getD 0, 0, 0] k.1 i k.2)

/-! ### Vector states -/

/-- `models.py:371-372` (`LinearMeasurement.evaluate`). -/
def linEval {n m : ℕ} (C : Mat m n) (x : Vec n) : Vec m := C *ᵥ x

/-- `models.py:374-375` (`LinearMeasurement.jacobian`). -/
def linJac {n m : ℕ} (C : Mat m n) (_x : Vec n) : Mat m n := C

/-- `x.value[0:dim]` -/
def headVec {n d : ℕ} (h : d ≤ n) (x : Vec n) : Vec d := fun i => x (Fin.castLE h i)

/-- `models.py:408-411` (`RangePointToAnchor.evaluate`). -/
noncomputable def rpaEval {n d : ℕ} (h : d ≤ n) (anchor : Vec d) (x : Vec n) : ℝ := npNorm (anchor - headVec h x)

/-- Division of an array by a number: numpy gives NaN or infinite entries for zero. -/
noncomputable def npScale {κ : Type} (c : ℝ) (v : κ → ℝ) : Except Err (κ → ℝ) := if c = 0 then .error .nan else .ok (c⁻¹ • v)

/-- `models.py:413-420` (`RangePointToAnchor.jacobian`): zeros, then `jac[0, :dim]` is written. -/
noncomputable def rpaJac {n d : ℕ} (h : d ≤ n) (anchor : Vec d) (x : Vec n) : Except Err (Mat 1 n) := do
  let r := headVec h x - anchor
  let ρ ← npScale (npNorm r) r
  return .of fun _ j => if hj : j.val < d then ρ ⟨j, hj⟩ else 0

/-- `models.py:212-213` (`OneDimensionalPositionVelocityRange.evaluate`). -/
def odpvEval (x : Vec 2) : ℝ := x 0

/-- `models.py:215-216` (`OneDimensionalPositionVelocityRange.jacobian`). -/
def odpvJac (_x : Vec 2) : Mat 1 2 := !![1, 0]

/-! ### Pose states -/

section

variable {S κ α : Type} [Fintype α] {n : ℕ} (A : AttGroup α n) (P : PoseOps S κ α n)

/-- `models.py:463-467` (`PointRelativePosition.evaluate`). -/
def prpEval (p : Vec n) (x : S) : Except Err (Vec n) := do
  let r ← P.pos x
  return (P.att x)ᵀ *ᵥ (p - r)

/-- `models.py:469-488` (`PointRelativePosition.jacobian`). -/
def prpJac (p : Vec n) (x : S) : Except Err (Matrix (Fin n) κ ℝ) := do
  let r ← P.pos x
  let C := P.att x
  let y := Cᵀ *ᵥ (p - r)
  match P.dir x with
  | .right => P.blocks (some (-A.odot y)) (some (-1)) none
  | .left => P.blocks (some (-Cᵀ * A.odot p)) (some (-Cᵀ)) none

/-- A row vector as a matrix with one row. -/
def rowMat {κ : Type} (v : κ → ℝ) : Matrix (Fin 1) κ ℝ := .of fun _ => v

/-- `models.py:755-761` (`RangePoseToAnchor.evaluate`). -/
noncomputable def rangeEval (anchor tag : Vec n) (x : S) : Except Err ℝ := do
  let r ← P.pos x
  return npNorm (P.att x *ᵥ tag + r - anchor)

/-- The blocks of a range with unit vector `ρ` to a tag at `tag` in the body frame (`models.py:774-785, 863-879`). -/
def tagBlocks (ρ tag : Vec n) (x : S) (r : Vec n) : Except Err (Matrix (Fin 1) κ ℝ) :=
  match P.dir x with
  | .right => P.blocks (some (rowMat ρ * P.att x * A.odot tag)) (some (rowMat ρ * P.att x)) none
  | .left => P.blocks (some (rowMat ρ * A.odot (P.att x *ᵥ tag + r))) (some (rowMat ρ * (1 : Mat n n))) none

/-- `models.py:763-786` (`RangePoseToAnchor.jacobian`). -/
noncomputable def rangeJac (anchor tag : Vec n) (x : S) : Except Err (Matrix (Fin 1) κ ℝ) := do
  let r ← P.pos x
  let v := P.att x *ᵥ tag + r - anchor
  let ρ ← npScale (npNorm v) v
  tagBlocks A P ρ tag x r

/-- `models.py:937-938` (`AbsolutePosition.evaluate`). -/
def apEval (x : S) : Except Err (Vec n) := P.pos x

/-- `models.py:940-953` (`AbsolutePosition.jacobian`). -/
def apJac (x : S) : Except Err (Matrix (Fin n) κ ℝ) := do
  match P.dir x with
  | .right => P.blocks none (some (P.att x)) none
  | .left => do
    let r ← P.pos x
    P.blocks (some (A.odot r)) (some 1) none

/-- `models.py:985-986` (`AbsoluteVelocity.evaluate`). -/
def avEval (x : S) : Except Err (Vec n) := P.vel x

/-- `models.py:988-1001` (`AbsoluteVelocity.jacobian`). -/
def avJac (x : S) : Except Err (Matrix (Fin n) κ ℝ) := do
  match P.dir x with
  | .right => P.blocks none none (some (P.att x))
  | .left => do
    let v ← P.vel x
    P.blocks (some (A.odot v)) none (some 1)

/-- The covariance argument of some models: a number or a matrix. -/
inductive MeasCov (n : ℕ) where
  | scalar (r : ℝ)
  | mat (R : Mat n n)

/-- `models.py:955-959, 1096-1100, 1141-1145` (`covariance` of `AbsolutePosition`, `Gravitometer`, `Magnetometer`): a number
is multiplied with the identity of the size of the position. -/
def covByPos (R : MeasCov n) (x : S) : Except Err (Mat n n) :=
  match R with
  | .mat R => .ok R
  | .scalar r => do
    let _ ← P.pos x
    return r • 1

/-- `models.py:1003-1007` (`AbsoluteVelocity.covariance`). -/
def covByVel (R : MeasCov n) (x : S) : Except Err (Mat n n) :=
  match R with
  | .mat R => .ok R
  | .scalar r => do
    let _ ← P.vel x
    return r • 1

/-- The vector measured by `Gravitometer` (`models.py:1072-1085`) and `Magnetometer` (`1116-1130`), with its default. -/
def gravityVector (g : Option (Vec 3)) : Vec 3 := g.getD ![0, 0, -9.80665]

/-- `models.py:1116-1130`. -/
def magneticVector (m : Option (Vec 3)) : Vec 3 := m.getD ![0, 1, 0]

/-- `models.py:1087-1088, 1132-1133` (`Gravitometer.evaluate`, `Magnetometer.evaluate`). -/
def vdEval (g : Vec n) (x : S) : Except Err (Vec n) := .ok ((P.att x)ᵀ *ᵥ g)

/-- `models.py:1090-1094, 1135-1139` (`Gravitometer.jacobian`, `Magnetometer.jacobian`). -/
def vdJac (g : Vec n) (x : S) : Except Err (Matrix (Fin n) κ ℝ) :=
  match P.dir x with
  | .right => P.blocks (some (-A.odot ((P.att x)ᵀ *ᵥ g))) none none
  | .left => P.blocks (some ((P.att x)ᵀ * -A.odot g)) none none

/-! ### Invariant innovations -/

/-- A measurement model, as the invariant innovation uses it. -/
structure VMeas (S κ : Type) (n : ℕ) where
  evaluate : S → Except Err (Vec n)
  jacobian : S → Except Err (Matrix (Fin n) κ ℝ)
  covariance : S → Except Err (Mat n n)

/-- `models.py:1189-1201` (`_InvariantInnovation._compute_direction`). -/
def invDir (direction : String) (d : Dir) : Except Err Dir :=
  if direction = "left" then .ok .left
  else if direction = "right" then .ok .right
  else if direction = "auto" then .ok (match d with | .left => .right | .right => .left)
  else .error .valueError

/-- The matrix that multiplies the error: `x.attitude.T` for `"left"`, `x.attitude` for `"right"`. -/
def invMat (d : Dir) (C : Mat n n) : Mat n n :=
  match d with
  | .left => Cᵀ
  | .right => C

/-- `models.py:1154-1164` (`_InvariantInnovation.evaluate`). -/
def invEval (M : VMeas S κ n) (y : Vec n) (direction : String) (x : S) : Except Err (Vec n) := do
  let yh ← M.evaluate x
  let d ← invDir direction (P.dir x)
  return invMat d (P.att x) *ᵥ (yh - y)

/-- `models.py:1166-1175` (`_InvariantInnovation.jacobian`). -/
def invJac (M : VMeas S κ n) (direction : String) (x : S) : Except Err (Matrix (Fin n) κ ℝ) := do
  let G ← M.jacobian x
  let d ← invDir direction (P.dir x)
  return invMat d (P.att x) * G

/-- `models.py:1177-1187` (`_InvariantInnovation.covariance`). -/
def invCov (M : VMeas S κ n) (direction : String) (x : S) : Except Err (Mat n n) := do
  let R ← M.covariance x
  let d ← invDir direction (P.dir x)
  return invMat d (P.att x) * R * (invMat d (P.att x))ᵀ

/-- The model of `models.py:1255-1256` (`InvariantMeasurement.__init__` without a model). -/
def invModel (M : VMeas S κ n) (y : Vec n) (direction : String) : VMeas S κ n where
  evaluate := invEval P M y direction
  jacobian := invJac P M direction
  covariance := invCov P M direction

/-- `models.py:1204-1263` (`InvariantMeasurement`) around a measurement for the filters of `Verif.Model.Ekf`; `direction` is
`none` for `"auto"`. Simplification: a model that evaluates to `None` raises `AttributeError` in the code (`None.ravel()`), here
it stays `none`; the theorems exclude that case. -/
def invMeas {V : Type} {n : ℕ} (y : Meas V n) (att : V → Mat y.m y.m) (dir : V → Dir) (direction : Option Dir) : Meas V n where
  m := y.m
  value := 0
  stamp := y.stamp
  model :=
    let M (x : St V) : Mat y.m y.m := invMat (direction.getD (match dir x.value with | .left => .right | .right => .left)) (att x.value)
    { evaluate := fun x => (y.model.evaluate x).map fun yh => M x *ᵥ (yh - y.value)
      jacobian := fun x => M x * y.model.jacobian x
      covariance := fun x => M x * y.model.covariance x * (M x)ᵀ }

end

section

variable {S κ : Type} (P : PoseOps S κ (Fin 3) 3)

/-- `models.py:1042-1044` (`Altitude.evaluate`): `None` unless the height exceeds the minimum (minus infinity by default). -/
noncomputable def altEval (minimum : Option ℝ) (bias : ℝ) (x : S) : Except Err (Option ℝ) := do
  let r ← P.pos x
  let h := r 2 + bias
  return open Classical in (match minimum with
    | none => some h
    | some m => if h > m then some h else none)

/-- `models.py:1046-1053` (`Altitude.jacobian`). -/
def altJac (x : S) : Except Err (Matrix (Fin 1) κ ℝ) := do
  match P.dir x with
  | .right => P.blocks none (some (rowMat (P.att x 2))) none
  | .left => do
    let r ← P.pos x
    P.blocks (some (rowMat (so3Att.odot r 2))) (some !![0, 0, 1]) none

/-- `models.py:673-692` (`InvariantPointRelativePosition.evaluate`). -/
def iprpEval (p y : Vec 3) (x : S) : Except Err (Vec 3) := do
  let yh ← prpEval P p x
  return P.att x *ᵥ (yh - y)

/-- `models.py:694-720` (`InvariantPointRelativePosition.jacobian`). -/
def iprpJac (p : Vec 3) (x : S) : Except Err (Matrix (Fin 3) κ ℝ) :=
  match P.dir x with
  | .left => P.blocks (some (skew p)) (some (-1)) none
  | .right => .error .notImplemented

/-- `models.py:722-727` (`InvariantPointRelativePosition.covariance`). -/
def iprpCov (R : Mat 3 3) (x : S) : Mat 3 3 := P.att x * R * (P.att x)ᵀ

/-- `camera.py:199-213` (`resolve_landmark_in_cam_frame`) for any pose class. -/
def camResolve (c : Cam) (C : Mat 3 3) (r p : Vec 3) : Vec 3 := c.Tbc.rotᵀ *ᵥ (Cᵀ *ᵥ (p - r) - c.Tbc.pos)

/-- `models.py:614-617` (`CameraProjection.evaluate`) on the two sub-states. -/
noncomputable def camEval (c : Cam) (x : S) (p : Vec 3) : Except Err (List ℝ) := do
  let r ← P.pos x
  c.project (ravel3 (camResolve c (P.att x) r p))

/-- `models.py:659-665` (`CameraProjection._compute_jac_of_projection_model`). -/
noncomputable def projJac (c : Cam) (r : Vec 3) : Except Err (Mat 2 3) :=
  if r 2 = 0 then .error .nan
  else .ok ((1 / r 2) • !![c.fu, 0, -c.fu * r 0 / r 2; 0, c.fv, -c.fv * r 1 / r 2])

/-- `models.py:619-654` (`CameraProjection.jacobian`): the blocks of the pose and of the landmark. -/
noncomputable def camJac (c : Cam) (x : S) (p : Vec 3) : Except Err (Matrix (Fin 2) κ ℝ × Mat 2 3) := do
  match P.dir x with
  | .left => .error .notImplemented
  | .right => do
    let r ← P.pos x
    let C := P.att x
    let B := c.Tbc.rot
    let dg ← projJac c (camResolve c C r p)
    let J ← P.blocks (some (dg * (Bᵀ * skew (Cᵀ *ᵥ (p - r))))) (some (dg * -Bᵀ)) none
    return (J, dg * (Bᵀ * Cᵀ))

end

section

variable {S₁ S₂ κ₁ κ₂ α : Type} [Fintype α] {n : ℕ} (A : AttGroup α n) (P₁ : PoseOps S₁ κ₁ α n) (P₂ : PoseOps S₂ κ₂ α n)

/-- `models.py:826-836` (`RangePoseToPose.evaluate`) on the two sub-states. -/
noncomputable def rppEval (t1 t2 : Vec n) (x1 : S₁) (x2 : S₂) : Except Err ℝ := do
  let r1 ← P₁.pos x1
  let r2 ← P₂.pos x2
  return npNorm ((P₁.att x1 *ᵥ t1 + r1) - (P₂.att x2 *ᵥ t2 + r2))

/-- `models.py:838-880` (`RangePoseToPose.jacobian`): the blocks of the two poses. -/
noncomputable def rppJac (t1 t2 : Vec n) (x1 : S₁) (x2 : S₂) :
    Except Err (Matrix (Fin 1) κ₁ ℝ × Matrix (Fin 1) κ₂ ℝ) := do
  let r1 ← P₁.pos x1
  let r2 ← P₂.pos x2
  let v := (P₁.att x1 *ᵥ t1 + r1) - (P₂.att x2 *ᵥ t2 + r2)
  let ρ ← npScale (npNorm v) v
  let J1 ← tagBlocks A P₁ ρ t1 x1 r1
  let J2 ← tagBlocks A P₂ (-ρ) t2 x2 r2
  return (J1, J2)

/-- `models.py:521-529` (`PointRelativePositionSLAM.evaluate`) on the two sub-states. -/
def slamEval (x : S₁) (p : Vec n) : Except Err (Vec n) := prpEval P₁ p x

/-- `models.py:531-551` (`PointRelativePositionSLAM.jacobian`): the blocks of the pose and of the landmark. -/
def slamBlocks (A : AttGroup α n) (x : S₁) (p : Vec n) : Except Err (Matrix (Fin n) κ₁ ℝ × Mat n n) := do
  let J ← prpJac A P₁ p x
  return (J, (P₁.att x)ᵀ)

end

end Verif
