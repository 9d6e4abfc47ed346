import Verif.Model.Lie
import Verif.Model.Iekf
import Mathlib.Analysis.SpecialFunctions.Trigonometric.Basic

/-!
IMU data and kinematics: `navlie/lib/imu.py`. 5 × 5 matrices are indexed by the rows `0:3` and the rows `3`, `4`; vectors and
matrices with 9, 12, 15 entries are lists of three-vectors / 3 × 3 blocks (the slices `[0:3]`, `[3:6]`, … of the code).
-/

namespace Verif

open Matrix

/-- A 5 × 5 matrix, indexed by the rows `0:3` and the rows `3:5`. -/
abbrev EPose : Type := Matrix (Fin 3 ⊕ Fin 2) (Fin 3 ⊕ Fin 2) ℝ

/-- `X[:3, :3]` -/
def EPose.rot (X : EPose) : Mat 3 3 := X.toBlocks₁₁

/-- `X[:3, 3]` -/
def EPose.colA (X : EPose) : Vec 3 := fun i => X (.inl i) (.inr 0)

/-- `X[:3, 4]` -/
def EPose.colB (X : EPose) : Vec 3 := fun i => X (.inl i) (.inr 1)

/-- `X[3, 4]` -/
def EPose.time (X : EPose) : ℝ := X (.inr 0) (.inr 1)

/-- The identity with `[:3, :3]`, `[:3, 3]`, `[:3, 4]`, `[3, 4]` overwritten. -/
def mkIE (R : Mat 3 3) (a b : Vec 3) (c : ℝ) : EPose :=
  fromBlocks R (.of fun i j => ![a i, b i] j) 0 !![1, c; 0, 1]

/-- A matrix made of 3 × 3 blocks. -/
abbrev Blk (m n : ℕ) := Matrix (Fin m) (Fin n) (Mat 3 3)

/-- A block matrix times a vector. -/
def Blk.act {m n : ℕ} (B : Blk m n) (v : Fin n → Vec 3) : Fin m → Vec 3 := fun i => ∑ j, B i j *ᵥ v j

/-- The transpose of a block matrix. -/
def Blk.T {m n : ℕ} (B : Blk m n) : Blk n m := .of fun i j => (B j i)ᵀ

/-- The series `∑ Aⁿ / (n + k)!`. -/
noncomputable def phiSer {ι : Type} [Fintype ι] [DecidableEq ι] (k : ℕ) (A : Matrix ι ι ℝ) : Matrix ι ι ℝ :=
  ∑' n : ℕ, (((n + k).factorial : ℝ)⁻¹) • A ^ n

/-- `pymlg.SO3.Exp`. -/
noncomputable def so3Exp (φ : Vec 3) : Mat 3 3 := NormedSpace.exp (skew φ)

/-- `pymlg.SO3.left_jacobian`, in exact arithmetic. -/
noncomputable def so3LeftJac (φ : Vec 3) : Mat 3 3 := phiSer 1 (skew φ)

/-- `pymlg.SE23.wedge` (attitude, velocity, position). -/
def se23Wedge (ξ : Fin 3 → Vec 3) : EPose := fromBlocks (skew (ξ 0)) (.of fun i j => ![ξ 1 i, ξ 2 i] j) 0 0

/-- `pymlg.SE23.Exp`. -/
noncomputable def se23Exp (ξ : Fin 3 → Vec 3) : EPose := NormedSpace.exp (se23Wedge ξ)

/-- `imu.py:326-340` (`N_matrix`); `tol` is `SO3._small_angle_tol`. -/
noncomputable def nMatrix (tol : ℝ) (φ : Vec 3) : Mat 3 3 :=
  if npNorm φ < tol then 1
  else
    let p := npNorm φ
    let a := p⁻¹ • φ
    let c := (1 - Real.cos p) / p ^ 2
    let s := (p - Real.sin p) / p ^ 2
    (2 * c) • 1 + (1 - 2 * c) • vecMulVec a a + (2 * s) • skew a

/-- `imu.py:343-355` (`M_matrix`). -/
noncomputable def mMatrix (φ : Vec 3) : Mat 3 3 :=
  ∑ n ∈ Finset.range 100, (2 / ((n + 2).factorial : ℝ)) • skew φ ^ n

/-- `imu.py:358-374` (`adjoint_IE3`). -/
def adjointIE3 (X : EPose) : Blk 3 3 :=
  let R := X.rot
  let c := X.time
  let a := X.colA
  let b := X.colB
  !![R, 0, 0; skew a * R, R, 0; -skew (c • a - b) * R, -c • R, R]

/-- `imu.py:377-391` (`inverse_IE3`). -/
def inverseIE3 (X : EPose) : EPose :=
  let R := X.rot
  let c := X.time
  let a := X.colA
  let b := X.colB
  mkIE Rᵀ (-Rᵀ *ᵥ a) (Rᵀ *ᵥ (c • a - b)) (-c)

/-- `imu.py:394-405` (`U_matrix`). -/
noncomputable def uMatrix (tol : ℝ) (om acc : Vec 3) (dt : ℝ) : EPose :=
  let φ := dt • om
  mkIE (so3Exp φ) ((dt • so3LeftJac φ) *ᵥ acc) (((dt ^ 2 / 2) • nMatrix tol φ) *ᵥ acc) dt

/-- `imu.py:408-418` (`U_tilde_matrix`). -/
noncomputable def uTilde (tol : ℝ) (om acc : Vec 3) (dt : ℝ) : EPose :=
  let φ := dt • om
  mkIE (so3Exp φ) ((dt • so3LeftJac φ) *ᵥ acc) (((dt ^ 2 / 2) • nMatrix tol φ) *ᵥ acc) 0

/-- `imu.py:421-424` (`delta_matrix`). -/
def deltaMatrix (dt : ℝ) : EPose := mkIE 1 0 0 dt

/-- `imu.py:427-428` (`U_matrix_inv`). -/
noncomputable def uMatrixInv (tol : ℝ) (om acc : Vec 3) (dt : ℝ) : EPose := inverseIE3 (uMatrix tol om acc dt)

/-- `imu.py:431-436` (`G_matrix`). -/
noncomputable def gMatrix (g : Vec 3) (dt : ℝ) : EPose := mkIE 1 (dt • g) ((-(1 / 2) * dt ^ 2) • g) (-dt)

/-- `imu.py:439-440` (`G_matrix_inv`). -/
noncomputable def gMatrixInv (g : Vec 3) (dt : ℝ) : EPose := inverseIE3 (gMatrix g dt)

/-! ### Data containers -/

/-- An attribute of an object: missing, an array holding `None`, or a three-vector. -/
inductive VecAttr where
  | missing
  | holdsNone
  | vec (v : Vec 3)

/-- `imu.py:20-70` (`IMU`): covariance and state id are not modelled. -/
structure ImuIn where
  gyro : Vec 3
  accel : Vec 3
  walkG : VecAttr
  walkA : VecAttr
  stamp : Option ℝ

/-- `np.array(x).ravel()` of a vector or `None`. -/
def VecAttr.ofOpt : Option (Vec 3) → VecAttr
  | some v => .vec v
  | none => .holdsNone

/-- `imu.py:53-70` (`IMU.__init__`): the attribute for the gyro walk is only set when the *accelerometer* walk is given, and
the other way round. -/
def mkImu (gyro accel : Vec 3) (stamp : Option ℝ) (wg wa : Option (Vec 3)) : ImuIn :=
  { gyro := gyro, accel := accel, stamp := stamp
    walkG := if wa.isNone then .missing else VecAttr.ofOpt wg
    walkA := if wg.isNone then .missing else VecAttr.ofOpt (some (wa.getD 0)) }

/-- Reading an attribute and calling `.copy()` on the array. -/
def VecAttr.read : VecAttr → Except Err VecAttr
  | .missing => .error .attributeError
  | a => .ok a

/-- What `__init__` receives back from a copied attribute. -/
def VecAttr.toOpt : VecAttr → Option (Vec 3)
  | .vec v => some v
  | _ => none

/-- `imu.py:92-105` (`IMU.copy`). Simplification: an array holding `None` does not occur here, as then the other attribute is
missing (`mkImu`). -/
def ImuIn.copy (u : ImuIn) : Except Err ImuIn := do
  let wg ← u.walkG.read
  let wa ← u.walkA.read
  return mkImu u.gyro u.accel u.stamp wg.toOpt wa.toOpt

/-- `array + w` for an attribute. -/
def VecAttr.add (a : VecAttr) (w : Vec 3) : Except Err VecAttr :=
  match a with
  | .missing => .error .attributeError
  | .holdsNone => .error .typeError
  | .vec v => .ok (.vec (v + w))

/-- `imu.py:73-90` (`IMU.plus`): `w[0:3]`, `w[3:6]`, `w[6:9]`, `w[9:12]`. -/
def ImuIn.plus (u : ImuIn) (w : Fin 4 → Vec 3) : Except Err ImuIn := do
  let new ← u.copy
  let g ← new.walkG.add (w 2)
  let a ← new.walkA.add (w 3)
  return { new with gyro := new.gyro + w 0, accel := new.accel + w 1, walkG := g, walkA := a }

/-- Direction of the perturbation of the navigation state. -/
inductive Dir where
  | right
  | left
  deriving DecidableEq

/-- `imu.py:138-297` (`IMUState`): navigation state and biases. A plain `SE23State` has no biases (`bias = none`). -/
structure ImuSt where
  pose : EPose
  bias : Option (Vec 3 × Vec 3)
  dir : Dir
  stamp : Option ℝ

/-- `SE23State.plus` (`navlie/lib/states.py:113-157`) on the navigation state: `X Exp(ξ)` or `Exp(ξ) X`. -/
noncomputable def ImuSt.plusNav (x : ImuSt) (ξ : Fin 3 → Vec 3) : ImuSt :=
  match x.dir with
  | .right => { x with pose := x.pose * se23Exp ξ }
  | .left => { x with pose := se23Exp ξ * x.pose }

/-- `IMUState.plus` (inherited from `CompositeState`) of a state with biases: `dx[0:9]` perturbs the navigation state,
`dx[9:12]`, `dx[12:15]` are added to the biases. -/
noncomputable def ImuSt.plus (x : ImuSt) (dx : Fin 5 → Vec 3) : ImuSt :=
  { x.plusNav ![dx 0, dx 1, dx 2] with bias := x.bias.map fun b => (b.1 + dx 3, b.2 + dx 4) }

/-- `imu.py:300-323` (`get_unbiased_imu`). -/
def getUnbiased (x : ImuSt) (u : ImuIn) : Except Err ImuIn := do
  let u' ← u.copy
  return match x.bias with
    | none => u'
    | some (bg, ba) => { u' with gyro := u'.gyro - bg, accel := u'.accel - ba }

/-! ### `IMUKinematics` -/

/-- `b + dt * walk` if the attribute exists (`hasattr`). -/
def VecAttr.walk (a : VecAttr) (b : Vec 3) (dt : ℝ) : Except Err (Vec 3) :=
  match a with
  | .missing => .ok b
  | .holdsNone => .error .typeError
  | .vec v => .ok (b + dt • v)

/-- `imu.py:557-562`: the propagated biases. -/
def walkBias (u : ImuIn) (dt : ℝ) : Option (Vec 3 × Vec 3) → Except Err (Option (Vec 3 × Vec 3))
  | none => .ok none
  | some (bg, ba) => do
    let g ← u.walkG.walk bg dt
    let a ← u.walkA.walk ba dt
    return some (g, a)

/-- `imu.py:526-564` (`IMUKinematics.evaluate`). -/
noncomputable def imuEvaluate (tol : ℝ) (g : Vec 3) (x : ImuSt) (u : ImuIn) (dt : ℝ) : Except Err ImuSt := do
  let un ← getUnbiased x u
  let b ← walkBias u dt x.bias
  return { x with pose := gMatrix g dt * x.pose * uMatrix tol un.gyro un.accel dt, bias := b }

/-- `pymlg.SE23.adjoint`. -/
def se23Adjoint (X : EPose) : Blk 3 3 := !![X.rot, 0, 0; skew X.colA * X.rot, X.rot, 0; skew X.colB * X.rot, 0, X.rot]

/-- The matrix of the Lie bracket of SE_2(3) (`pymlg.SE23.odot`-free form of `ad`). -/
def se23Ad (ξ : Fin 3 → Vec 3) : Blk 3 3 := !![skew (ξ 0), 0, 0; skew (ξ 1), skew (ξ 0), 0; skew (ξ 2), 0, skew (ξ 0)]

/-- The full matrix of a block matrix. -/
def Blk.flat {m n : ℕ} (B : Blk m n) : Matrix (Fin m × Fin 3) (Fin n × Fin 3) ℝ := .of fun i j => B i.1 j.1 i.2 j.2

/-- The blocks of a full matrix. -/
def Blk.ofFlat {m n : ℕ} (M : Matrix (Fin m × Fin 3) (Fin n × Fin 3) ℝ) : Blk m n :=
  .of fun i j => .of fun p q => M (i, p) (j, q)

/-- `pymlg.SE23.left_jacobian`, in exact arithmetic. -/
noncomputable def se23LeftJac (ξ : Fin 3 → Vec 3) : Blk 3 3 := Blk.ofFlat (phiSer 1 (se23Ad ξ).flat)

/-- `imu.py:443-478` (`L_matrix`); `SO3.left_jacobian_inv` is the inverse of the left Jacobian. -/
noncomputable def lMatrix (tol : ℝ) (om a : Vec 3) (dt : ℝ) : Blk 3 2 :=
  let omdt := dt • om
  let JN := (so3LeftJac omdt)⁻¹ * nMatrix tol omdt
  let ξ : Fin 3 → Vec 3 := ![dt • om, dt • a, ((dt ^ 2 / 2) • JN) *ᵥ a]
  let J := se23LeftJac (fun i => -ξ i)
  let Om := skew omdt
  let A := skew a
  let Up : Blk 3 2 := !![dt • 1, 0; 0, dt • 1;
    (-(1 / 2) * (dt ^ 2 / 2)) • (((1 / 360) * dt ^ 3) • (Om * Om * A + Om * skew (Om *ᵥ a) + skew ((Om * Om) *ᵥ a))
      - ((1 / 6) * dt) • A), (dt ^ 2 / 2) • JN]
  J * Up

/-- `imu.py:627-645` (`_get_input_jacobian`). -/
noncomputable def imuInputJac (tol : ℝ) (g : Vec 3) (x : ImuSt) (u : ImuIn) (dt : ℝ) : Except Err (Blk 3 2) := do
  let un ← getUnbiased x u
  let L := lMatrix tol un.gyro un.accel dt
  return match x.dir with
    | .right => L
    | .left => se23Adjoint (gMatrix g dt * x.pose * uMatrix tol un.gyro un.accel dt) * L

/-- `imu.py:578-582`: the Jacobian of the navigation state with respect to itself. -/
noncomputable def imuNavJac (tol : ℝ) (g : Vec 3) (dir : Dir) (om acc : Vec 3) (dt : ℝ) : Blk 3 3 :=
  match dir with
  | .right => adjointIE3 (uMatrixInv tol om acc dt)
  | .left => adjointIE3 (gMatrix g dt)

/-- The 5 × 5 block matrix `[[A, B], [0, 1]]` of the states with biases. -/
def withBias (A : Blk 3 3) (B : Blk 3 2) : Blk 5 5 :=
  !![A 0 0, A 0 1, A 0 2, B 0 0, B 0 1;
     A 1 0, A 1 1, A 1 2, B 1 0, B 1 1;
     A 2 0, A 2 1, A 2 2, B 2 0, B 2 1;
     0, 0, 0, 1, 0;
     0, 0, 0, 0, 1]

/-- `imu.py:566-604` (`IMUKinematics.jacobian`) of a state with biases. -/
noncomputable def imuJacobian (tol : ℝ) (g : Vec 3) (x : ImuSt) (u : ImuIn) (dt : ℝ) : Except Err (Blk 5 5) := do
  let un ← getUnbiased x u
  let L ← imuInputJac tol g x u dt
  return withBias (imuNavJac tol g x.dir un.gyro un.accel dt) (-L)

/-- `imu.py:566-604` (`IMUKinematics.jacobian`) of a state without biases. -/
noncomputable def imuJacobianNav (tol : ℝ) (g : Vec 3) (x : ImuSt) (u : ImuIn) (dt : ℝ) : Except Err (Blk 3 3) := do
  let un ← getUnbiased x u
  return imuNavJac tol g x.dir un.gyro un.accel dt

/-- The block matrix `[[L, 0], [0, dt I]]` of `imu.py:606-625`. -/
noncomputable def noiseJac (L : Blk 3 2) (dt : ℝ) : Blk 5 4 :=
  !![L 0 0, L 0 1, 0, 0;
     L 1 0, L 1 1, 0, 0;
     L 2 0, L 2 1, 0, 0;
     0, 0, dt • 1, 0;
     0, 0, 0, dt • 1]

/-- `imu.py:606-625` (`IMUKinematics.covariance`); for a state without biases `np.hstack([[L_pn, L_bn]])` stacks matrices of
different height and raises. -/
noncomputable def imuCovariance (tol : ℝ) (g : Vec 3) (Q : Blk 4 4) (x : ImuSt) (u : ImuIn) (dt : ℝ) :
    Except Err (Blk 5 5) := do
  let L ← imuInputJac tol g x u dt
  match x.bias with
  | none => .error .valueError
  | some _ => return noiseJac L dt * Q * (noiseJac L dt).T

end Verif
