import Verif.Model.Group
import Verif.Model.Basic

/-!
Preintegration: `navlie/lib/preintegration.py`. The increments are mutable objects of the program; here each method returns the
changed object. Identifiers (`state_id`) are not modelled. When a method raises, the half-changed object is not modelled.
-/

namespace Verif

open Matrix

/-- Duration bookkeeping of all increments (`preintegration.py:145-149, 383-387, 721-725`): the first input sets both stamps
(`None + dt` is a `TypeError`), later ones add `dt` to the second. -/
def incStamps (s : Option (ℝ × ℝ)) (ustamp : Option ℝ) (dt : ℝ) : Except Err (ℝ × ℝ) :=
  match s with
  | some (a, b) => .ok (a, b + dt)
  | none => match ustamp with
    | none => .error .typeError
    | some t => .ok (t, t + dt)

/-- `preintegration.py:55-59` (`RelativeMotionIncrement.symmetrize`). -/
noncomputable def symm {κ : Type} (P : Matrix κ κ ℝ) : Matrix κ κ ℝ := (0.5 : ℝ) • (P + Pᵀ)

section BodyVelocity

variable {ι κ : Type} [Fintype ι] [DecidableEq ι] [Fintype κ] [DecidableEq κ]

/-- The covariance given to a `BodyVelocityIncrement`: as many rows as degrees of freedom, twice as many, or neither. -/
inductive BvQ (κ : Type) where
  | one (Q : Matrix κ κ ℝ)
  | two (Q : Matrix (κ ⊕ κ) (κ ⊕ κ) ℝ)
  | other

/-- `preintegration.py:334-475` (`BodyVelocityIncrement`). -/
structure BvInc (ι κ : Type) where
  value0 : Matrix ι ι ℝ
  bias : κ → ℝ
  newBias : κ → ℝ
  stamps : Option (ℝ × ℝ)
  cov : Matrix κ κ ℝ
  jac : Matrix κ κ ℝ
  Q : BvQ κ

/-- `preintegration.py:354-376` (`BodyVelocityIncrement.__init__`); no bias means zero bias. -/
def bvNew (Q : BvQ κ) (bias : Option (κ → ℝ)) : BvInc ι κ :=
  { value0 := 1, bias := bias.getD 0, newBias := bias.getD 0, stamps := none, cov := 0, jac := 0, Q := Q }

/-- `preintegration.py:378-404` (`increment`): `L @ Q @ L.T` raises unless `Q` has as many rows as degrees of freedom. -/
noncomputable def BvInc.increment (G : MLG ι κ) (r : BvInc ι κ) (u : κ → ℝ) (ustamp : Option ℝ) (dt : ℝ) :
    Except Err (BvInc ι κ) := do
  let s ← incStamps r.stamps ustamp dt
  let v := u - r.bias
  let U := G.Exp (dt • v)
  let A := G.adjoint (G.inverse U)
  let L := dt • G.leftJac (dt • -v)
  match r.Q with
  | .one Q =>
    return { r with
      value0 := r.value0 * U
      stamps := some s
      cov := symm (A * r.cov * Aᵀ + L * Q * Lᵀ)
      jac := A * r.jac + L }
  | _ => .error .valueError

/-- `preintegration.py:406-418` (`update_bias`); the attribute tested against `None` is always an array. -/
def BvInc.updateBias (r : BvInc ι κ) (b : κ → ℝ) : BvInc ι κ := { r with newBias := b }

/-- `preintegration.py:420-430` (`value`). -/
noncomputable def BvInc.value (G : MLG ι κ) (r : BvInc ι κ) : Matrix ι ι ℝ :=
  r.value0 * G.Exp (r.jac *ᵥ (r.newBias - r.bias))

/-- `preintegration.py:465-475`, also `570-578`, `609-617` (`new`): a fresh increment with the original bias. -/
def BvInc.new (r : BvInc ι κ) : BvInc ι κ := bvNew r.Q (some r.bias)

/-- `preintegration.py:451-463` (`copy`): the updated bias is not carried over. -/
def BvInc.copy (r : BvInc ι κ) : BvInc ι κ :=
  { r.new with value0 := r.value0, cov := r.cov, jac := r.jac, stamps := r.stamps }

/-- `preintegration.py:432-449` (`plus`). -/
noncomputable def BvInc.plus (G : MLG ι κ) (r : BvInc ι κ) (w : κ → ℝ) : BvInc ι κ :=
  { r.copy with value0 := r.copy.value0 * G.Exp w }

/-- `preintegration.py:492-499` (`PreintegratedBodyVelocity.evaluate`). -/
noncomputable def bvEvaluate (G : MLG ι κ) (x : GSt ι) (r : BvInc ι κ) : GSt ι :=
  { x with
    stamp := match r.stamps with
      | some s => some s.2
      | none => x.stamp
    value := x.value * r.value G }

/-- `preintegration.py:501-526` (`PreintegratedBodyVelocity.jacobian`): the matrix of the group part, or of the group and bias
parts. -/
noncomputable def bvJacobian (G : MLG ι κ) (x : GSt ι) (r : BvInc ι κ) :
    Except Err (Matrix κ κ ℝ ⊕ Matrix (κ ⊕ κ) (κ ⊕ κ) ℝ) :=
  match r.Q, x.dir with
  | .one _, .right => .ok (.inl (G.adjoint (G.inverse (r.value G))))
  | .one _, .left => .ok (.inl 1)
  | .two _, .right => .ok (.inr (fromBlocks (G.adjoint (G.inverse (r.value G))) r.jac 0 1))
  | .two _, .left => .ok (.inr (fromBlocks 1 (G.adjoint (r.value G) * r.jac) 0 1))
  | .other, _ => .error .valueError

/-- `preintegration.py:528-546` (`PreintegratedBodyVelocity.covariance`): with the larger covariance the product of a
`2 dof` matrix with the increment's `dof` covariance raises. -/
noncomputable def bvCovariance (G : MLG ι κ) (x : GSt ι) (r : BvInc ι κ) : Except Err (Matrix κ κ ℝ) :=
  match r.Q, x.dir with
  | .one _, .right => .ok (1 * r.cov * (1 : Matrix κ κ ℝ)ᵀ)
  | .one _, .left => .ok (G.adjoint (x.value * r.value G) * r.cov * (G.adjoint (x.value * r.value G))ᵀ)
  | _, _ => .error .valueError

/-- One recorded input: value, stamp, duration. -/
structure VIn (κ : Type) where
  u : κ → ℝ
  stamp : Option ℝ
  dt : ℝ

/-- Calling `increment` for every input of a list. -/
noncomputable def BvInc.incrementAll (G : MLG ι κ) (r : BvInc ι κ) (l : List (VIn κ)) : Except Err (BvInc ι κ) :=
  l.foldlM (fun r i => r.increment G i.u i.stamp i.dt) r

end BodyVelocity

/-- `preintegration.py:599-607` (`WheelOdometryIncrement.__init__`): the group is chosen from the shape of `Q`. -/
inductive WheelGroup where
  | se3
  | se2

/-- `preintegration.py:599-607`. -/
def wheelGroup (shape : List ℕ) : Except Err WheelGroup :=
  if shape = [6, 6] then .ok .se3 else if shape = [3, 3] then .ok .se2 else .error .valueError

/-! ### IMU -/

/-- `preintegration.py:69-275` (`IMUIncrement`) with a 12 × 12 input covariance. -/
structure ImuInc where
  value0 : EPose
  bias : Vec 3 × Vec 3
  newBias : Vec 3 × Vec 3
  stamps : Option (ℝ × ℝ)
  cov : Blk 5 5
  jac : Blk 3 2
  Q : Blk 4 4

/-- The covariance given to an `IMUIncrement`: 12 rows, 6 rows, or another number. -/
inductive ImuQ where
  | full (Q : Blk 4 4)
  | six (Q : Blk 2 2)
  | other

/-- `preintegration.py:83-126` (`IMUIncrement.__init__`): with six rows the base class constructor assigns `self.value`, which is
a property without a setter. Simplification: the attribute `gravity`, which nothing reads, is left out. -/
def imuIncNew (Q : ImuQ) (bg ba : Vec 3) : Except Err ImuInc :=
  match Q with
  | .full Q => .ok { value0 := 1, bias := (bg, ba), newBias := (bg, ba), stamps := none, cov := 0, jac := 0, Q := Q }
  | .six _ => .error .attributeError
  | .other => .error .valueError

/-- `preintegration.py:55-59` for block matrices. -/
noncomputable def Blk.symm {n : ℕ} (P : Blk n n) : Blk n n := .of fun i j => (0.5 : ℝ) • (P i j + (P j i)ᵀ)

/-- `preintegration.py:143-179` (`IMUIncrement.increment`). -/
noncomputable def ImuInc.increment (tol : ℝ) (r : ImuInc) (u : ImuIn) (dt : ℝ) : Except Err ImuInc := do
  let u ← u.copy
  let s ← incStamps r.stamps u.stamp dt
  let om := u.gyro - r.bias.1
  let a := u.accel - r.bias.2
  let U := uMatrix tol om a dt
  let A := adjointIE3 (inverseIE3 U)
  let L := lMatrix tol om a dt
  let Af := withBias A (-L)
  let Lf := noiseJac L dt
  return { r with
    value0 := r.value0 * U
    stamps := some s
    cov := Blk.symm (Af * r.cov * Af.T + Lf * r.Q * Lf.T)
    jac := A * r.jac - L }

/-- `preintegration.py:181-197` (`update_bias`). -/
def ImuInc.updateBias (r : ImuInc) (b : Vec 3 × Vec 3) : ImuInc := { r with newBias := b }

/-- `bias_jacobian @ (new_bias - original_bias)`. -/
def ImuInc.upd (r : ImuInc) : Fin 3 → Vec 3 := r.jac.act ![r.newBias.1 - r.bias.1, r.newBias.2 - r.bias.2]

/-- `preintegration.py:136-141` (`value`). -/
noncomputable def ImuInc.value (r : ImuInc) : EPose := r.value0 * se23Exp r.upd

/-- `preintegration.py:217-235` (`copy`): the updated bias is not carried over. -/
def ImuInc.copy (r : ImuInc) : ImuInc := { r with newBias := r.bias }

/-- `preintegration.py:199-215` (`plus`): only the first nine components of the noise enter. -/
noncomputable def ImuInc.plus (r : ImuInc) (w : Fin 5 → Vec 3) : ImuInc :=
  { r.copy with value0 := r.copy.value0 * se23Exp ![w 0, w 1, w 2] }

/-- `preintegration.py:237-275` (`new`): the arguments are overwritten with the current biases. -/
def ImuInc.new (r : ImuInc) (_newBias : Option (Vec 3 × Vec 3)) (_gyroBias _accelBias : Option (Vec 3)) : ImuInc :=
  { value0 := 1, bias := r.bias, newBias := r.bias, stamps := none, cov := 0, jac := 0, Q := r.Q }

/-- `rmi.stamps[1] - rmi.stamps[0]` (`None - None` is a `TypeError`). -/
def ImuInc.duration (r : ImuInc) : Except Err ℝ :=
  match r.stamps with
  | none => .error .typeError
  | some (a, b) => .ok (b - a)

/-- `preintegration.py:284-293` (`PreintegratedIMUKinematics.evaluate`); a state without biases has no attribute `bias`. -/
noncomputable def preImuEvaluate (g : Vec 3) (x : ImuSt) (r : ImuInc) : Except Err ImuSt := do
  match x.bias with
  | none => .error .attributeError
  | some b => do
    let rmi := r.copy.updateBias b
    let dt ← rmi.duration
    return { x with pose := gMatrix g dt * x.pose * rmi.value }

/-- `pymlg.SE23.right_jacobian`: the left Jacobian at the negative. -/
noncomputable def se23RightJac (ξ : Fin 3 → Vec 3) : Blk 3 3 := se23LeftJac fun i => -ξ i

/-- `preintegration.py:295-313` (`PreintegratedIMUKinematics.jacobian`). -/
noncomputable def preImuJacobian (g : Vec 3) (x : ImuSt) (r : ImuInc) : Except Err (Blk 5 5) := do
  match x.bias with
  | none => .error .attributeError
  | some b => do
    let rmi := r.copy.updateBias b
    let dt ← rmi.duration
    let DG := gMatrix g dt
    let DU := rmi.value
    let J := se23RightJac rmi.upd
    return match x.dir with
      | .right => withBias (adjointIE3 (inverseIE3 DU)) (J * rmi.jac)
      | .left => withBias (adjointIE3 DG) (se23Adjoint (DG * x.pose * DU) * J * rmi.jac)

/-- `preintegration.py:315-331` (`PreintegratedIMUKinematics.covariance`). -/
noncomputable def preImuCovariance (g : Vec 3) (x : ImuSt) (r : ImuInc) : Except Err (Blk 5 5) := do
  match x.bias with
  | none => .error .attributeError
  | some b => do
    let rmi := r.copy.updateBias b
    let dt ← rmi.duration
    let DG := gMatrix g dt
    let DU := rmi.value
    let E := se23Adjoint (se23Exp fun i => -rmi.upd i)
    let L := match x.dir with
      | .right => withBias E 0
      | .left => withBias (se23Adjoint (DG * x.pose * DU) * E) 0
    return L * rmi.cov * L.T

/-- Calling `increment` for every reading of a list. -/
noncomputable def ImuInc.incrementAll (tol : ℝ) (r : ImuInc) (l : List (ImuIn × ℝ)) : Except Err ImuInc :=
  l.foldlM (fun r i => r.increment tol i.1 i.2) r

/-! ### Linear models -/

/-- `preintegration.py:629-852` (`LinearIncrement`): state of size `n`, input of size `m`. With a bias the covariance is `covB`
and the input covariance is the whole `Q`; without it they are `covN` and the first block of `Q`. -/
structure LinInc (n m : ℕ) where
  a : Mat n n
  du : Vec n
  bias : Option (Vec m)
  newBias : Option (Vec m)
  jac : Option (Matrix (Fin n) (Fin m) ℝ)
  covN : Mat n n
  covB : Matrix (Fin n ⊕ Fin m) (Fin n ⊕ Fin m) ℝ
  Q : Matrix (Fin m ⊕ Fin m) (Fin m ⊕ Fin m) ℝ
  stateMatrix : Vec m → ℝ → Mat n n
  inputMatrix : Vec m → ℝ → Matrix (Fin n) (Fin m) ℝ
  stamps : Option (ℝ × ℝ)

variable {n m : ℕ}

/-- `preintegration.py:657-716` (`LinearIncrement.__init__`). -/
def linNew (Q : Matrix (Fin m ⊕ Fin m) (Fin m ⊕ Fin m) ℝ) (A : Vec m → ℝ → Mat n n)
    (B : Vec m → ℝ → Matrix (Fin n) (Fin m) ℝ) (bias : Option (Vec m)) : LinInc n m :=
  { a := 1, du := 0, bias := bias, newBias := bias, jac := bias.map fun _ => 0, covN := 0, covB := 0, Q := Q
    stateMatrix := A, inputMatrix := B, stamps := none }

/-- The input after subtracting the bias, if there is one (`preintegration.py:727-729`). -/
def LinInc.unbiased (r : LinInc n m) (u : Vec m) : Vec m :=
  match r.bias with
  | none => u
  | some b => u - b

/-- `preintegration.py:718-764` (`increment`). Simplification: the input has as many components as the bias; twice as many
raises at the subtraction (unless the bias has one component), so the branch for that case is left out. -/
noncomputable def LinInc.increment (r : LinInc n m) (u : Vec m) (ustamp : Option ℝ) (dt : ℝ) : Except Err (LinInc n m) := do
  let s ← incStamps r.stamps ustamp dt
  let v := r.unbiased u
  let A := r.stateMatrix v dt
  let B := r.inputMatrix v dt
  let Af : Matrix (Fin n ⊕ Fin m) (Fin n ⊕ Fin m) ℝ := fromBlocks A (-B) 0 1
  let Bf : Matrix (Fin n ⊕ Fin m) (Fin m ⊕ Fin m) ℝ := fromBlocks B 0 0 (dt • 1)
  return { r with
    a := A * r.a
    du := A *ᵥ r.du + B *ᵥ v
    covN := if r.bias.isSome then r.covN else A * r.covN * Aᵀ + B * r.Q.toBlocks₁₁ * Bᵀ
    covB := if r.bias.isSome then Af * r.covB * Afᵀ + Bf * r.Q * Bfᵀ else r.covB
    jac := some (A * r.jac.getD 0 - B)
    stamps := some s }

/-- `preintegration.py:766-778` (`update_bias`). -/
def LinInc.updateBias (r : LinInc n m) (b : Vec m) : Except Err (LinInc n m) :=
  match r.bias with
  | none => .error .valueError
  | some _ => .ok { r with newBias := some b }

/-- `preintegration.py:780-796` (the property `value`): `out` is the list `original_value` itself, so reading the property changes
the increment. Returns what is read, and the increment afterwards. -/
def LinInc.readValue (r : LinInc n m) : (Mat n n × Vec n) × LinInc n m :=
  match r.bias, r.newBias with
  | some b, some b' =>
    let du' := r.du + r.jac.getD 0 *ᵥ (b' - b)
    ((r.a, du'), { r with du := du' })
  | _, _ => ((r.a, r.du), r)

/-- `preintegration.py:834-852` (`new`). -/
def LinInc.new (r : LinInc n m) (newBias : Option (Vec m)) : LinInc n m :=
  linNew r.Q r.stateMatrix r.inputMatrix (match newBias with | some b => some b | none => r.bias)

/-- `preintegration.py:816-832` (`copy`): without a bias and before the first input there is no Jacobian to copy. -/
def LinInc.copy (r : LinInc n m) : Except Err (LinInc n m) :=
  match r.jac with
  | none => .error .attributeError
  | some J => .ok { r.new none with a := r.a, du := r.du, covN := r.covN, covB := r.covB, jac := some J, stamps := r.stamps, newBias := r.newBias }

/-- `preintegration.py:798-814` (`plus`), for a noise given as a column. -/
def LinInc.plus (r : LinInc n m) (w : Vec n) : Except Err (LinInc n m) := do
  let new ← r.copy
  return { new with du := new.du + w }

/-- `preintegration.py:867-887` (`PreintegratedLinearModel.evaluate`) of a state `(x, b)` whose last `m` components are the bias, if
the increment has one, and of `x` otherwise. The property `value` is read twice. Returns the state and the increment afterwards. -/
def linEvaluate (x : Vec n × Vec m) (r : LinInc n m) : (Vec n × Vec m) × LinInc n m :=
  let p := r.readValue
  let q := p.2.readValue
  ((p.1.1 *ᵥ x.1 + q.1.2, x.2), q.2)

/-- `preintegration.py:889-903` (`PreintegratedLinearModel.jacobian`) with a bias; returns also the increment afterwards. -/
def linJacobianB (r : LinInc n m) : Matrix (Fin n ⊕ Fin m) (Fin n ⊕ Fin m) ℝ × LinInc n m :=
  (fromBlocks r.readValue.1.1 (r.jac.getD 0) 0 1, r.readValue.2)

/-- `preintegration.py:889-903` (`PreintegratedLinearModel.jacobian`) without a bias. -/
def linJacobianN (r : LinInc n m) : Mat n n × LinInc n m := (r.readValue.1.1, r.readValue.2)

/-- `preintegration.py:905-908` (`PreintegratedLinearModel.covariance`) with a bias. -/
def linCovarianceB (r : LinInc n m) : Matrix (Fin n ⊕ Fin m) (Fin n ⊕ Fin m) ℝ := r.covB

/-- `preintegration.py:905-908` (`PreintegratedLinearModel.covariance`) without a bias. -/
def linCovarianceN (r : LinInc n m) : Mat n n := r.covN

/-- Calling `increment` for every input of a list. -/
noncomputable def LinInc.incrementAll (r : LinInc n m) (l : List (VIn (Fin m))) : Except Err (LinInc n m) :=
  l.foldlM (fun r i => r.increment i.u i.stamp i.dt) r

end Verif
