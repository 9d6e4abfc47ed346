import Verif.Model.Imu

/-!
Matrix Lie groups as used by `navlie`, and the process models on them (`navlie/lib/models.py:222-343`).
The groups are those of the library `pymlg`, which is not part of the repository: its functions are modelled by the formulas
it documents, in exact arithmetic.
-/

namespace Verif

open Matrix

/-- The functions of a `pymlg` group class; matrices are indexed by `ι`, algebra coordinates by `κ`. -/
structure MLG (ι κ : Type) where
  wedge : (κ → ℝ) → Matrix ι ι ℝ
  adjoint : Matrix ι ι ℝ → Matrix κ κ ℝ
  inverse : Matrix ι ι ℝ → Matrix ι ι ℝ
  leftJac : (κ → ℝ) → Matrix κ κ ℝ

/-- `pymlg.MatrixLieGroup.Exp`. -/
noncomputable def MLG.Exp {ι κ : Type} [Fintype ι] [DecidableEq ι] (G : MLG ι κ) (ξ : κ → ℝ) : Matrix ι ι ℝ :=
  NormedSpace.exp (G.wedge ξ)

/-- `pymlg.SO3`. -/
noncomputable def so3 : MLG (Fin 3) (Fin 3) where
  wedge := skew
  adjoint R := R
  inverse R := Rᵀ
  leftJac := so3LeftJac

/-- The matrix of the bracket of SE(3). -/
def se3Ad (ξ : Fin 3 ⊕ Fin 3 → ℝ) : Matrix (Fin 3 ⊕ Fin 3) (Fin 3 ⊕ Fin 3) ℝ :=
  fromBlocks (skew (ξ ∘ .inl)) 0 (skew (ξ ∘ .inr)) (skew (ξ ∘ .inl))

/-- `pymlg.SE3`: coordinates are rotation, then translation. -/
noncomputable def se3 : MLG (Fin 3 ⊕ Fin 1) (Fin 3 ⊕ Fin 3) where
  wedge ξ := fromBlocks (skew (ξ ∘ .inl)) (.of fun i _ => ξ (.inr i)) 0 0
  adjoint X := fromBlocks (Pose.rot X) 0 (skew (Pose.pos X) * Pose.rot X) (Pose.rot X)
  inverse := se3Inv
  leftJac ξ := phiSer 1 (se3Ad ξ)

/-- The skew symmetric 2 × 2 matrix. -/
def skew2 (θ : ℝ) : Mat 2 2 := !![0, -θ; θ, 0]

/-- The matrix of the bracket of SE(2). -/
def se2Ad (ξ : Fin 1 ⊕ Fin 2 → ℝ) : Matrix (Fin 1 ⊕ Fin 2) (Fin 1 ⊕ Fin 2) ℝ :=
  fromBlocks 0 0 (.of fun i _ => ![ξ (.inr 1), -ξ (.inr 0)] i) (skew2 (ξ (.inl 0)))

/-- `pymlg.SE2`: coordinates are the angle, then translation. -/
noncomputable def se2 : MLG (Fin 2 ⊕ Fin 1) (Fin 1 ⊕ Fin 2) where
  wedge ξ := fromBlocks (skew2 (ξ (.inl 0))) (.of fun i _ => ξ (.inr i)) 0 0
  adjoint X := fromBlocks 1 0 (.of fun i _ => ![X (.inl 1) (.inr 0), -X (.inl 0) (.inr 0)] i) X.toBlocks₁₁
  inverse X := fromBlocks X.toBlocks₁₁ᵀ (-(X.toBlocks₁₁ᵀ * X.toBlocks₁₂)) 0 1
  leftJac ξ := phiSer 1 (se2Ad ξ)

/-- `pymlg.SO2`. -/
noncomputable def so2 : MLG (Fin 2) (Fin 1) where
  wedge ξ := skew2 (ξ 0)
  adjoint _ := 1
  inverse R := Rᵀ
  leftJac _ := 1

/-- `pymlg.SE23`: attitude, velocity, position. -/
noncomputable def se23 : MLG (Fin 3 ⊕ Fin 2) (Fin 3 × Fin 3) where
  wedge ξ := se23Wedge fun i p => ξ (i, p)
  adjoint X := (se23Adjoint X).flat
  inverse := inverseIE3
  leftJac ξ := (se23LeftJac fun i p => ξ (i, p)).flat

/-- A state on a group (`navlie/lib/states.py:58-233`); the identifier is not modelled. -/
structure GSt (ι : Type) where
  value : Matrix ι ι ℝ
  dir : Dir
  stamp : Option ℝ

section

variable {ι κ : Type} [Fintype ι] [DecidableEq ι] [Fintype κ] [DecidableEq κ]

/-- `navlie/lib/states.py:117-125` (`MatrixLieGroupState.plus`). -/
noncomputable def GSt.plus (G : MLG ι κ) (x : GSt ι) (dx : κ → ℝ) : GSt ι :=
  match x.dir with
  | .right => { x with value := x.value * G.Exp dx }
  | .left => { x with value := G.Exp dx * x.value }

/-- `navlie/lib/states.py:126-133` (`MatrixLieGroupState.minus`), for the group's logarithm `log`. -/
def GSt.minus (G : MLG ι κ) (log : Matrix ι ι ℝ → κ → ℝ) (y x : GSt ι) : κ → ℝ :=
  match y.dir with
  | .right => log (G.inverse x.value * y.value)
  | .left => log (y.value * G.inverse x.value)

/-- `models.py:239-244` (`BodyFrameVelocity.evaluate`). -/
noncomputable def bfvEvaluate (G : MLG ι κ) (x : GSt ι) (u : κ → ℝ) (dt : ℝ) : GSt ι :=
  { x with value := x.value * G.Exp (dt • u) }

/-- `models.py:246-250` (`BodyFrameVelocity.jacobian`). -/
noncomputable def bfvJacobian (G : MLG ι κ) (x : GSt ι) (u : κ → ℝ) (dt : ℝ) : Matrix κ κ ℝ :=
  match x.dir with
  | .right => G.adjoint (G.Exp (dt • -u))
  | .left => 1

/-- The noise Jacobian of `models.py:253-261`. -/
noncomputable def bfvNoise (G : MLG ι κ) (x : GSt ι) (u : κ → ℝ) (dt : ℝ) : Matrix κ κ ℝ :=
  match x.dir with
  | .right => dt • G.leftJac (dt • -u)
  | .left => (dt • G.adjoint (x.value * G.Exp (dt • u))) * G.leftJac (dt • -u)

/-- `models.py:252-261` (`BodyFrameVelocity.covariance`). -/
noncomputable def bfvCovariance (G : MLG ι κ) (Q : Matrix κ κ ℝ) (x : GSt ι) (u : κ → ℝ) (dt : ℝ) : Matrix κ κ ℝ :=
  bfvNoise G x u dt * Q * (bfvNoise G x u dt)ᵀ

/-- `models.py:295-319` (`RelativeBodyFrameVelocity.evaluate`): the stacked input is the pair `u1`, `u2`. -/
noncomputable def rbfvEvaluate (G : MLG ι κ) (x : GSt ι) (u1 u2 : κ → ℝ) (dt : ℝ) : GSt ι :=
  { x with value := G.Exp (dt • -u1) * x.value * G.Exp (dt • u2) }

/-- `models.py:321-326` (`RelativeBodyFrameVelocity.jacobian`). -/
noncomputable def rbfvJacobian (G : MLG ι κ) (x : GSt ι) (u1 u2 : κ → ℝ) (dt : ℝ) : Except Err (Matrix κ κ ℝ) :=
  match x.dir with
  | .right => .ok (G.adjoint (G.Exp (dt • -u2)))
  | .left => .error .notImplemented

/-- `models.py:328-343` (`RelativeBodyFrameVelocity.covariance`): the Jacobian `L1` of the first input. -/
noncomputable def rbfvL1 (G : MLG ι κ) (x : GSt ι) (u1 u2 : κ → ℝ) (dt : ℝ) : Matrix κ κ ℝ :=
  (dt • G.adjoint (x.value * G.Exp (dt • u2))) * G.leftJac (dt • u1)

/-- `models.py:326-343`: the Jacobian `L2` of the second input. -/
noncomputable def rbfvL2 (G : MLG ι κ) (u2 : κ → ℝ) (dt : ℝ) : Matrix κ κ ℝ := dt • G.leftJac (-dt • u2)

/-- `models.py:328-343` (`RelativeBodyFrameVelocity.covariance`). -/
noncomputable def rbfvCovariance (G : MLG ι κ) (Q1 Q2 : Matrix κ κ ℝ) (x : GSt ι) (u1 u2 : κ → ℝ) (dt : ℝ) :
    Except Err (Matrix κ κ ℝ) :=
  match x.dir with
  | .right => .ok (rbfvL1 G x u1 u2 dt * Q1 * (rbfvL1 G x u1 u2 dt)ᵀ + rbfvL2 G u2 dt * Q2 * (rbfvL2 G u2 dt)ᵀ)
  | .left => .error .notImplemented

end

end Verif
