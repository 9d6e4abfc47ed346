import Verif.Model.Basic
import Mathlib.Analysis.Normed.Algebra.Exponential
import Mathlib.Topology.Instances.Matrix
import Mathlib.LinearAlgebra.Matrix.Notation
import Mathlib.Data.Matrix.Block

/-!
The matrix Lie groups SO(3), SE(3) of `pymlg` that `navlie` calls, in exact arithmetic. `pymlg` is not part of the
repository: these definitions are assumptions about it (listed in the trusted base). The closed forms used by `pymlg`
for `Exp` are the matrix exponential; `Log` stays a parameter.
-/

namespace Verif

open Matrix

/-- `pymlg.SO3.wedge`: the cross product matrix. -/
def skew (a : Vec 3) : Mat 3 3 := !![0, -a 2, a 1; a 2, 0, -a 0; -a 1, a 0, 0]

/-- `pymlg.SO3.vee`, the inverse of `wedge` on skew symmetric matrices. -/
def vee (M : Mat 3 3) : Vec 3 := ![M 2 1, M 0 2, M 1 0]

/-- A 4 × 4 matrix, indexed by the rows `0:3` and the row `3`. -/
abbrev Pose : Type := Matrix (Fin 3 ⊕ Fin 1) (Fin 3 ⊕ Fin 1) ℝ

/-- `X[0:3, 0:3]` -/
def Pose.rot (X : Pose) : Mat 3 3 := X.toBlocks₁₁

/-- `X[0:3, 3]` -/
def Pose.pos (X : Pose) : Vec 3 := fun i => X.toBlocks₁₂ i 0

/-- The pose with rotation `C` and position `r`. -/
def mkPose (C : Mat 3 3) (r : Vec 3) : Pose := fromBlocks C (.of fun i _ => r i) 0 1

/-- `xi[0:3]`: the rotation part of a twist. -/
def twRot (ξ : Vec 6) : Vec 3 := ![ξ 0, ξ 1, ξ 2]

/-- `xi[3:6]`: the translation part of a twist. -/
def twPos (ξ : Vec 6) : Vec 3 := ![ξ 3, ξ 4, ξ 5]

/-- `pymlg.SE3.wedge`. -/
def se3Wedge (ξ : Vec 6) : Pose := fromBlocks (skew (twRot ξ)) (.of fun i _ => twPos ξ i) 0 0

/-- `pymlg.SE3.Exp`. -/
noncomputable def se3Exp (ξ : Vec 6) : Pose := NormedSpace.exp (se3Wedge ξ)

/-- `pymlg.SE3.inverse`: transposed rotation, `-Cᵀ r`. -/
def se3Inv (X : Pose) : Pose := mkPose X.rotᵀ (-(X.rotᵀ *ᵥ X.pos))

end Verif
