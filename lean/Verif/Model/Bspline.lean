import Verif.Model.Lie
import Verif.Model.Interp

/-!
The B-spline on SE(3): `navlie/bspline.py`.
-/

namespace Verif

open Matrix

/-- `bspline.py:310-314` (`_compute_basis_functions`). -/
noncomputable def basis (u : ℝ) : ℝ × ℝ × ℝ :=
  (1 / 6 * (5 + 3 * u - 3 * u * u + u * u * u), 1 / 6 * (1 + 3 * u + 3 * u * u - 2 * u * u * u), 1 / 6 * (u * u * u))

/-- `bspline.py:317-321` (`_compute_basis_functions_dot`). -/
noncomputable def basisDot (u dt : ℝ) : ℝ × ℝ × ℝ :=
  (1 / (6 * dt) * (3 - 6 * u + 3 * u * u), 1 / (6 * dt) * (3 + 6 * u - 6 * u * u), 1 / (6 * dt) * (3 * u * u))

/-- `bspline.py:324-330` (`_compute_basis_functions_ddot`). -/
noncomputable def basisDdot (u dt : ℝ) : ℝ × ℝ × ℝ :=
  (1 / (6 * dt * dt) * (-6 + 6 * u), 1 / (6 * dt * dt) * (6 - 12 * u), 1 / (6 * dt * dt) * (6 * u))

open Classical in
/-- `bspline.py:289-307` (`_find_bounding_poses`): the position `i - 1` of the bounding pair `[i - 1, i]`, or `None`
outside the range and when no stamp is later. -/
noncomputable def boundingPoses (t : ℝ) (stamps : List ℝ) : Except Err (Option ℕ) := do
  let first ← pyGet stamps 0
  let last ← pyGet stamps (stamps.length - 1)
  return if t < first ∨ last < t then none
    else (List.range (stamps.length - 1)).find? fun i => decide (t < stamps.getD (i + 1) 0)

variable {V : Type} {n : ℕ}

/-- The four control points around a query. -/
structure Four4 (V : Type) where
  p0 : V × ℝ
  p1 : V × ℝ
  p2 : V × ℝ
  p3 : V × ℝ

/-- `bspline.py:281-286`: the four control points from position `i - 1` on. -/
def fourAt (cps : List (V × ℝ)) (i : ℕ) : Except Err (Four4 V) := do
  let p1 ← pyGet cps i
  let p2 ← pyGet cps (i + 1)
  let p0 ← pyGet cps (i - 1)
  let p3 ← pyGet cps (i + 2)
  return ⟨p0, p1, p2, p3⟩

/-- `bspline.py:261-286` (`_find_bounding_control_points`). -/
noncomputable def boundingCPs (t : ℝ) (cps : List (V × ℝ)) : Except Err (Option (Four4 V)) := do
  match ← boundingPoses t (cps.map Prod.snd) with
  | none => return none
  | some i =>
    if i = 0 then return none
    else if i + 1 = cps.length - 1 then return none
    else do
      let f ← fourAt cps i
      return some f

/-- The quantities computed in `bspline.py:229-257` on one segment (`SE3.Log` is a parameter). -/
structure SegVals where
  pose : Pose
  vel : Pose
  acc : Pose

/-- `SE3.Log(SE3.inverse(X) @ Y)` -/
def relLog (Log : Pose → Vec 6) (X Y : Pose) : Vec 6 := Log (se3Inv X * Y)

/-- `bspline.py:115-133`, `159-190`, `216-252`: pose, velocity and acceleration matrices. (`get_pose` and `get_velocity`
compute the first one and the first two by the same formulas.) -/
noncomputable def segVals (Log : Pose → Vec 6) (f : Four4 Pose) (t : ℝ) : SegVals :=
  let DT := f.p2.2 - f.p1.2
  let u := (t - f.p1.2) / DT
  let b := basis u
  let bd := basisDot u DT
  let bdd := basisDdot u DT
  let w10 := relLog Log f.p0.1 f.p1.1
  let w21 := relLog Log f.p1.1 f.p2.1
  let w32 := relLog Log f.p2.1 f.p3.1
  let A0 := se3Exp (b.1 • w10)
  let A1 := se3Exp (b.2.1 • w21)
  let A2 := se3Exp (b.2.2 • w32)
  let A0d := (bd.1 • se3Wedge w10) * A0
  let A1d := (bd.2.1 • se3Wedge w21) * A1
  let A2d := (bd.2.2 • se3Wedge w32) * A2
  let A0dd := (bd.1 • se3Wedge w10) * A0d + (bdd.1 • se3Wedge w10) * A0
  let A1dd := (bd.2.1 • se3Wedge w21) * A1d + (bdd.2.1 • se3Wedge w21) * A1
  let A2dd := (bd.2.2 • se3Wedge w32) * A2d + (bdd.2.2 • se3Wedge w32) * A2
  { pose := f.p0.1 * A0 * A1 * A2
    vel := f.p0.1 * (A0d * A1 * A2 + A0 * A1d * A2 + A0 * A1 * A2d)
    acc := f.p0.1 * (A0dd * A1 * A2 + A0 * A1dd * A2 + A0 * A1 * A2dd + (2 : ℝ) • A0d * A1d * A2
      + (2 : ℝ) • A0 * A1d * A2d + (2 : ℝ) • A0d * A1 * A2d) }

/-- `bspline.py:100-138` (`get_pose`). -/
noncomputable def getPose (Log : Pose → Vec 6) (cps : List (Pose × ℝ)) (t : ℝ) : Except Err (Option (Pose × ℝ)) := do
  let o ← boundingCPs t cps
  return o.map fun f => ((segVals Log f t).pose, t)

/-- `bspline.py:193-194`: `SO3.vee(C.T @ Cdot)`. -/
def angVel (s : SegVals) : Vec 3 := vee (s.pose.rotᵀ * s.vel.rot)

/-- `bspline.py:254-255`. -/
def angAcc (s : SegVals) : Vec 3 :=
  vee (s.pose.rotᵀ * (s.acc.rot - s.vel.rot * (s.pose.rotᵀ * s.vel.rot)))

/-- `bspline.py:140-195` (`get_velocity`): `(None, None)` is `none`. -/
noncomputable def getVelocity (Log : Pose → Vec 6) (cps : List (Pose × ℝ)) (t : ℝ) :
    Except Err (Option (Vec 3 × Vec 3)) := do
  let o ← boundingCPs t cps
  return o.map fun f => (angVel (segVals Log f t), (segVals Log f t).vel.pos)

/-- `bspline.py:197-257` (`get_acceleration`). -/
noncomputable def getAcceleration (Log : Pose → Vec 6) (cps : List (Pose × ℝ)) (t : ℝ) :
    Except Err (Option (Vec 3 × Vec 3)) := do
  let o ← boundingCPs t cps
  return o.map fun f => (angAcc (segVals Log f t), (segVals Log f t).acc.pos)

/-! The constructor. -/

open Classical in
/-- `bspline.py:55-60`: the spacing. `np.mean` of no differences is NaN, which is not greater than anything. -/
noncomputable def splineDt (stamps : List ℝ) (maxDt : ℝ) : ℝ :=
  let dts := List.zipWith (fun b a => b - a) stamps.tail stamps
  if dts.length ≠ 0 ∧ dts.sum / dts.length > maxDt then dts.sum / dts.length else maxDt

/-- `bspline.py:77-89`: the control points from time `cur` on; `fuel` bounds the number of turns of `while True`. The
interpolation uses the `plus` and `minus` of the states (`o`). -/
noncomputable def controlLoop (o : StateOps V n) (traj : List (V × ℝ)) (dt : ℝ) : ℕ → ℝ → Except Err (List (V × ℝ))
  | 0, _ => .error .diverges
  | fuel + 1, cur => do
    match ← boundingPoses cur (traj.map Prod.snd) with
    | none => return []
    | some i => do
      let a ← pyGet traj i
      let b ← pyGet traj (i + 1)
      let c ← interpLinear o [a, b] cur
      let rest ← controlLoop o traj dt fuel (cur + dt)
      return c :: rest

/-- A spline object: spacing, announced start and end times, control points. -/
structure Spline (V : Type) where
  dt : ℝ
  startTime : ℝ
  endTime : ℝ
  cps : List (V × ℝ)

/-- `bspline.py:31-98` (`__init__`). -/
noncomputable def mkSpline (o : StateOps V n) (traj : List (V × ℝ)) (maxDt : ℝ) (fuel : ℕ) : Except Err (Spline V) := do
  let first ← pyGet traj 0
  let last ← pyGet traj (traj.length - 1)
  let dt := splineDt (traj.map Prod.snd) maxDt
  let cps ← controlLoop o traj dt fuel first.2
  return { dt := dt, startTime := first.2 + 2 * dt, endTime := last.2, cps := cps }

end Verif
