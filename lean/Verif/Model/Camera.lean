import Verif.Model.Lie
import Verif.Model.Composite

/-!
The pinhole camera: `navlie/lib/camera.py`. Arrays that the code flattens with `.ravel()` and unpacks are lists of reals
(the flattened entries). A division by zero of numpy floats gives `inf` or NaN with a warning: `Err.nan` in the model.
-/

namespace Verif

open Matrix

/-- `camera.py:74-97` (the attributes of `PinholeCamera`). -/
structure Cam where
  fu : ℝ
  fv : ℝ
  cu : ℝ
  cv : ℝ
  width : ℤ
  height : ℤ
  sigma : ℝ
  Tbc : Pose

/-- Python's `int(x)` for a float: truncation towards zero. -/
noncomputable def pyInt (x : ℝ) : ℤ := if 0 ≤ x then ⌊x⌋ else ⌈x⌉

/-- `camera.py:38-97` (`__init__`): the extrinsics default to the identity, the image size is truncated to integers. -/
noncomputable def mkCam (fu fv cu cv width height sigma : ℝ) (Tbc : Option Pose) : Cam :=
  ⟨fu, fv, cu, cv, pyInt width, pyInt height, sigma, Tbc.getD 1⟩

/-- `camera.py:132-144` (`copy`). -/
noncomputable def Cam.copy (c : Cam) : Cam := mkCam c.fu c.fv c.cu c.cv c.width c.height c.sigma (some c.Tbc)

/-- `camera.py:99-106` (`get_cam_to_enu`). -/
def camToEnu : Mat 3 3 := !![0, 0, 1; -1, 0, 0; 0, -1, 0]

/-- `camera.py:108-117` (`intrinsics`). -/
def Cam.intrinsics (c : Cam) : Mat 3 3 := !![c.fu, 0, c.cu; 0, c.fv, c.cv; 0, 0, 1]

/-- `camera.py:119-121`: `/` on Python floats. -/
noncomputable def pyDiv (a b : ℝ) : Except Err ℝ := if b = 0 then .error .zeroDivision else .ok (a / b)

/-- `camera.py:119-126` (`sigma_normalized_image_coords`). -/
noncomputable def Cam.sigmaNormalized (c : Cam) : Except Err (Mat 2 2) := do
  let a ← pyDiv c.sigma c.fu
  let b ← pyDiv c.sigma c.fv
  return !![a, 0; 0, b]

/-- `camera.py:128-130` (`R_normalized_image_coords`): `**2` squares every entry. -/
noncomputable def Cam.rNormalized (c : Cam) : Except Err (Mat 2 2) := do
  let s ← c.sigmaNormalized
  return .of fun i j => s i j ^ 2

/-- `camera.py:146-167` (`is_measurement_valid`); `and` evaluates from the left, and `uv[1]` is read first. -/
def Cam.isValid (c : Cam) (uv : List ℝ) : Except Err Prop := do
  let v ← pyGet uv 1
  let u ← pyGet uv 0
  return (v > 0 ∧ v < c.height ∧ u > 0 ∧ u < c.width)

/-- `camera.py:199-213` (`resolve_landmark_in_cam_frame`). -/
def Cam.resolve (c : Cam) (pose : Pose) (p : Vec 3) : Vec 3 :=
  c.Tbc.rotᵀ *ᵥ (pose.rotᵀ *ᵥ (p - pose.pos) - c.Tbc.pos)

/-- `camera.py:169-176` (`is_landmark_in_front_of_cam`). -/
def Cam.inFront (c : Cam) (pose : Pose) (p : Vec 3) : Prop := c.resolve pose p 2 > 0

/-- Division of numpy floats. -/
noncomputable def npDiv (a b : ℝ) : Except Err ℝ := if b = 0 then .error .nan else .ok (a / b)

/-- `camera.py:215-233` (`project`). -/
noncomputable def Cam.project (c : Cam) : List ℝ → Except Err (List ℝ)
  | [x, y, z] => do
    let a ← npDiv (c.fu * x) z
    let b ← npDiv (c.fv * y) z
    return [a + c.cu, b + c.cv]
  | _ => .error .valueError

/-- `r.ravel()` of a three vector. -/
def ravel3 (r : Vec 3) : List ℝ := [r 0, r 1, r 2]

/-- `camera.py:178-197` (`evaluate`). -/
noncomputable def Cam.evaluate (c : Cam) (pose : Pose) (p : Vec 3) : Except Err (List ℝ) :=
  c.project (ravel3 (c.resolve pose p))

/-- `camera.py:235-254` (`to_normalized_coords`). -/
noncomputable def Cam.toNormalized (c : Cam) : List ℝ → Except Err (List ℝ)
  | [u, v] => do
    let a ← npDiv (u - c.cu) c.fu
    let b ← npDiv (v - c.cv) c.fv
    return [a, b, 1]
  | _ => .error .valueError

/-- `camera.py:256-262` (`to_pixel_coors`). -/
def Cam.toPixel (c : Cam) : List ℝ → Except Err (List ℝ)
  | [x, y] => .ok [x * c.fu + c.cu, y * c.fv + c.cv]
  | _ => .error .valueError

end Verif
