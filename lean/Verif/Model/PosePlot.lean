import Verif.Model.Lie

/-!
Plots of poses: `navlie/utils/plot.py:310-638`. A plot is modelled by the lines and arrows on one axes. Colours and widths are left out.
-/

namespace Verif

open Matrix

/-- A pose as the plots use it: `position` and `attitude`, in `d` dimensions. -/
structure PPose (d : ℕ) where
  position : Vec d
  attitude : Mat d d

/-- The argument `poses`: a `GaussianResultList` (its `state` is an array), a `StateWithCovariance`, an array, a list, or a pose. -/
inductive PoseArg (P : Type) where
  | results (states : List P)
  | withCovariance (state : P)
  | array (l : List P)
  | list (l : List P)
  | single (x : P)

/-- `plot.py:345-355` and `plot.py:504-514`. -/
def PoseArg.toList {P : Type} : PoseArg P → List P
  | .results l => l
  | .withCovariance x => [x]
  | .array l => l
  | .list l => l
  | .single x => [x]

/-- The list `range(0, n, step)`. -/
def pyRange (n : ℕ) (step : ℤ) : Except Err (List ℕ) :=
  if step = 0 then .error .valueError
  else if step < 0 then .ok []
  else .ok ((List.range ((n + step.toNat - 1) / step.toNat)).map fun k => k * step.toNat)

/-! ### `set_axes_equal` -/

/-- The limits of three axes. -/
abbrev Limits := Fin 3 → ℝ × ℝ

/-- `plot.py:615-638` (`set_axes_equal`). Not modelled: matplotlib widens limits that would be equal (here: if all three were). -/
noncomputable def setAxesEqual (l : Limits) : Limits :=
  let range : Fin 3 → ℝ := fun i => |(l i).2 - (l i).1|
  let middle : Fin 3 → ℝ := fun i => ((l i).1 + (l i).2) / 2
  let length := 0.5 * max (range 0) (max (range 1) (range 2))
  fun i => (middle i - length, middle i + length)

/-! ### Cameras -/

/-- `plot.py:392-403` (`CameraPoseVisualizer.__init__`): the corners of the image and the optical centre, in the frame of the camera. -/
noncomputable def camPoints (scale : ℝ) : Fin 5 → Vec 3 := fun i =>
  scale • (![![-1, -1, 1], ![1, -1, 1], ![-1, 1, 1], ![1, 1, 1], ![0, 0, 0]] : Fin 5 → Vec 3) i

/-- `plot.py:438-447`. -/
def camConnections : List (Fin 5 × Fin 5) := [(0, 1), (2, 3), (0, 2), (1, 3), (0, 4), (1, 4), (2, 4), (3, 4)]

/-- `plot.py:405-462` (`CameraPoseVisualizer.plot_pose`): the segments that are drawn. -/
noncomputable def cameraSegments (scale : ℝ) (C : Mat 3 3) (r : Vec 3) : List (Vec 3 × Vec 3) :=
  camConnections.map fun c => (C *ᵥ camPoints scale c.1 + r, C *ᵥ camPoints scale c.2 + r)

/-- `plot.py:310-377` (`plot_camera_poses`): the segments of each camera drawn. -/
noncomputable def plotCameraPoses (poses : PoseArg (PPose 3)) (step : ℤ) (scale : ℝ) : Except Err (List (List (Vec 3 × Vec 3))) := do
  let ps := poses.toList
  let idx ← pyRange ps.length step
  return (idx.filterMap fun i => ps[i]?).map fun p => cameraSegments scale p.attitude p.position

/-! ### `plot_poses` -/

/-- The argument `ax`: `None`, planar axes or 3D axes. -/
inductive PoseAx where
  | new
  | planar
  | spatial
  deriving DecidableEq

/-- What `plot_poses` draws: on 3D axes or on planar ones, the line of the positions, and the arrows of each call of `quiver`: base and vector
(coordinates of the axes; on 3D axes the vector is drawn `arrow_length` times as long, on planar ones its length is in parts of the width). -/
structure PosePlot where
  spatial : Bool
  line : List (List ℝ)
  arrows : List (List (List ℝ × List ℝ))

/-- The first `k` coordinates of a vector. -/
def firstCoords {d : ℕ} (k : ℕ) (v : Vec d) : List ℝ := (List.ofFn v).take k

/-- `plot.py:550-604`: the arrow for column `j` of the attitude of a pose (row `j` of `attitude.T`). -/
noncomputable def poseArrow {d : ℕ} (k : ℕ) (p : PPose d) (j : Fin d) : List ℝ × List ℝ :=
  (firstCoords k p.position, firstCoords k (p.attitudeᵀ j))

/-- `plot.py:465-612` (`plot_poses`) for poses of dimension `d` (2 or 3). Each list in `arrows` is one call of `quiver`. A call that raises may
leave a line drawn: left out. -/
noncomputable def plotPoses {d : ℕ} (poses : PoseArg (PPose d)) (ax : PoseAx) (step : Option ℤ) (plot2d : Bool) : Except Err PosePlot := do
  let ps := poses.toList
  if ps.isEmpty then .error .indexError
  let plot2d := if d = 2 then true else plot2d
  let plot2d := if ax = .spatial then false else plot2d
  -- `ax.plot3D` on planar axes
  if !plot2d && decide (ax = .planar) then .error .attributeError
  let k := if plot2d then 2 else 3
  -- `r[:, 2]`
  if d < k then .error .indexError
  let line := ps.map fun p => firstCoords k p.position
  match step with
  | none => return ⟨!plot2d, line, []⟩
  | some s =>
    let idx ← pyRange ps.length s
    -- `r[:, 0]` of an empty array
    if idx.isEmpty then .error .indexError
    let shown := idx.filterMap fun i => ps[i]?
    return ⟨!plot2d, line, ((List.finRange d).take k).map fun j => shown.map fun p => poseArrow k p j⟩

end Verif
