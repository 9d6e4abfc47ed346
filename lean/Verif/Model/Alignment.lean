import Verif.Model.Lie

/-!
`navlie/utils/alignment.py`: the interface to the package `evo`. The functions of `evo` and `pymlg` that it calls (association of stamps,
Umeyama's alignment, quaternions) are parameters.
-/

namespace Verif

open Matrix

/-- `SE3State` (`lib/states.py:230-312`) as this module uses it; `left` is `direction == "left"`. -/
structure TrajState (K : Type) where
  attitude : Mat 3 3
  position : Vec 3
  stamp : ℝ
  id : Option K
  left : Bool

/-- A row of `evo.core.trajectory.PoseTrajectory3D`: position, quaternion and stamp. -/
structure EvoRow where
  xyz : Vec 3
  quat : Vec 4
  stamp : ℝ

/-- What is used of the packages: `SO3.to_quat`, `SO3.from_quat`, the pairs of indexes that `sync.associate_trajectories` keeps (it raises if
there are none) given both lists of stamps, `max_diff` and the offset, and `umeyama_alignment` of two lists of positions. -/
structure Evo where
  toQuat : Mat 3 3 → Vec 4
  fromQuat : Vec 4 → Mat 3 3
  associate : List ℝ → List ℝ → ℝ → ℝ → Except Err (List ℕ × List ℕ)
  umeyama : List (Vec 3) → List (Vec 3) → Bool → Mat 3 3 × Vec 3 × ℝ

variable {K : Type}

/-- `alignment.py:15-36` (`state_list_to_evo_traj`). -/
def toEvo (E : Evo) (l : List (TrajState K)) : List EvoRow := l.map fun x => ⟨x.position, E.toQuat x.attitude, x.stamp⟩

/-- `alignment.py:39-66` (`evo_traj_to_state_list`): states without id and with the default direction "right". -/
def fromEvo (E : Evo) (t : List EvoRow) : List (TrajState K) := t.map fun p => ⟨E.fromQuat p.quat, p.xyz, p.stamp, none, false⟩

/-- `PoseTrajectory3D.reduce_to_ids` of `evo`. -/
def reduceToIds (t : List EvoRow) (ids : List ℕ) : List EvoRow := ids.filterMap fun i => t[i]?

/-- `PoseTrajectory3D.scale` and `PoseTrajectory3D.transform` (from the left) of `evo`. -/
def evoMove (E : Evo) (R : Mat 3 3) (b : Vec 3) (s : ℝ) (p : EvoRow) : EvoRow :=
  ⟨R *ᵥ (s • p.xyz) + b, E.toQuat (R * E.fromQuat p.quat), p.stamp⟩

/-- `PoseTrajectory3D.align` of `evo`: `n = -1` uses all positions. The positions are scaled only if `correct_scale` is set. -/
def evoAlign (E : Evo) (est ref : List EvoRow) (correctScale : Bool) (n : ℤ) : List EvoRow × (Mat 3 3 × Vec 3 × ℝ) :=
  let first : List EvoRow → List (Vec 3) := fun t => (if n = -1 then t else t.take n.toNat).map EvoRow.xyz
  let a := E.umeyama (first est) (first ref) correctScale
  (est.map (evoMove E a.1 a.2.1 (if correctScale then a.2.2 else 1)), a)

/-- `alignment.py:69-163` (`associate_and_align_trajectories`): reference, estimate, and the dictionary with rotation, position and scale.
Not modelled: `n_to_align` below -1. -/
def associateAndAlign (E : Evo) (ref est : List (TrajState K)) (maxDiff offset : ℝ) (align correctScale : Bool) (n : ℤ) :
    Except Err (List (TrajState K) × List (TrajState K) × (Mat 3 3 × Vec 3 × ℝ)) := do
  let r := toEvo E ref
  let e := toEvo E est
  let m ← E.associate (r.map EvoRow.stamp) (e.map EvoRow.stamp) maxDiff offset
  let r := reduceToIds r m.1
  let e := reduceToIds e m.2
  if !align then return (fromEvo E r, fromEvo E e, (1, 0, 1))
  let a := evoAlign E e r correctScale n
  return (fromEvo E r, fromEvo E a.1, a.2)

end Verif
