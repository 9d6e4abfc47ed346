import Verif.Model.Datagen
import Verif.Model.Imu
import Verif.Model.Measurements
import Verif.Props.WorldFrame
import Verif.Props.ImuJac
import Mathlib.Analysis.SpecialFunctions.Trigonometric.Basic

/-!
The simulated datasets of `navlie/lib/datasets.py`, and `load_tum_trajectory` (`navlie/utils/common.py:18-43`).
-/

namespace Verif

open Matrix

/-! ### Landmarks on a cylinder -/

/-- `np.linspace(a, b, n)` for `n ≥ 0` (a negative `n` raises `ValueError`): a single point is `a`. -/
noncomputable def linspace (a b : ℝ) (n : ℕ) : List ℝ :=
  if n = 1 then [a] else (List.range n).map fun i : ℕ => a + i * ((b - a) / ((n : ℝ) - 1))

/-- `datasets.py:341-382` (`generate_landmark_positions`). `x[landmark_idx]`, `y[landmark_idx]`, `z[level_idx]` run through the whole
arrays, which have `n_landmarks_per_level`, `n_landmarks_per_level` and `n_levels` entries. Numbers of levels and landmarks that are not
negative. -/
noncomputable def landmarkPositions (radius height : ℝ) (levels perLevel : ℕ) : List (Vec 3) :=
  (linspace 0 height levels).flatMap fun z =>
    ((linspace 0 (2 * Real.pi) (perLevel + 1)).dropLast).map fun a => ![radius * Real.cos a, radius * Real.sin a, z]

/-! ### `SimulatedPoseRangingDataset` -/

/-- `datasets.py:65-68` (`input_profile`): the body-frame angular and translational velocity. -/
noncomputable def rangingProfile (t : ℝ) : Fin 3 ⊕ Fin 3 → ℝ :=
  Sum.elim ![Real.sin (0.1 * t), Real.cos (0.1 * t), Real.sin (0.1 * t)] ![1, 0, 0]

/-- `datasets.py:70-79`: anchors and tags. -/
noncomputable def rangingTags : List (Vec 3 × Vec 3) :=
  [(![1, 0, 0], ![0.17, 0.17, 0]), (![1, 0, 0], ![-0.17, 0.17, 0]), (![-1, 0, 0], ![0.17, 0.17, 0]), (![-1, 0, 0], ![-0.17, 0.17, 0]),
   (![0, 2, 0], ![0.17, 0.17, 0]), (![0, 2, 0], ![-0.17, 0.17, 0]), (![0, 2, 2], ![0.17, 0.17, 0]), (![0, 2, 2], ![-0.17, 0.17, 0])]

/-- `datasets.py:58-88`: the data generator of `SimulatedPoseRangingDataset`; `dir` is the direction of `x0`, and the same input frequency
and measurement frequency are used for all. -/
noncomputable def rangingGen (dir : Dir) (Q : Matrix (Fin 3 ⊕ Fin 3) (Fin 3 ⊕ Fin 3) ℝ) (R inputFreq measFreq : ℝ) :
    DataGen {X // IsSE3 X} (Fin 3 ⊕ Fin 3 → ℝ) 6 6 where
  proc := (se3Ekf dir Q false fun _ => 0).proc
  inputFunc t _ := .raw (rangingProfile t)
  inputCov _ := numbered se3Eqv Q
  inputFreq := inputFreq
  info := rangingTags.map fun p => ⟨1, anchorModel dir p.1 p.2 R, measFreq, 0⟩
  uplus u w := u + w ∘ se3Eqv

/-- `datasets.py:29-102` (`SimulatedPoseRangingDataset.__init__`): what is stored as `gt_data`, `input_data`, `meas_data`. `noise` is
`none` for `noise_active=False`. -/
noncomputable def rangingDataset (dir : Dir) (Q : Matrix (Fin 3 ⊕ Fin 3) (Fin 3 ⊕ Fin 3) ℝ) (R inputFreq measFreq : ℝ) (x0 : {X // IsSE3 X})
    (start stop : ℝ) (noise : Option (NoiseSrc 6)) : Except Err (GenData {X // IsSE3 X} (Fin 3 ⊕ Fin 3 → ℝ) 6) :=
  (rangingGen dir Q R inputFreq measFreq).generate x0 start stop noise

/-! ### The inertial datasets -/

/-- The value of an `IMUState` with biases (`imu.py:138-297`): navigation state, gyro bias, accelerometer bias. -/
structure NavBias where
  pose : {X : EPose // IsSE23 X}
  bg : Vec 3
  ba : Vec 3

/-- The object the functions of `Verif.Model.Imu` work on. -/
def NavBias.toSt (x : NavBias) (dir : Dir) (stamp : Option ℝ) : ImuSt := ⟨x.pose.1, some (x.bg, x.ba), dir, stamp⟩

/-- The value of an `IMU` reading with both bias walks: gyro, accelerometer, gyro bias walk, accelerometer bias walk. -/
abbrev ImuVal := Fin 4 → Vec 3

/-- The object the functions of `Verif.Model.Imu` work on. -/
def imuObj (u : ImuVal) (stamp : Option ℝ) : ImuIn := mkImu (u 0) (u 1) stamp (some (u 2)) (some (u 3))

/-- Block `i`, entry `p` of a perturbation is number `3 i + p`. -/
def imuEqv : Fin 5 × Fin 3 ≃ Fin 15 := finProdFinEquiv

/-- `IMUKinematics(Q)` (`imu.py:481-645`) on states with biases and readings with walks, where no method raises (`imuEvaluate_ok`);
`tol` is the threshold of `N_matrix`. -/
noncomputable def imuProc (tol : ℝ) (g : Vec 3) (dir : Dir) (Q : Blk 4 4) : ProcModel NavBias ImuVal 15 where
  evaluate x u dt := ⟨⟨⟨gMatrix g dt * x.value.pose.1 * uMatrix tol (u.value 0 - x.value.bg) (u.value 1 - x.value.ba) dt,
      C76_closed tol g (x.value.toSt dir x.stamp) _ (imuObj u.value u.stamp) dt x.value.pose.2 rfl⟩,
    x.value.bg + dt • u.value 2, x.value.ba + dt • u.value 3⟩, x.stamp⟩
  jacobian x u dt := numbered imuEqv (((imuJacobian tol g (x.value.toSt dir x.stamp) (imuObj u.value u.stamp) dt).toOption.getD 0).flat)
  covariance x u dt :=
    numbered imuEqv (((imuCovariance tol g Q (x.value.toSt dir x.stamp) (imuObj u.value u.stamp) dt).toOption.getD 0).flat)

/-- `IMUState.plus` (`composite.py:255-268`, `states.py:113-157`) of a perturbation of fifteen numbers. -/
noncomputable def NavBias.plus (dir : Dir) (x : NavBias) (dx : Vec 15) : NavBias where
  pose := ⟨((x.toSt dir none).plus fun i p => dx (imuEqv (i, p))).pose, by
    have he := se23_laws.mem_exp fun k : Fin 3 × Fin 3 => dx (imuEqv (k.1.castLE (by omega), k.2))
    have e : se23.Exp (fun k : Fin 3 × Fin 3 => dx (imuEqv (k.1.castLE (by omega), k.2))) =
        se23Exp ![fun p => dx (imuEqv (0, p)), fun p => dx (imuEqv (1, p)), fun p => dx (imuEqv (2, p))] := by
      have hw : (fun (i : Fin 3) (p : Fin 3) => dx (imuEqv (i.castLE (by omega), p))) =
          ![fun p => dx (imuEqv (0, p)), fun p => dx (imuEqv (1, p)), fun p => dx (imuEqv (2, p))] := by
        funext i p
        fin_cases i <;> rfl
      rw [← hw]
      rfl
    rw [e] at he
    cases dir
    · exact se23_laws.mem_mul _ _ x.pose.2 he
    · exact se23_laws.mem_mul _ _ he x.pose.2⟩
  bg := x.bg + fun p => dx (imuEqv (3, p))
  ba := x.ba + fun p => dx (imuEqv (4, p))

/-- `ExtendedKalmanFilter(IMUKinematics(Q))` (`filters.py:75-260`) on states with biases. -/
noncomputable def imuEkf (tol : ℝ) (g : Vec 3) (dir : Dir) (Q : Blk 4 4) (rej : Bool) (chi : ℕ → ℝ) : EkfEnv NavBias ImuVal 15 where
  proc := imuProc tol g dir Q
  rejectOutliers := rej
  plus := NavBias.plus dir
  chi2ppf99 := chi

/-- `GlobalPosition(R)` (`models.py:906-967`) on `IMUState`. -/
noncomputable def gpsModel (dir : Dir) (R : Mat 3 3) : MeasModel NavBias 15 3 where
  evaluate x := (apEval imuOps (x.value.toSt dir x.stamp)).toOption
  jacobian x := (((apJac so3Att imuOps (x.value.toSt dir x.stamp)).toOption).getD 0).submatrix id imuEqv.symm
  covariance _ := R

/-- `PointRelativePosition(p, R)` (`models.py:423-495`) on `IMUState`. -/
noncomputable def imuLandmarkModel (dir : Dir) (R : Mat 3 3) (p : Vec 3) : MeasModel NavBias 15 3 where
  evaluate x := (prpEval imuOps p (x.value.toSt dir x.stamp)).toOption
  jacobian x := (((prpJac so3Att imuOps p (x.value.toSt dir x.stamp)).toOption).getD 0).submatrix id imuEqv.symm
  covariance _ := R

/-- `datasets.py:168-194` and `277-303` (`input_profile`): the reading of an IMU on the way; `w` is what `randvec(Q[6:, 6:])` gives in this
call (the gyro part and the accelerometer part). -/
noncomputable def imuProfile (w : Vec 3 × Vec 3) (t : ℝ) (x : NavBias) : ImuVal :=
  let C := EPose.rot x.pose.1
  let ga : Vec 3 := ![0, 0, -9.80665]
  let aa : Vec 3 := ![-3 * Real.cos t, -3 * Real.sin t, -9 * Real.sin (3 * t)]
  ![![0.1, 0, 0.5] + x.bg, Cᵀ *ᵥ aa + x.ba - Cᵀ *ᵥ ga, w.1, w.2]

/-- The data generator of the inertial datasets (`datasets.py:197-206`, `313-323`) with the measurement models `models`. `walk t` is the
draw of the bias walk at time `t`: `input_profile` returns an object with a stamp, so it is called once per sample. -/
noncomputable def inertialGen (tol : ℝ) (dir : Dir) (Q : Blk 4 4) (models : List (MeasModel NavBias 15 3)) (inputFreq measFreq : ℝ)
    (walk : ℝ → Vec 3 × Vec 3) : DataGen NavBias ImuVal 15 12 where
  proc := imuProc tol ![0, 0, -9.80665] dir Q
  inputFunc t x := .stamped (imuProfile (walk t) t x) t
  inputCov _ := numbered finProdFinEquiv Q.flat
  inputFreq := inputFreq
  info := models.map fun m => ⟨3, m, measFreq, 0⟩
  uplus u w := fun i p => u i p + w (finProdFinEquiv (i, p))

/-- `datasets.py:211-214`, `330-333`: with `noise_active` the bias walks of the returned inputs are set to zero. -/
def dropWalks {n : ℕ} (D : GenData NavBias ImuVal n) : GenData NavBias ImuVal n :=
  { D with inputs := D.inputs.map fun u => (![u.1 0, u.1 1, 0, 0], u.2) }

/-- `datasets.py:113-223` (`SimulatedInertialGPSDataset`) and `225-339` (`SimulatedInertialLandmarkDataset`), given the measurement models
(and without the attribute `landmarks`). -/
noncomputable def inertialDataset (tol : ℝ) (dir : Dir) (Q : Blk 4 4) (models : List (MeasModel NavBias 15 3)) (inputFreq measFreq : ℝ)
    (walk : ℝ → Vec 3 × Vec 3) (x0 : NavBias) (start stop : ℝ) (noise : Option (NoiseSrc 12)) :
    Except Err (GenData NavBias ImuVal 15) := do
  let D ← (inertialGen tol dir Q models inputFreq measFreq walk).generate x0 start stop noise
  return if noise.isSome then dropWalks D else D

/-! ### TUM trajectories -/

/-- `common.py:30-43` for one row of eight numbers: stamp, position, quaternion. `fromQuat` is `SO3.from_quat(·, order="xyzw")`. -/
def tumState (fromQuat : Vec 4 → Mat 3 3) (row : List ℝ) : St Pose :=
  ⟨mkPose (fromQuat fun i => row.getD (4 + i) 0) (fun i => row.getD (1 + i) 0), some (row.getD 0 0)⟩

/-- `common.py:18-43` (`load_tum_trajectory`) from the numbers in the file, one list for each line that is not empty or a comment.
`np.loadtxt` raises `ValueError` if the lines have different numbers of entries, and returns an array with fewer than two axes when there
is no line, one line, or one column: then `shape[1]` is an `IndexError`. -/
def loadTum (fromQuat : Vec 4 → Mat 3 3) (rows : List (List ℝ)) : Except Err (List (St Pose)) :=
  if ∃ r ∈ rows, r.length ≠ (rows.headD []).length then .error .valueError
  else if rows.length ≤ 1 ∨ (rows.headD []).length ≤ 1 then .error .indexError
  else if (rows.headD []).length ≠ 8 then .error .valueError
  else .ok (rows.map (tumState fromQuat))

end Verif
