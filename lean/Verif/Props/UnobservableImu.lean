import Verif.Props.Unlearned
import Verif.Props.ImuTrack

/-!
C125: inertial navigation does not learn the position without measurements of it.
-/

namespace Verif

open Matrix

set_option linter.unusedVariables false
set_option linter.unusedSectionVars false

/-- The matrix of fifteen rows whose columns are the perturbations of the position of an `IMUState` (block number two). -/
def posDirs : Mat 15 3 := .of fun i p => if imuEqv.symm i = (2, p) then 1 else 0

/-- The columns of the Jacobian of a measurement model at the position. -/
def posJac {m : ℕ} (g : MeasModel NavBias 15 m) (x : St NavBias) : Mat m 3 := .of fun i p => g.jacobian x i (imuEqv (2, p))

/-- The measurement model does not see the uncertainty `W` of the position. -/
def Blind {m : ℕ} (g : MeasModel NavBias 15 m) (W : Mat 3 3) : Prop := ∀ x : St NavBias, posJac g x * W = 0

theorem mul_posDirs {m : ℕ} (G : Mat m 15) : G * posDirs = .of fun i p => G i (imuEqv (2, p)) := by
  ext i p
  rw [mul_apply, Finset.sum_eq_single (imuEqv (2, p))]
  · simp [posDirs]
  · intro j _ hj
    rw [posDirs, of_apply, if_neg, mul_zero]
    intro h
    exact hj (by rw [← h, Equiv.apply_symm_apply])
  · simp

theorem posDirs_mul (M : Mat 3 3) (k : Fin 5) (q p : Fin 3) : (posDirs * M) (imuEqv (k, q)) p = if k = 2 then M q p else 0 := by
  rw [mul_apply]
  by_cases hk : k = 2
  · rw [if_pos hk, Finset.sum_eq_single q]
    · rw [posDirs, of_apply, Equiv.symm_apply_apply, hk, if_pos rfl, one_mul]
    · intro j _ hj
      rw [posDirs, of_apply, Equiv.symm_apply_apply, if_neg fun h => hj (congrArg Prod.snd h).symm, zero_mul]
    · simp
  · rw [if_neg hk]
    refine Finset.sum_eq_zero fun j _ => ?_
    rw [posDirs, of_apply, Equiv.symm_apply_apply, if_neg fun h => hk (congrArg Prod.fst h), zero_mul]

/-- The block column of the position. -/
theorem adjoint_pos (X : EPose) (B : Blk 3 2) (k : Fin 5) : withBias (adjointIE3 X) B k 2 = if k = 2 then X.rot else 0 := by
  fin_cases k <;> rfl

/-- How a perturbation of the position is turned by the process model. -/
noncomputable def posTurn (dir : Dir) (φ : Vec 3) : Mat 3 3 :=
  match dir with
  | .left => 1
  | .right => (so3Exp φ)ᵀ

/-- What the process Jacobian does to perturbations of the position. -/
theorem imu_posDirs (tol : ℝ) (g : Vec 3) (dir : Dir) (Q : Blk 4 4) (x : St NavBias) (u : Inp ImuVal) (dt : ℝ) :
    (imuProc tol g dir Q).jacobian x u dt * posDirs = posDirs * posTurn dir (dt • (u.value 0 - x.value.bg)) := by
  rw [mul_posDirs]
  ext i p
  obtain ⟨⟨k, q⟩, rfl⟩ := imuEqv.surjective i
  rw [posDirs_mul, of_apply]
  show numbered imuEqv (((imuJacobian tol g (x.value.toSt dir x.stamp) (imuObj u.value u.stamp) dt).toOption.getD 0).flat)
    (imuEqv (k, q)) (imuEqv (2, p)) = _
  unfold NavBias.toSt imuObj
  rw [imuJacobian_ok, numbered, submatrix_apply, Equiv.symm_apply_apply, Equiv.symm_apply_apply]
  show (withBias (imuNavJac tol g dir _ _ dt) _) k 2 q p = _
  cases dir
  · show (withBias (adjointIE3 _) _) k 2 q p = _
    rw [adjoint_pos]
    by_cases hk : k = 2
    · rw [if_pos hk, if_pos hk]
      rfl
    · rw [if_neg hk, if_neg hk]
      rfl
  · show (withBias (adjointIE3 _) _) k 2 q p = _
    rw [adjoint_pos]
    by_cases hk : k = 2
    · rw [if_pos hk, if_pos hk]
      rfl
    · rw [if_neg hk, if_neg hk]
      rfl

theorem posTurn_scalar (dir : Dir) (φ : Vec 3) (w : ℝ) : posTurn dir φ * (w • 1) * (posTurn dir φ)ᵀ = w • 1 := by
  cases dir
  · have h : (so3Exp φ)ᵀ * so3Exp φ = 1 := (so3Exp_isRot φ).1
    rw [Matrix.mul_smul, Matrix.mul_one, Matrix.smul_mul]
    show w • ((so3Exp φ)ᵀ * ((so3Exp φ)ᵀ)ᵀ) = _
    rw [transpose_transpose, h]
  · show (1 : Mat 3 3) * (w • 1) * (1 : Mat 3 3)ᵀ = _
    rw [transpose_one, Matrix.mul_one, Matrix.one_mul]

/-- C125: an uncertainty of the position goes unnoticed by inertial navigation: any with perturbations from the left, an isotropic
one with perturbations from the right. -/
theorem imu_unseen (tol : ℝ) (g : Vec 3) (dir : Dir) (Q : Blk 4 4) (W : Mat 3 3) (hW : dir = .left ∨ ∃ w : ℝ, W = w • 1) :
    UnseenProcess (imuProc tol g dir Q) (fun _ v => v) (fun _ => posDirs * W * posDirsᵀ) := by
  refine ⟨fun _ _ _ _ _ => rfl, fun _ _ _ _ _ => rfl, fun _ _ _ _ _ => rfl, fun v t u dt _ => ?_⟩
  have h := imu_posDirs tol g dir Q ⟨v, some t⟩ u dt
  set A := (imuProc tol g dir Q).jacobian ⟨v, some t⟩ u dt
  set X := posTurn dir (dt • (u.value 0 - v.bg))
  have hX : X * W * Xᵀ = W := by
    rcases hW with rfl | ⟨w, rfl⟩
    · show (1 : Mat 3 3) * W * (1 : Mat 3 3)ᵀ = W
      rw [transpose_one, Matrix.mul_one, Matrix.one_mul]
    · exact posTurn_scalar dir _ w
  calc A * (posDirs * W * posDirsᵀ) * Aᵀ = (A * posDirs) * W * (A * posDirs)ᵀ := by
        rw [transpose_mul]
        simp only [Matrix.mul_assoc]
    _ = posDirs * (X * W * Xᵀ) * posDirsᵀ := by
        rw [h, transpose_mul]
        simp only [Matrix.mul_assoc]
    _ = _ := by rw [hX]

theorem blind_unseen {m : ℕ} {g : MeasModel NavBias 15 m} {W : Mat 3 3} (hg : Blind g W) :
    UnseenBy g (fun _ v => v) (fun _ => posDirs * W * posDirsᵀ) := by
  refine ⟨fun _ _ => rfl, fun _ _ => rfl, fun _ _ => rfl, fun v t => ?_⟩
  have h : g.jacobian ⟨v, some t⟩ * posDirs = posJac g ⟨v, some t⟩ := mul_posDirs _
  rw [Matrix.mul_assoc, ← Matrix.mul_assoc, h, ← Matrix.mul_assoc, hg, Matrix.zero_mul]

/-- C125: inertial navigation (`ExtendedKalmanFilter` with `IMUKinematics` on states with biases) fed with measurements that do not
see the uncertainty `W` of the position: if `W` (any with perturbations from the left, an isotropic one
with perturbations from the right) is added, every reported estimate stays the same and its covariance grows by exactly `W` in the
block of the position. -/
theorem C125_imu (tol : ℝ) (g : Vec 3) (dir : Dir) (Q : Blk 4 4) (rej : Bool) (chi : ℕ → ℝ) (W : Mat 3 3) (hs : Wᵀ = W)
    (hW : dir = .left ∨ ∃ w : ℝ, W = w • 1) (x0 : St NavBias) (P0 : Mat 15 15) (ins : List (StInp ImuVal))
    (meas : List (StMeas NavBias 15)) (hm : ∀ y ∈ meas, Blind y.meas.model W) :
    runFilter (ekfApi (imuEkf tol g dir Q rej chi)) ⟨x0, P0 + posDirs * W * posDirsᵀ⟩ ins meas
      = (runFilter (ekfApi (imuEkf tol g dir Q rej chi)) ⟨x0, P0⟩ ins meas).map
          (List.map fun r => ⟨r.state, r.cov + posDirs * W * posDirsᵀ⟩) :=
  C124_run (e := imuEkf tol g dir Q rej chi) (imu_unseen tol g dir Q W hW) (fun _ _ _ => rfl)
    (fun _ => by rw [transpose_mul, transpose_mul, transpose_transpose, hs, Matrix.mul_assoc]) ⟨x0, P0⟩ ins meas
    (fun y hy => blind_unseen (hm y hy))

/-- C125: and the position never becomes more certain than it was: if the initial covariance exceeds `W` in the block of the position,
so does every reported one. -/
theorem C125_never_learned (tol : ℝ) (g : Vec 3) (dir : Dir) (Q : Blk 4 4) (hQ : Q.flat.PosSemidef) (rej : Bool) (chi : ℕ → ℝ) (W : Mat 3 3)
    (hs : Wᵀ = W) (hW : dir = .left ∨ ∃ w : ℝ, W = w • 1) (x0 : NavBias) (t0 : ℝ) (P0 : Mat 15 15)
    (hP : (P0 - posDirs * W * posDirsᵀ).PosSemidef) (ins : List (StInp ImuVal)) (meas : List (StMeas NavBias 15))
    (hm : ∀ y ∈ meas, Blind y.meas.model W) (hR : ∀ y ∈ meas, ∀ s, (y.meas.model.covariance s).PosSemidef) (rs : List (SWC NavBias 15))
    (h : runFilter (ekfApi (imuEkf tol g dir Q rej chi)) ⟨⟨x0, some t0⟩, P0⟩ ins meas = .ok rs) :
    ∀ r ∈ rs, (r.cov - posDirs * W * posDirsᵀ).PosSemidef := by
  intro r hr
  obtain ⟨t, -, h1⟩ := C124_never_learned (e := imuEkf tol g dir Q rej chi) (imu_unseen tol g dir Q W hW)
    (fun _ => by rw [transpose_mul, transpose_mul, transpose_transpose, hs, Matrix.mul_assoc])
    (fun x u dt _ => imuProc_psd tol g dir Q hQ x u dt) x0 t0 P0 hP ins meas (fun y hy => blind_unseen (hm y hy)) hR rs h r hr
  exact h1

/-! ### The measurement models of the library without position -/

/-- `Gravitometer` and `Magnetometer` (`models.py:1059-1145`) of the vector `b` on `IMUState`. -/
noncomputable def imuVectorModel (dir : Dir) (R : Mat 3 3) (b : Vec 3) : MeasModel NavBias 15 3 where
  evaluate x := (vdEval imuOps b (x.value.toSt dir x.stamp)).toOption
  jacobian x := (((vdJac so3Att imuOps b (x.value.toSt dir x.stamp)).toOption).getD 0).submatrix id imuEqv.symm
  covariance _ := R

/-- `AbsoluteVelocity` (`models.py:970-1007`) on `IMUState`. -/
noncomputable def imuVelocityModel (dir : Dir) (R : Mat 3 3) : MeasModel NavBias 15 3 where
  evaluate x := (avEval imuOps (x.value.toSt dir x.stamp)).toOption
  jacobian x := (((avJac so3Att imuOps (x.value.toSt dir x.stamp)).toOption).getD 0).submatrix id imuEqv.symm
  covariance _ := R

/-- `Altitude` (`models.py:1010-1057`) on `IMUState`. -/
noncomputable def imuAltitudeModel (dir : Dir) (R : Mat 1 1) (minimum : Option ℝ) (bias : ℝ) : MeasModel NavBias 15 1 where
  evaluate x := ((altEval imuOps minimum bias (x.value.toSt dir x.stamp)).toOption.getD none).map fun h _ => h
  jacobian x := (((altJac imuOps (x.value.toSt dir x.stamp)).toOption).getD 0).submatrix id imuEqv.symm
  covariance _ := R

/-- C125: gravitometers and magnetometers see nothing of the position. -/
theorem C125_vector (dir : Dir) (R : Mat 3 3) (b : Vec 3) (W : Mat 3 3) : Blind (imuVectorModel dir R b) W := by
  intro x
  have h : posJac (imuVectorModel dir R b) x = 0 := by
    ext i p
    show (((vdJac so3Att imuOps b (x.value.toSt dir x.stamp)).toOption).getD 0) i (imuEqv.symm (imuEqv (2, p))) = 0
    rw [Equiv.symm_apply_apply]
    cases dir <;> rfl
  rw [h, Matrix.zero_mul]

/-- C125: measurements of the velocity see nothing of the position. -/
theorem C125_velocity (dir : Dir) (R : Mat 3 3) (W : Mat 3 3) : Blind (imuVelocityModel dir R) W := by
  intro x
  have h : posJac (imuVelocityModel dir R) x = 0 := by
    ext i p
    show (((avJac so3Att imuOps (x.value.toSt dir x.stamp)).toOption).getD 0) i (imuEqv.symm (imuEqv (2, p))) = 0
    rw [Equiv.symm_apply_apply]
    cases dir <;> rfl
  rw [h, Matrix.zero_mul]

/-- C125: altimeters see nothing of the horizontal position, with perturbations from the left. -/
theorem C125_altitude (R : Mat 1 1) (minimum : Option ℝ) (bias : ℝ) (W : Mat 3 3) (hW : ∀ p, W 2 p = 0) :
    Blind (imuAltitudeModel .left R minimum bias) W := by
  intro x
  have h : posJac (imuAltitudeModel .left R minimum bias) x = !![0, 0, 1] := by
    ext i p
    show (((altJac imuOps (x.value.toSt .left x.stamp)).toOption).getD 0) i (imuEqv.symm (imuEqv (2, p))) = _
    rw [Equiv.symm_apply_apply]
    rfl
  rw [h]
  ext i p
  rw [mul_apply, Fin.sum_univ_three, hW p]
  fin_cases i
  simp

/-- The hypotheses are met: an inertial navigation system with gravitometer, magnetometer, velocity and altitude measurements does not
learn its horizontal position. -/
example (tol : ℝ) (g x : Vec 3) (Q : Blk 4 4) (x0 : St NavBias) (P0 : Mat 15 15) (ins : List (StInp ImuVal)) (z : Vec 3) (h : Vec 1) :
    runFilter (ekfApi (imuEkf tol g .left Q true fun _ => 4)) ⟨x0, P0 + posDirs * (diagonal ![1, 2, 0] : Mat 3 3) * posDirsᵀ⟩ ins
      [⟨⟨3, z, some 1, imuVectorModel .left 1 g⟩, 1, rfl⟩, ⟨⟨3, z, some 2, imuVelocityModel .left 1⟩, 2, rfl⟩,
        ⟨⟨1, h, some 2, imuAltitudeModel .left 1 none 0⟩, 2, rfl⟩]
      = (runFilter (ekfApi (imuEkf tol g .left Q true fun _ => 4)) ⟨x0, P0⟩ ins
          [⟨⟨3, z, some 1, imuVectorModel .left 1 g⟩, 1, rfl⟩, ⟨⟨3, z, some 2, imuVelocityModel .left 1⟩, 2, rfl⟩,
            ⟨⟨1, h, some 2, imuAltitudeModel .left 1 none 0⟩, 2, rfl⟩]).map
          (List.map fun r => ⟨r.state, r.cov + posDirs * (diagonal ![1, 2, 0] : Mat 3 3) * posDirsᵀ⟩) := by
  refine C125_imu tol g .left Q true _ _ (diagonal_transpose _) (.inl rfl) x0 P0 ins _ fun y hy => ?_
  simp only [List.mem_cons, List.not_mem_nil, or_false] at hy
  rcases hy with rfl | rfl | rfl
  · exact C125_vector _ _ _ _
  · exact C125_velocity _ _ _
  · refine C125_altitude _ _ _ _ fun p => ?_
    fin_cases p <;> rfl

end Verif
