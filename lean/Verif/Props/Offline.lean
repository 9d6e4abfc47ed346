import Verif.Lemmas.FilterSim
import Verif.Props.FilterBatch
import Verif.Props.MeasurementsInv
import Verif.Props.WorldFrame

/-!
C126: covariances that can be computed before the data.

When the Jacobians and the noise covariances do not depend on the state, except for a rotation of the measurement, the covariances that
`run_filter` reports do not depend on the measured values, nor on the initial estimate.
-/

namespace Verif

open Matrix

set_option linter.unusedVariables false
set_option linter.unusedSectionVars false

variable {V V' U U' : Type} {n : ℕ}

/-- The same time and the same covariance. -/
def SameCov (x : SWC V n) (x' : SWC V' n) : Prop := x'.state.stamp = x.state.stamp ∧ x'.cov = x.cov

/-- Inputs with the same stamp for which the Jacobians and the covariances of the two process models are the same at all states. -/
def SameFlow (p : ProcModel V U n) (p' : ProcModel V' U' n) (u : StInp U) (u' : StInp U') : Prop :=
  u'.stamp = u.stamp ∧ ∀ x x' dt, 0 ≤ dt →
    p'.jacobian x' ⟨u'.value, some u'.stamp⟩ dt = p.jacobian x ⟨u.value, some u.stamp⟩ dt ∧
    p'.covariance x' ⟨u'.value, some u'.stamp⟩ dt = p.covariance x ⟨u.value, some u.stamp⟩ dt

/-- Measurements with the same stamp, of any values, whose models, at all states, both give a value and have the same Jacobian and
covariance up to an orthogonal change of coordinates of the measurement. -/
inductive SameInfo : StMeas V n → StMeas V' n → Prop
  | mk {m : ℕ} (y y' : Vec m) (s : ℝ) (g : MeasModel V n m) (g' : MeasModel V' n m)
      (hg : ∀ x, (g.evaluate x).isSome) (hg' : ∀ x, (g'.evaluate x).isSome)
      (h : ∀ x x', ∃ M : Mat m m, Mᵀ * M = 1 ∧ g'.jacobian x' = M * g.jacobian x ∧ g'.covariance x' = M * g.covariance x * Mᵀ) :
      SameInfo ⟨⟨m, y, some s, g⟩, s, rfl⟩ ⟨⟨m, y', some s, g'⟩, s, rfl⟩

theorem predict_sameCov {e : EkfEnv V U n} {e' : EkfEnv V' U' n} {x : SWC V n} {x' : SWC V' n} (hx : SameCov x x') {u : StInp U}
    {u' : StInp U'} (hu : SameFlow e.proc e'.proc u u') (dt : ℝ) :
    ExRel SameCov (e.predict x (some ⟨u.value, some u.stamp⟩) (some dt) none)
      (e'.predict x' (some ⟨u'.value, some u'.stamp⟩) (some dt) none) := by
  obtain ⟨hs, hP⟩ := hx
  obtain ⟨hst, hu⟩ := hu
  obtain ⟨⟨v, s⟩, P⟩ := x
  obtain ⟨⟨v', s'⟩, P'⟩ := x'
  obtain rfl : s' = s := hs
  obtain rfl : P' = P := hP
  unfold EkfEnv.predict
  have ht : predictTime s' (some (⟨u'.value, some u'.stamp⟩ : Inp U')) (some dt)
      = predictTime s' (some (⟨u.value, some u.stamp⟩ : Inp U)) (some dt) := by
    unfold predictTime
    cases s' <;> simp only [hst]
  show ExRel _ (predictTime s' (some (⟨u.value, some u.stamp⟩ : Inp U)) (some dt) >>= _)
    (predictTime s' (some (⟨u'.value, some u'.stamp⟩ : Inp U')) (some dt) >>= _)
  rw [ht]
  cases h : predictTime s' (some (⟨u.value, some u.stamp⟩ : Inp U)) (some dt) with
  | error er => rfl
  | ok q =>
    have hq : 0 ≤ q.2 := by
      unfold predictTime at h
      by_cases hd : dt < 0
      · cases s' <;> simp [bind, Except.bind, hd] at h
      · cases s' <;> simp [bind, Except.bind, hd] at h <;> subst h <;> exact not_lt.mp hd
    show ExRel SameCov (Except.ok (e.propagate ⟨⟨v, s'⟩, P'⟩ _ q.1 q.2 ⟨v, s'⟩)) (Except.ok (e'.propagate ⟨⟨v', s'⟩, P'⟩ _ q.1 q.2 ⟨v', s'⟩))
    have hj := hu ⟨v, s'⟩ ⟨v', s'⟩ q.2 hq
    refine ⟨rfl, ?_⟩
    unfold EkfEnv.propagate
    simp only [hj.1, hj.2]

theorem advance_sameCov {e : EkfEnv V U n} {e' : EkfEnv V' U' n} {x : SWC V n} {x' : SWC V' n} (hx : SameCov x x') {u : StInp U}
    {u' : StInp U'} (hu : SameFlow e.proc e'.proc u u') {y : Meas V n} {y' : Meas V' n} (hy : y'.stamp = y.stamp) :
    ExRel SameCov (e.advance x y (some ⟨u.value, some u.stamp⟩)) (e'.advance x' y' (some ⟨u'.value, some u'.stamp⟩)) := by
  obtain ⟨⟨v, s⟩, P⟩ := x
  obtain ⟨⟨v', s'⟩, P'⟩ := x'
  obtain ⟨hs, hP⟩ := hx
  obtain rfl : s' = s := hs
  obtain rfl : P' = P := hP
  unfold EkfEnv.advance
  simp only [hy]
  cases s' with
  | none =>
    cases y.stamp with
    | none => exact ⟨rfl, rfl⟩
    | some ty =>
      dsimp only
      split
      · rfl
      · split
        · exact predict_sameCov (x := ⟨⟨v, some ty⟩, P'⟩) (x' := ⟨⟨v', some ty⟩, P'⟩) ⟨rfl, rfl⟩ hu _
        · exact ⟨rfl, rfl⟩
  | some t =>
    cases y.stamp with
    | none => exact ⟨rfl, rfl⟩
    | some ty =>
      dsimp only
      split
      · rfl
      · split
        · exact predict_sameCov (x := ⟨⟨v, some t⟩, P'⟩) (x' := ⟨⟨v', some t⟩, P'⟩) ⟨rfl, rfl⟩ hu _
        · exact ⟨rfl, rfl⟩

theorem fuseCore_sameCov {e : EkfEnv V U n} {e' : EkfEnv V' U' n} {x : SWC V n} {x' : SWC V' n} (hx : SameCov x x') {m : ℕ} (z z' : Vec m)
    (G : Mat m n) (R : Mat m m) : ExRel SameCov (fuseCore e x z G R false) (fuseCore e' x' z' G R false) := by
  obtain ⟨hs, hP⟩ := hx
  unfold fuseCore
  simp only [Bool.false_eq_true, if_false, bind, Except.bind, hP]
  cases solve (G * x.cov * Gᵀ + R)ᵀ (x.cov * Gᵀ)ᵀ with
  | error er => rfl
  | ok Kt => exact ⟨hs, rfl⟩

theorem correct_sameCov {e : EkfEnv V U n} {e' : EkfEnv V' U' n} (hr : e.rejectOutliers = false) (hr' : e'.rejectOutliers = false)
    {x : SWC V n} {x' : SWC V' n} (hx : SameCov x x') {u : StInp U} {u' : StInp U'} (hu : SameFlow e.proc e'.proc u u')
    {y : StMeas V n} {y' : StMeas V' n} (hy : SameInfo y y') :
    ExRel SameCov (e.correct x y.meas (some ⟨u.value, some u.stamp⟩) none none)
      (e'.correct x' y'.meas (some ⟨u'.value, some u'.stamp⟩) none none) := by
  obtain ⟨y, y', s, g, g', hg, hg', h⟩ := hy
  rename_i m
  unfold EkfEnv.correct EkfEnv.correctD
  refine ExRel.map (R := fun p p' => SameCov p.1 p'.1) ?_ fun _ _ h => h
  refine (advance_sameCov hx hu (y := ⟨m, y, some s, g⟩) (y' := ⟨m, y', some s, g'⟩) rfl).bind fun x1 x1' h1 => ?_
  obtain ⟨yc, hyc⟩ := Option.isSome_iff_exists.1 (hg x1.state)
  obtain ⟨yc', hyc'⟩ := Option.isSome_iff_exists.1 (hg' x1'.state)
  have f1 := fuse_core e x1 ⟨m, y, some s, g⟩ false yc hyc
  have f2 := fuse_core e' x1' ⟨m, y', some s, g'⟩ false yc' hyc'
  obtain ⟨M, hM, hG, hR⟩ := h x1.state x1'.state
  have hM' : M * Mᵀ = 1 := mul_eq_one_comm.mp hM
  have f3 : fuseCore e' x1' (fun i => y' i - yc' i : Vec m) (g'.jacobian x1'.state) (g'.covariance x1'.state) false
      = fuseCore e' x1' (Mᵀ *ᵥ (fun i => y' i - yc' i : Vec m)) (g.jacobian x1.state) (g.covariance x1.state) false := by
    have := fuseCore_conj e' x1' hM (Mᵀ *ᵥ (fun i => y' i - yc' i : Vec m)) (g.jacobian x1.state) (g.covariance x1.state) false
    rwa [mulVec_mulVec, hM', one_mulVec, ← hG, ← hR] at this
  have f4 := fuseCore_sameCov (e := e) (e' := e') h1 (fun i => y i - yc i : Vec m) (Mᵀ *ᵥ (fun i => y' i - yc' i : Vec m))
    (g.jacobian x1.state) (g.covariance x1.state)
  rw [← f3] at f4
  change _ = fuseCore e x1 (fun i => y i - yc i : Vec m) (g.jacobian x1.state) (g.covariance x1.state) false at f1
  change _ = fuseCore e' x1' (fun i => y' i - yc' i : Vec m) (g'.jacobian x1'.state) (g'.covariance x1'.state) false at f2
  rw [← f1, ← f2] at f4
  simp only [hr, hr', Option.getD_none]
  cases h5 : e.fuse x1 ⟨m, y, some s, g⟩ none false <;> cases h6 : e'.fuse x1' ⟨m, y', some s, g'⟩ none false <;>
    rw [h5, h6] at f4 <;> exact f4

/-- C126: without outlier rejection, if the Jacobians and the noise covariances are the same at all states, up to orthogonal changes of
coordinates of the measurements, two runs from initial estimates of the same time and covariance report the same stamps and covariances,
whatever was measured, and wherever they started. -/
theorem C126_run {e : EkfEnv V U n} {e' : EkfEnv V' U' n} (hr : e.rejectOutliers = false) (hr' : e'.rejectOutliers = false)
    (x0 : SWC V n) (x0' : SWC V' n) (hs : x0'.state.stamp = x0.state.stamp) (hP : x0'.cov = x0.cov)
    (ins : List (StInp U)) (ins' : List (StInp U')) (hi : List.Forall₂ (SameFlow e.proc e'.proc) ins ins')
    (meas : List (StMeas V n)) (meas' : List (StMeas V' n)) (hm : List.Forall₂ SameInfo meas meas') :
    (runFilter (ekfApi e') x0' ins' meas').map (List.map fun x => (x.state.stamp, x.cov))
      = (runFilter (ekfApi e) x0 ins meas).map (List.map fun x => (x.state.stamp, x.cov)) := by
  have hsim : FilterSim (ekfApi e) (ekfApi e') 0 SameCov (SameFlow e.proc e'.proc) SameInfo := by
    refine ⟨?_, ?_, ?_, ?_, ?_⟩
    · rintro x x' ⟨h, -⟩
      show x'.state.stamp = (x.state.stamp).map (· + 0)
      rw [h]
      cases x.state.stamp <;> simp
    · rintro u u' ⟨h, -⟩
      exact h.trans (add_zero _).symm
    · rintro _ _ ⟨⟩
      exact (add_zero _).symm
    · intro x x' u u' dt hx hu
      exact predict_sameCov hx hu dt
    · intro x x' u u' y y' hx hu hy
      exact correct_sameCov hr hr' hx hu hy
  have h := hsim.runFilter (x0 := x0) (x0' := x0') ⟨hs, hP⟩ hi hm
  cases h1 : runFilter (ekfApi e) x0 ins meas <;> cases h2 : runFilter (ekfApi e') x0' ins' meas' <;> rw [h1, h2] at h
  · exact congrArg Except.error h.symm
  · exact h.elim
  · exact h.elim
  · refine congrArg Except.ok ?_
    change List.Forall₂ SameCov _ _ at h
    clear h1 h2
    induction h with
    | nil => rfl
    | cons h1 _ ih => rw [List.map_cons, List.map_cons, ih, h1.1, h1.2]

/-! ### Linear systems -/

/-- Measurements of linear systems that differ in nothing but the value. -/
def ValuesDiffer (y y' : StMeas (Vec n) n) : Prop :=
  ∃ (m : ℕ) (C : Mat m n) (R : Mat m m) (v v' : Vec m) (s : ℝ),
    y = ⟨linMeas C R v (some s), s, rfl⟩ ∧ y' = ⟨linMeas C R v' (some s), s, rfl⟩

theorem valuesDiffer_same {y y' : StMeas (Vec n) n} (h : ValuesDiffer y y') : SameInfo y y' := by
  obtain ⟨m, C, R, v, v', s, rfl, rfl⟩ := h
  refine SameInfo.mk v v' s (linMeasModel C R) (linMeasModel C R) (fun _ => rfl) (fun _ => rfl) fun x x' => ⟨1, ?_, ?_, ?_⟩
  · rw [transpose_one, Matrix.mul_one]
  · rw [Matrix.one_mul]; rfl
  · rw [transpose_one, Matrix.mul_one, Matrix.one_mul]; rfl

/-- C126 for linear systems: the covariances that the Kalman filter reports depend neither on the initial estimate nor on what is
measured, nor on the additive part of the process model. -/
theorem C126_linear (A : Inp U → ℝ → Mat n n) (b b' : Inp U → ℝ → Vec n) (Q : Inp U → ℝ → Mat n n) (chi chi' : ℕ → ℝ) (x0 x0' : Vec n)
    (t0 : ℝ) (P0 : Mat n n) (ins : List (StInp U)) (meas meas' : List (StMeas (Vec n) n)) (hm : List.Forall₂ ValuesDiffer meas meas') :
    (runFilter (ekfApi (linFilter A b' Q chi')) ⟨⟨x0', some t0⟩, P0⟩ ins meas').map (List.map fun x => (x.state.stamp, x.cov))
      = (runFilter (ekfApi (linFilter A b Q chi)) ⟨⟨x0, some t0⟩, P0⟩ ins meas).map (List.map fun x => (x.state.stamp, x.cov)) :=
  C126_run (e := linFilter A b Q chi) (e' := linFilter A b' Q chi') rfl rfl ⟨⟨x0, some t0⟩, P0⟩ ⟨⟨x0', some t0⟩, P0⟩ rfl rfl ins ins
    (List.forall₂_same.mpr fun u _ => ⟨rfl, fun _ _ _ _ => ⟨rfl, rfl⟩⟩) meas meas' (hm.imp fun _ _ => valuesDiffer_same)

/-! ### Poses -/

/-- `AbsolutePosition` (`models.py:915-959`) on poses in space, with the covariance given as a number. -/
noncomputable def positionModel (dir : Dir) (r : ℝ) : MeasModel {X // IsSE3 X} 6 3 where
  evaluate x := (apEval se3Ops ⟨x.value.1, dir, x.stamp⟩).toOption
  jacobian x := (((apJac so3Att se3Ops ⟨x.value.1, dir, x.stamp⟩).toOption).getD 0).submatrix id se3Eqv.symm
  covariance x := ((covByPos se3Ops (.scalar r) ⟨x.value.1, dir, x.stamp⟩).toOption).getD 0

/-- A measurement of the position with stamp `p.1` and value `p.2`. -/
noncomputable def positionMeas (dir : Dir) (r : ℝ) (p : ℝ × Vec 3) : StMeas {X // IsSE3 X} 6 :=
  ⟨⟨3, p.2, some p.1, positionModel dir r⟩, p.1, rfl⟩

/-- The columns of the translation. -/
def transCols : Mat 3 6 := (fromCols (0 : Mat 3 3) (1 : Mat 3 3)).submatrix id se3Eqv.symm

theorem positionModel_jac (r : ℝ) (x : St {X // IsSE3 X}) : (positionModel .right r).jacobian x = Pose.rot x.value.1 * transCols := by
  show (fromCols (0 : Mat 3 3) (Pose.rot x.value.1)).submatrix id se3Eqv.symm = _
  ext i j
  rw [transCols, submatrix_apply, mul_apply]
  simp only [submatrix_apply, id]
  cases se3Eqv.symm j with
  | inl k => simp
  | inr k => simp [Matrix.one_apply]

theorem se3_rot (X : {X // IsSE3 X}) : IsRot (Pose.rot X.1) := by
  obtain ⟨X, C, r, hC, rfl⟩ := X
  exact hC

/-- The Kalman filter of the linear system `ξ⁺ = Ad(Exp(-dt u)) ξ` with the noise of `BodyFrameVelocity`. -/
noncomputable def poseErrorFilter (Q : Matrix (Fin 3 ⊕ Fin 3) (Fin 3 ⊕ Fin 3) ℝ) : EkfEnv (Vec 6) (Fin 3 ⊕ Fin 3 → ℝ) 6 :=
  linFilter (fun u dt => numbered se3Eqv (se3.adjoint (se3.Exp (dt • -u.value)))) (fun _ _ => 0)
    (fun u dt => numbered se3Eqv ((dt • se3.leftJac (dt • -u.value)) * Q * (dt • se3.leftJac (dt • -u.value))ᵀ)) fun _ => 0

/-- C126 for poses: with right perturbations, `BodyFrameVelocity` and `AbsolutePosition` with isotropic noise, the covariances are those
of a Kalman filter of a linear system that knows the inputs and the times of the measurements only. -/
theorem C126_pose_linear (Q : Matrix (Fin 3 ⊕ Fin 3) (Fin 3 ⊕ Fin 3) ℝ) (chi : ℕ → ℝ) (r : ℝ) (X0 : {X // IsSE3 X})
    (t0 : ℝ) (P0 : Mat 6 6) (ins : List (StInp (Fin 3 ⊕ Fin 3 → ℝ))) (ys : List (ℝ × Vec 3)) :
    (runFilter (ekfApi (se3Ekf .right Q false chi)) ⟨⟨X0, some t0⟩, P0⟩ ins (ys.map (positionMeas .right r))).map
        (List.map fun x => (x.state.stamp, x.cov))
      = (runFilter (ekfApi (poseErrorFilter Q)) ⟨⟨0, some t0⟩, P0⟩ ins
          (ys.map fun p => ⟨linMeas transCols (r • 1) 0 (some p.1), p.1, rfl⟩)).map (List.map fun x => (x.state.stamp, x.cov)) := by
  refine C126_run (e := poseErrorFilter Q) (e' := se3Ekf .right Q false chi) rfl rfl _ _ rfl rfl ins ins
    (List.forall₂_same.mpr fun u _ => ⟨rfl, fun _ _ _ _ => ⟨rfl, rfl⟩⟩) _ _ ?_
  rw [List.forall₂_map_left_iff, List.forall₂_map_right_iff]
  refine List.forall₂_same.mpr fun p _ => ?_
  refine SameInfo.mk _ p.2 p.1 (linMeasModel transCols (r • 1)) (positionModel .right r) (fun _ => rfl) (fun _ => rfl) fun x x' =>
    ⟨Pose.rot x'.value.1, ?_, positionModel_jac r x', ?_⟩
  · exact (se3_rot x'.value).1
  · show (r • 1 : Mat 3 3) = Pose.rot x'.value.1 * (r • 1) * (Pose.rot x'.value.1)ᵀ
    rw [Matrix.mul_smul, Matrix.mul_one, Matrix.smul_mul, mul_eq_one_comm.mp (se3_rot x'.value).1]

/-- C126 for poses: the covariances depend neither on the initial pose nor on the measured positions. -/
theorem C126_pose (Q : Matrix (Fin 3 ⊕ Fin 3) (Fin 3 ⊕ Fin 3) ℝ) (chi : ℕ → ℝ) (r : ℝ) (X0 X0' : {X // IsSE3 X})
    (t0 : ℝ) (P0 : Mat 6 6) (ins : List (StInp (Fin 3 ⊕ Fin 3 → ℝ))) (ys ys' : List (ℝ × Vec 3))
    (hy : ys'.map Prod.fst = ys.map Prod.fst) :
    (runFilter (ekfApi (se3Ekf .right Q false chi)) ⟨⟨X0', some t0⟩, P0⟩ ins (ys'.map (positionMeas .right r))).map
        (List.map fun x => (x.state.stamp, x.cov))
      = (runFilter (ekfApi (se3Ekf .right Q false chi)) ⟨⟨X0, some t0⟩, P0⟩ ins (ys.map (positionMeas .right r))).map
        (List.map fun x => (x.state.stamp, x.cov)) := by
  rw [C126_pose_linear, C126_pose_linear]
  have : ∀ l : List (ℝ × Vec 3), (l.map fun p => (⟨linMeas transCols (r • 1) 0 (some p.1), p.1, rfl⟩ : StMeas (Vec 6) 6))
      = (l.map Prod.fst).map fun s => ⟨linMeas transCols (r • 1) 0 (some s), s, rfl⟩ := fun l => by rw [List.map_map]; rfl
  rw [this, this, hy]

/-- C126's hypotheses are met: two logs of three measurements with different values. -/
example (A : Inp Unit → ℝ → Mat 2 2) (Q : Inp Unit → ℝ → Mat 2 2) (ins : List (StInp Unit)) (a b : Fin 3 → Vec 1) :
    (runFilter (ekfApi (linFilter A (fun _ _ => 0) Q fun _ => 0)) ⟨⟨![3, 4], some 0⟩, 1⟩ ins
        ((List.finRange 3).map fun i => ⟨linMeas !![1, 0] 1 (b i) (some i), i, rfl⟩)).map (List.map fun x => (x.state.stamp, x.cov))
      = (runFilter (ekfApi (linFilter A (fun _ _ => 0) Q fun _ => 0)) ⟨⟨0, some 0⟩, 1⟩ ins
        ((List.finRange 3).map fun i => ⟨linMeas !![1, 0] 1 (a i) (some i), i, rfl⟩)).map (List.map fun x => (x.state.stamp, x.cov)) := by
  refine C126_linear A _ _ Q _ _ 0 ![3, 4] 0 1 ins _ _ ?_
  rw [List.forall₂_map_left_iff, List.forall₂_map_right_iff]
  exact List.forall₂_same.mpr fun i _ => ⟨1, !![1, 0], 1, a i, b i, i, rfl, rfl⟩

/-- C126 needs that outliers are not rejected: with rejection, the covariance after one and the same kind of measurement depends on
its value. -/
theorem C126_reject_false : ∃ (x : SWC (Vec 1) 1) (y y' : StMeas (Vec 1) 1) (r r' : SWC (Vec 1) 1), ValuesDiffer y y' ∧
    (vecEnv (U := Unit) (linProcModel (fun _ _ => 1) (fun _ _ => 0) (fun _ _ => 0)) true fun _ => 1).correct x y.meas none none none = .ok r ∧
    (vecEnv (U := Unit) (linProcModel (fun _ _ => 1) (fun _ _ => 0) (fun _ _ => 0)) true fun _ => 1).correct x y'.meas none none none = .ok r' ∧
    r.cov ≠ r'.cov := by
  set e : EkfEnv (Vec 1) Unit 1 := vecEnv (linProcModel (fun _ _ => 1) (fun _ _ => 0) (fun _ _ => 0)) true fun _ => 1 with he
  have hS : ∀ v : Vec 1, innovCov (⟨⟨0, some 0⟩, 1⟩ : SWC (Vec 1) 1) (linMeas 1 1 v (some 0)) none = (2 : ℝ) • 1 := by
    intro v
    show (1 : Mat 1 1) * 1 * (1 : Mat 1 1)ᵀ + 1 = _
    rw [transpose_one, Matrix.mul_one, Matrix.mul_one, two_smul]
    rfl
  have hd : ∀ v : Vec 1, (innovCov (⟨⟨0, some 0⟩, 1⟩ : SWC (Vec 1) 1) (linMeas 1 1 v (some 0)) none).det ≠ 0 := by
    intro v
    rw [hS]
    show ((2 : ℝ) • (1 : Mat 1 1)).det ≠ 0
    rw [det_fin_one]
    norm_num
  have hc : ∀ v : Vec 1, e.correct ⟨⟨0, some 0⟩, 1⟩ (linMeas 1 1 v (some 0)) none none none
      = (e.fuse ⟨⟨0, some 0⟩, 1⟩ (linMeas 1 1 v (some 0)) none true).map Prod.fst := by
    intro v
    unfold EkfEnv.correct
    rw [C06_no_predict e _ _ none none none 0 0 rfl rfl (by norm_num) (by norm_num)]
    rfl
  have hi : ((2 : ℝ) • (1 : Mat 1 1))⁻¹ = (1 / 2 : ℝ) • 1 := by
    refine inv_eq_right_inv ?_
    rw [Matrix.smul_mul, Matrix.mul_smul, Matrix.one_mul, smul_smul]
    norm_num
  have hf := fun v : Vec 1 => fuse_reject e ⟨⟨0, some 0⟩, 1⟩ (linMeas 1 1 v (some 0)) none ((1 : Mat 1 1) *ᵥ 0) rfl (hd v)
  have hq : ∀ v : Vec 1, (fun i => (linMeas (n := 1) (1 : Mat 1 1) 1 v (some 0)).value i - ((1 : Mat 1 1) *ᵥ (0 : Vec 1)) i)
      ⬝ᵥ ((innovCov (⟨⟨0, some 0⟩, 1⟩ : SWC (Vec 1) 1) (linMeas 1 1 v (some 0)) none)⁻¹
        *ᵥ (fun i => (linMeas (n := 1) (1 : Mat 1 1) 1 v (some 0)).value i - ((1 : Mat 1 1) *ᵥ (0 : Vec 1)) i)) = v 0 * v 0 / 2 := by
    intro v
    rw [hS]
    show (fun i => v i - ((1 : Mat 1 1) *ᵥ (0 : Vec 1)) i) ⬝ᵥ ((((2 : ℝ) • (1 : Mat 1 1))⁻¹) *ᵥ fun i => v i - ((1 : Mat 1 1) *ᵥ (0 : Vec 1)) i) = _
    rw [hi, mulVec_zero, smul_mulVec, one_mulVec]
    simp [dotProduct]
    ring
  have h1 := (hf ![2]).trans (if_pos ((show (1 : ℝ) < ![(2 : ℝ)] 0 * ![(2 : ℝ)] 0 / 2 by
    show (1 : ℝ) < 2 * 2 / 2
    norm_num).trans_eq (hq ![2]).symm))
  have h0 := ((hf ![0]).trans (if_neg (not_lt.mpr ((hq ![0]).trans_le (show ![(0 : ℝ)] 0 * ![(0 : ℝ)] 0 / 2 ≤ (1 : ℝ) by
    show (0 : ℝ) * 0 / 2 ≤ 1
    norm_num))))).trans (fuse_noreject e _ _ none ((1 : Mat 1 1) *ᵥ 0) rfl (hd _))
  refine ⟨⟨⟨0, some 0⟩, 1⟩, ⟨linMeas 1 1 ![2] (some 0), 0, rfl⟩, ⟨linMeas 1 1 ![0] (some 0), 0, rfl⟩, _, _,
    ⟨1, 1, 1, ![2], ![0], 0, rfl, rfl⟩, (hc _).trans (congrArg _ h1), (hc _).trans (congrArg _ h0), ?_⟩
  intro h
  have h' : ∀ S : Mat 1 1, S = (2 : ℝ) • 1 →
      symmetrize ((1 - (1 : Mat 1 1) * (1 : Mat 1 1)ᵀ * S⁻¹ * (1 : Mat 1 1)) * (1 : Mat 1 1)) 0 0 = 1 / 2 := by
    rintro _ rfl
    rw [hi]
    simp [symmetrize]
    norm_num
  have h2 : (1 : ℝ) = 1 / 2 := (congrFun₂ h 0 0).trans (h' _ (hS ![0]))
  norm_num at h2

end Verif
