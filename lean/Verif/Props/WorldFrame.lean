import Verif.Props.Equivariance
import Verif.Props.Group
import Verif.Lemmas.Measurements

/-!
C92: the world frame is a convention. An EKF on a group with the body-frame velocity model, and landmark or range measurements,
gives the same run in every world frame.
-/

set_option linter.unusedSectionVars false

namespace Verif

open Matrix

variable {ι κ : Type} [Fintype ι] [DecidableEq ι] [Fintype κ] [DecidableEq κ] {G : MLG ι κ}
  {mem : Matrix ι ι ℝ → Prop} {ad : (κ → ℝ) → Matrix κ κ ℝ} {n : ℕ}

/-- A matrix of perturbation coordinates with its rows and columns numbered. -/
def numbered (eqv : κ ≃ Fin n) (A : Matrix κ κ ℝ) : Mat n n := A.submatrix eqv.symm eqv.symm

/-- `ExtendedKalmanFilter(BodyFrameVelocity(Q))` (`filters.py:75-260`, `models.py:222-261`) on states whose values are elements of
the group and whose direction is `dir`. -/
noncomputable def groupEkf (h : G.Laws mem ad) (dir : Dir) (Q : Matrix κ κ ℝ) (eqv : κ ≃ Fin n) (rej : Bool) (chi : ℕ → ℝ) :
    EkfEnv {X // mem X} (κ → ℝ) n where
  proc :=
    { evaluate := fun x u dt => ⟨⟨(bfvEvaluate G ⟨x.value.1, dir, x.stamp⟩ u.value dt).value, (C78_closed h _ x.value.2 _ _).1⟩,
        (bfvEvaluate G ⟨x.value.1, dir, x.stamp⟩ u.value dt).stamp⟩
      jacobian := fun x u dt => numbered eqv (bfvJacobian G ⟨x.value.1, dir, x.stamp⟩ u.value dt)
      covariance := fun x u dt => numbered eqv (bfvCovariance G Q ⟨x.value.1, dir, x.stamp⟩ u.value dt) }
  rejectOutliers := rej
  plus x dx := ⟨(GSt.plus G ⟨x.1, dir, none⟩ (dx ∘ eqv)).value, by
    cases dir
    · exact h.mem_mul _ _ x.2 (h.mem_exp _)
    · exact h.mem_mul _ _ (h.mem_exp _) x.2⟩
  chi2ppf99 := chi

/-- What a change of world frame does to perturbations: nothing on the body side, the adjoint on the world side. -/
def frameTan (G : MLG ι κ) (dir : Dir) (g : Matrix ι ι ℝ) : Matrix κ κ ℝ :=
  match dir with
  | .right => 1
  | .left => G.adjoint g

/-- Another world frame, in which the pose `X` reads `g X`, and another origin of time. -/
def worldFrame (h : G.Laws mem ad) (dir : Dir) (eqv : κ ≃ Fin n) (g : {X // mem X}) (T : ℝ) :
    Change {X // mem X} {X // mem X} (κ → ℝ) (κ → ℝ) n n where
  val X := ⟨g.1 * X.1, h.mem_mul _ _ g.2 X.2⟩
  inp u := u
  tan := numbered eqv (frameTan G dir g.1)
  shift := T

theorem numbered_mul (eqv : κ ≃ Fin n) (A B : Matrix κ κ ℝ) : numbered eqv A * numbered eqv B = numbered eqv (A * B) :=
  submatrix_mul_equiv A B eqv.symm eqv.symm eqv.symm

theorem numbered_transpose (eqv : κ ≃ Fin n) (A : Matrix κ κ ℝ) : (numbered eqv A)ᵀ = numbered eqv Aᵀ := rfl

theorem numbered_mulVec (eqv : κ ≃ Fin n) (A : Matrix κ κ ℝ) (v : Vec n) : (numbered eqv A *ᵥ v) ∘ eqv = A *ᵥ (v ∘ eqv) := by
  unfold numbered
  rw [submatrix_mulVec_equiv]
  ext i
  simp

/-- C92: body-frame velocity models, on every group, with left or right perturbations, know no preferred world frame. -/
theorem C92_body_frame_velocity (h : G.Laws mem ad) (dir : Dir) (Q : Matrix κ κ ℝ) (eqv : κ ≃ Fin n) (rej : Bool) (chi : ℕ → ℝ)
    (g : {X // mem X}) (T : ℝ) :
    SameSystem (worldFrame h dir eqv g T) (groupEkf h dir Q eqv rej chi) (groupEkf h dir Q eqv rej chi) where
  evaluate x u dt := by
    refine congrArg (fun v : {X // mem X} => (⟨v, x.stamp.map (· + T)⟩ : St {X // mem X})) (Subtype.ext ?_)
    exact Matrix.mul_assoc g.1 x.value.1 (G.Exp (dt • u.value))
  jacobian x u dt := by
    unfold groupEkf worldFrame Change.st Change.input bfvJacobian frameTan
    simp only
    rw [numbered_mul, numbered_mul]
    cases dir <;> simp
  covariance x u dt := by
    unfold groupEkf worldFrame Change.st Change.input bfvCovariance bfvNoise frameTan
    simp only
    rw [numbered_transpose, numbered_mul, numbered_mul]
    cases dir
    · simp
    · simp only
      rw [Matrix.mul_assoc g.1, h.adjoint_mul g.2 (h.mem_mul _ _ x.value.2 (h.mem_exp _))]
      simp only [transpose_mul, transpose_smul, Matrix.smul_mul, Matrix.mul_smul, Matrix.mul_assoc]
  plus v dx := by
    unfold groupEkf worldFrame
    simp only [Subtype.mk.injEq]
    rw [numbered_mulVec]
    unfold GSt.plus frameTan
    cases dir
    · simp only [one_mulVec]
      rw [Matrix.mul_assoc]
    · simp only
      rw [← h.Exp_conj g.2]
      simp only [Matrix.mul_assoc]
      rw [← Matrix.mul_assoc (G.inverse g.1), h.inv_mul g.2, Matrix.one_mul]
  reject := rfl
  chi2 := rfl

/-! ### Poses in space -/

/-- The coordinates of a perturbation of a pose: rotation, then translation. -/
def se3Eqv : Fin 3 ⊕ Fin 3 ≃ Fin 6 := finSumFinEquiv

/-- The EKF on poses in space. -/
noncomputable def se3Ekf (dir : Dir) (Q : Matrix (Fin 3 ⊕ Fin 3) (Fin 3 ⊕ Fin 3) ℝ) (rej : Bool) (chi : ℕ → ℝ) :=
  groupEkf se3_laws dir Q se3Eqv rej chi

/-- `PointRelativePosition` (`models.py:423-495`) on poses in space. The Jacobian never raises there. -/
noncomputable def landmarkModel (dir : Dir) (p : Vec 3) (R : Mat 3 3) : MeasModel {X // IsSE3 X} 6 3 where
  evaluate x := (prpEval se3Ops p ⟨x.value.1, dir, x.stamp⟩).toOption
  jacobian x := (((prpJac so3Att se3Ops p ⟨x.value.1, dir, x.stamp⟩).toOption).getD 0).submatrix id se3Eqv.symm
  covariance _ := R

/-- `RangePoseToAnchor` (`models.py:730-790`) on poses in space. At zero range the Jacobian of the code is NaN; the model has zero
there. -/
noncomputable def anchorModel (dir : Dir) (anchor tag : Vec 3) (R : ℝ) : MeasModel {X // IsSE3 X} 6 1 where
  evaluate x := (rangeEval se3Ops anchor tag ⟨x.value.1, dir, x.stamp⟩).toOption.map fun r _ => r
  jacobian x := (((rangeJac so3Att se3Ops anchor tag ⟨x.value.1, dir, x.stamp⟩).toOption).getD 0).submatrix id se3Eqv.symm
  covariance _ := .of fun _ _ => R

/-- A measurement of a pose in space: a landmark seen from the body, or the distance of a tag on the body to an anchor. -/
inductive PoseMeas where
  | landmark (p : Vec 3) (R : Mat 3 3) (y : Vec 3) (stamp : ℝ)
  | range (anchor tag : Vec 3) (R : ℝ) (y : ℝ) (stamp : ℝ)

/-- The position of a point in the new world frame. -/
def moveToFrame (g : Pose) (p : Vec 3) : Vec 3 := g.rot *ᵥ p + g.pos

/-- The same measurement with the landmark or anchor given in the new world frame and the time from the new origin. -/
def PoseMeas.moved (g : Pose) (T : ℝ) : PoseMeas → PoseMeas
  | .landmark p R y s => .landmark (moveToFrame g p) R y (s + T)
  | .range a t R y s => .range (moveToFrame g a) t R y (s + T)

/-- The measurement as the filter sees it. -/
noncomputable def PoseMeas.log (dir : Dir) : PoseMeas → StMeas {X // IsSE3 X} 6
  | .landmark p R y s => ⟨⟨3, y, some s, landmarkModel dir p R⟩, s, rfl⟩
  | .range a t R y s => ⟨⟨1, fun _ => y, some s, anchorModel dir a t R⟩, s, rfl⟩

theorem submatrix_cols_mul {μ : Type} (A : Matrix μ κ ℝ) (B : Matrix κ κ ℝ) (eqv : κ ≃ Fin n) :
    A.submatrix id eqv.symm * numbered eqv B = (A * B).submatrix id eqv.symm :=
  submatrix_mul_equiv A B id eqv.symm eqv.symm

theorem se3_adjoint_mk {C : Mat 3 3} {r : Vec 3} : se3.adjoint (mkPose C r) = fromBlocks C 0 (skew r * C) C := rfl

theorem fromCols_fromBlocks {μ : Type} (a p : Matrix μ (Fin 3) ℝ) (A B C D : Mat 3 3) :
    fromCols a p * fromBlocks A B C D = fromCols (a * A + p * C) (a * B + p * D) := by
  ext i (j | j) <;> simp [Matrix.mul_apply, Fintype.sum_sum_type]

theorem C92_landmark (dir : Dir) (g : {X // IsSE3 X}) (T : ℝ) (p : Vec 3) (R : Mat 3 3) :
    SameModel (worldFrame se3_laws dir se3Eqv g T) (landmarkModel dir p R) (landmarkModel dir (moveToFrame g.1 p) R) := by
  obtain ⟨g, C, r, hC, rfl⟩ := g
  have hCC : Cᵀ * C = 1 := hC.1
  have key : ∀ (D : Mat 3 3) (s : Vec 3), (C * D)ᵀ *ᵥ (C *ᵥ p + r - (C *ᵥ s + r)) = Dᵀ *ᵥ (p - s) := by
    intro D s
    rw [transpose_mul, add_sub_add_right_eq_sub, ← mulVec_sub, mulVec_mulVec, Matrix.mul_assoc, hCC, Matrix.mul_one]
  constructor
  · rintro ⟨⟨X, D, s, hD, rfl⟩, t⟩
    show some _ = some _
    congr 1
    show (Pose.rot (mkPose C r * mkPose D s))ᵀ *ᵥ (C *ᵥ p + r - Pose.pos (mkPose C r * mkPose D s)) = Dᵀ *ᵥ (p - s)
    rw [mkPose_mul]
    exact key D s
  · rintro ⟨⟨X, D, s, hD, rfl⟩, t⟩
    have hDD : Dᵀ * D = 1 := hD.1
    cases dir
    · show (fromCols (-(-skew ((Pose.rot (mkPose C r * mkPose D s))ᵀ *ᵥ (C *ᵥ p + r - Pose.pos (mkPose C r * mkPose D s)))))
          (-1 : Mat 3 3)).submatrix id se3Eqv.symm * numbered se3Eqv 1
        = (fromCols (-(-skew (Dᵀ *ᵥ (p - s)))) (-1 : Mat 3 3)).submatrix id se3Eqv.symm
      rw [mkPose_mul, submatrix_cols_mul, Matrix.mul_one]
      exact congrArg (fun v => (fromCols (-(-skew v)) (-1 : Mat 3 3)).submatrix id se3Eqv.symm) (key D s)
    · show (fromCols (-(Pose.rot (mkPose C r * mkPose D s))ᵀ * -skew (C *ᵥ p + r))
          (-(Pose.rot (mkPose C r * mkPose D s))ᵀ)).submatrix id se3Eqv.symm * numbered se3Eqv (se3.adjoint (mkPose C r))
        = (fromCols (-Dᵀ * -skew p) (-Dᵀ)).submatrix id se3Eqv.symm
      rw [mkPose_mul, mkPose_rot, submatrix_cols_mul, se3_adjoint_mk, fromCols_fromBlocks]
      congr 2
      · rw [skew_add]
        have h1 := hC.skew p
        calc -(C * D)ᵀ * -(skew (C *ᵥ p) + skew r) * C + -(C * D)ᵀ * (skew r * C)
            = (C * D)ᵀ * (skew (C *ᵥ p) * C) := by
              simp only [neg_mul, mul_neg, neg_neg, Matrix.mul_add, Matrix.add_mul, Matrix.mul_assoc]
              abel
          _ = Dᵀ * (Cᵀ * C) * skew p := by
              rw [h1, transpose_mul]
              simp only [Matrix.mul_assoc]
          _ = -Dᵀ * -skew p := by rw [hCC]; simp
      · rw [transpose_mul, Matrix.mul_zero, zero_add, neg_mul, Matrix.mul_assoc, hCC, Matrix.mul_one]
  · intro x; rfl

theorem npNorm_ortho {C : Mat 3 3} (hCC : Cᵀ * C = 1) (v : Vec 3) : npNorm (C *ᵥ v) = npNorm v := by
  unfold npNorm
  rw [dotProduct_mulVec, vecMul_mulVec, hCC, Matrix.vecMul_one]

theorem C92_range (dir : Dir) (g : {X // IsSE3 X}) (T : ℝ) (a tag : Vec 3) (R : ℝ) :
    SameModel (worldFrame se3_laws dir se3Eqv g T) (anchorModel dir a tag R) (anchorModel dir (moveToFrame g.1 a) tag R) := by
  obtain ⟨g, C, r, hC, rfl⟩ := g
  have hCC : Cᵀ * C = 1 := hC.1
  have key : ∀ (D : Mat 3 3) (s : Vec 3), (C * D) *ᵥ tag + (C *ᵥ s + r) - (C *ᵥ a + r) = C *ᵥ (D *ᵥ tag + s - a) := by
    intro D s
    rw [mulVec_sub, mulVec_add, mulVec_mulVec]
    abel
  constructor
  · rintro ⟨⟨X, D, s, hD, rfl⟩, t⟩
    show some _ = some _
    congr 1
    show (fun _ : Fin 1 => npNorm (Pose.rot (mkPose C r * mkPose D s) *ᵥ tag + Pose.pos (mkPose C r * mkPose D s) - (C *ᵥ a + r)))
      = fun _ : Fin 1 => npNorm (D *ᵥ tag + s - a)
    rw [mkPose_mul, mkPose_rot, mkPose_pos, key, npNorm_ortho hCC]
  · rintro ⟨⟨X, D, s, hD, rfl⟩, t⟩
    have e1 : ∀ (Y : Pose) (b : Vec 3), rangeJac so3Att se3Ops b tag (⟨Y, dir, t⟩ : GSt _)
        = (npScale (npNorm (Y.rot *ᵥ tag + Y.pos - b)) (Y.rot *ᵥ tag + Y.pos - b) >>= fun ρ =>
          tagBlocks so3Att se3Ops ρ tag (⟨Y, dir, t⟩ : GSt _) Y.pos) := fun Y b => rfl
    have e1' : ∀ (Y : Pose) (b : Vec 3), rangeJac so3Att se3Ops b tag (⟨Y, dir, t.map (· + T)⟩ : GSt _)
        = (npScale (npNorm (Y.rot *ᵥ tag + Y.pos - b)) (Y.rot *ᵥ tag + Y.pos - b) >>= fun ρ =>
          tagBlocks so3Att se3Ops ρ tag (⟨Y, dir, t.map (· + T)⟩ : GSt _) Y.pos) := fun Y b => rfl
    show (((rangeJac so3Att se3Ops (C *ᵥ a + r) tag (⟨mkPose C r * mkPose D s, dir, t.map (· + T)⟩ : GSt _)).toOption).getD
        0).submatrix id se3Eqv.symm * numbered se3Eqv (frameTan se3 dir (mkPose C r))
      = (((rangeJac so3Att se3Ops a tag (⟨mkPose D s, dir, t⟩ : GSt _)).toOption).getD 0).submatrix id se3Eqv.symm
    rw [submatrix_cols_mul]
    congr 1
    rw [e1', e1, mkPose_mul, mkPose_rot, mkPose_pos, key, npNorm_ortho hCC, mkPose_rot, mkPose_pos]
    unfold npScale
    by_cases h0 : npNorm (D *ᵥ tag + s - a) = 0
    · simp only [if_pos h0]
      show (0 : Matrix (Fin 1) (Fin 3 ⊕ Fin 3) ℝ) * _ = 0
      rw [Matrix.zero_mul]
    · simp only [if_neg h0]
      rw [← mulVec_smul]
      set ρ : Vec 3 := (npNorm (D *ᵥ tag + s - a))⁻¹ • (D *ᵥ tag + s - a) with hρ
      have hr : rowMat (C *ᵥ ρ) = rowMat ρ * Cᵀ := by
        ext i j
        simp [rowMat, Matrix.mul_apply, mulVec, dotProduct, mul_comm]
      cases dir
      · show fromCols (rowMat (C *ᵥ ρ) * (C * D) * -skew tag) (rowMat (C *ᵥ ρ) * (C * D)) * 1
          = fromCols (rowMat ρ * D * -skew tag) (rowMat ρ * D)
        have e2 : rowMat (C *ᵥ ρ) * (C * D) = rowMat ρ * D := by
          rw [hr, Matrix.mul_assoc, ← Matrix.mul_assoc Cᵀ, hCC, Matrix.one_mul]
        rw [e2, Matrix.mul_one]
      · show fromCols (rowMat (C *ᵥ ρ) * -skew ((C * D) *ᵥ tag + (C *ᵥ s + r))) (rowMat (C *ᵥ ρ) * (1 : Mat 3 3))
            * se3.adjoint (mkPose C r)
          = fromCols (rowMat ρ * -skew (D *ᵥ tag + s)) (rowMat ρ * (1 : Mat 3 3))
        rw [se3_adjoint_mk, fromCols_fromBlocks, hr]
        congr 1
        · have e3 : (C * D) *ᵥ tag + (C *ᵥ s + r) = C *ᵥ (D *ᵥ tag + s) + r := by
            rw [mulVec_add, mulVec_mulVec]; abel
          rw [e3, skew_add]
          have h1 := hC.skew (D *ᵥ tag + s)
          calc rowMat ρ * Cᵀ * -(skew (C *ᵥ (D *ᵥ tag + s)) + skew r) * C + rowMat ρ * Cᵀ * (1 : Mat 3 3) * (skew r * C)
              = -(rowMat ρ * Cᵀ * (skew (C *ᵥ (D *ᵥ tag + s)) * C)) := by
                rw [Matrix.mul_one]
                simp only [Matrix.mul_neg, Matrix.neg_mul, Matrix.mul_add, Matrix.add_mul, Matrix.mul_assoc]
                abel
            _ = -(rowMat ρ * (Cᵀ * C) * skew (D *ᵥ tag + s)) := by
                rw [h1]
                simp only [Matrix.mul_assoc]
            _ = _ := by rw [hCC]; simp
        · rw [Matrix.mul_zero, zero_add, Matrix.mul_one, Matrix.mul_one, Matrix.mul_assoc, hCC, Matrix.mul_one]
  · intro x; rfl

/-- C92: running the filter in another world frame, with another origin of time, gives the same estimates, read in that frame: every
mean is multiplied by the frame change; covariances are unchanged for right perturbations and transform by its adjoint for left
perturbations. -/
theorem C92_run_filter (dir : Dir) (Q : Matrix (Fin 3 ⊕ Fin 3) (Fin 3 ⊕ Fin 3) ℝ) (rej : Bool) (chi : ℕ → ℝ) (g : {X // IsSE3 X}) (T : ℝ)
    (x0 : SWC {X // IsSE3 X} 6) (ins : List (StInp (Fin 3 ⊕ Fin 3 → ℝ))) (meas : List PoseMeas) :
    runFilter (ekfApi (se3Ekf dir Q rej chi)) ((worldFrame se3_laws dir se3Eqv g T).est x0)
        (ins.map fun u => ⟨u.value, u.stamp + T⟩) ((meas.map (PoseMeas.moved g.1 T)).map (PoseMeas.log dir))
      = (runFilter (ekfApi (se3Ekf dir Q rej chi)) x0 ins (meas.map (PoseMeas.log dir))).map
          (List.map (worldFrame se3_laws dir se3Eqv g T).est) := by
  refine C91_run_filter (C92_body_frame_velocity se3_laws dir Q se3Eqv rej chi g T) x0 ins _ _ ?_
  rw [List.map_map, List.forall₂_map_left_iff, List.forall₂_map_right_iff]
  refine List.forall₂_same.mpr fun y _ => ?_
  cases y with
  | landmark p R y s => exact ⟨rfl, _, C92_landmark dir g T p R, rfl⟩
  | range a t R y s => exact ⟨rfl, _, C92_range dir g T a t R, rfl⟩

/-- A frame turned by 120 degrees about the diagonal and moved: the landmark on the first axis is not where it was, so the statement
is about different numbers on its two sides. -/
example : ∃ g : {X // IsSE3 X}, moveToFrame g.1 ![1, 0, 0] = ![0, 3, 0] :=
  ⟨⟨mkPose cycRot ![0, 2, 0], cycRot, ![0, 2, 0], cycRot_isRot, rfl⟩, by
    show cycRot *ᵥ ![1, 0, 0] + ![0, 2, 0] = ![0, 3, 0]
    ext i
    fin_cases i <;> simp [cycRot, mulVec, dotProduct, Fin.sum_univ_three] <;> norm_num⟩

end Verif
