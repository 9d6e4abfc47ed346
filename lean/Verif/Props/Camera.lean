import Verif.Model.Camera
import Verif.Lemmas.Lie
import Verif.Props.Mixture
import Mathlib.Analysis.Calculus.Deriv.Basic

/-!
Properties of the pinhole camera (`navlie/lib/camera.py`): C59.
-/

namespace Verif

open Matrix

set_option linter.unusedVariables false

/-- Specification: the position of the world point `p` in the frame of a camera whose pose in the world is `T`. -/
def inFrame (T : Pose) (p : Vec 3) : Vec 3 := T.rotᵀ *ᵥ (p - T.pos)

/-- Specification: the rigid motion `g` applied to a point. -/
def Pose.act (g : Pose) (p : Vec 3) : Vec 3 := g.rot *ᵥ p + g.pos

/-- **C59, projection.** A point at nonzero depth is projected to the pixel whose homogeneous coordinates, times the depth, are
the intrinsic matrix applied to the point; a point at depth zero gives no numbers. -/
theorem C59_projection (c : Cam) (r : Vec 3) :
    (r 2 = 0 → c.project (ravel3 r) = .error .nan) ∧
    (r 2 ≠ 0 → ∃ u v, c.project (ravel3 r) = .ok [u, v] ∧ r 2 • ![u, v, 1] = c.intrinsics *ᵥ r) := by
  constructor
  · intro h
    simp only [ravel3, Cam.project, npDiv, if_pos h]
    rfl
  · intro h
    refine ⟨c.fu * r 0 / r 2 + c.cu, c.fv * r 1 / r 2 + c.cv, ?_, ?_⟩
    · simp only [ravel3, Cam.project, npDiv, if_neg h]
      rfl
    · ext i
      fin_cases i
      · simp [Cam.intrinsics, Matrix.mulVec, dotProduct, Fin.sum_univ_three]; field_simp
      · simp [Cam.intrinsics, Matrix.mulVec, dotProduct, Fin.sum_univ_three]; field_simp
      · simp [Cam.intrinsics, Matrix.mulVec, dotProduct, Fin.sum_univ_three]

/-- The value of `project` at nonzero depth. -/
theorem project_ok (c : Cam) {r : Vec 3} (h : r 2 ≠ 0) :
    c.project (ravel3 r) = .ok [c.fu * r 0 / r 2 + c.cu, c.fv * r 1 / r 2 + c.cv] := by
  simp only [ravel3, Cam.project, npDiv, if_neg h]
  rfl

/-- **C59, rays.** With nonzero focal lengths, two points at nonzero depth have the same pixel exactly when they lie on one
line through the camera centre. In particular the pixel does not change when the point is scaled — also by a negative number,
i.e. for a point behind the camera. -/
theorem C59_rays (c : Cam) (hfu : c.fu ≠ 0) (hfv : c.fv ≠ 0) (r s : Vec 3) (hr : r 2 ≠ 0) (hs : s 2 ≠ 0) :
    c.project (ravel3 r) = c.project (ravel3 s) ↔ ∃ d : ℝ, d ≠ 0 ∧ s = d • r := by
  rw [project_ok c hr, project_ok c hs]
  constructor
  · intro h
    injection h with h
    simp only [List.cons.injEq, add_left_inj, and_true] at h
    obtain ⟨h1, h2⟩ := h
    refine ⟨s 2 / r 2, div_ne_zero hs hr, ?_⟩
    rw [div_eq_div_iff hr hs] at h1 h2
    have h1' : r 0 * s 2 = s 0 * r 2 := mul_left_cancel₀ hfu (by linarith)
    have h2' : r 1 * s 2 = s 1 * r 2 := mul_left_cancel₀ hfv (by linarith)
    ext i
    fin_cases i
    · simp; field_simp; linarith
    · simp; field_simp; linarith
    · simp; field_simp
  · rintro ⟨d, hd, rfl⟩
    refine congrArg Except.ok ?_
    simp only [Pi.smul_apply, smul_eq_mul] at hs ⊢
    congr 1
    · congr 1
      rw [show c.fu * (d * r 0) = d * (c.fu * r 0) by ring, mul_div_mul_left _ _ hd]
    · congr 2
      rw [show c.fv * (d * r 1) = d * (c.fv * r 1) by ring, mul_div_mul_left _ _ hd]

/-- **C59, back-projection.** `to_normalized_coords` of the projection of a point at nonzero depth is the point divided by
its depth; and every pixel is the projection of each nonzero multiple of its normalized coordinates. -/
theorem C59_back_projection (c : Cam) (hfu : c.fu ≠ 0) (hfv : c.fv ≠ 0) :
    (∀ r : Vec 3, r 2 ≠ 0 → (c.project (ravel3 r) >>= c.toNormalized) = .ok (ravel3 ((r 2)⁻¹ • r))) ∧
    (∀ u v : ℝ, ∃ n : Vec 3, c.toNormalized [u, v] = .ok (ravel3 n) ∧ n 2 = 1 ∧
      ∀ d : ℝ, d ≠ 0 → c.project (ravel3 (d • n)) = .ok [u, v]) := by
  constructor
  · intro r hr
    rw [project_ok c hr, ok_bindE]
    simp only [Cam.toNormalized, npDiv, if_neg hfu, if_neg hfv, ravel3, Pi.smul_apply, smul_eq_mul]
    refine congrArg Except.ok ?_
    congr 1
    · field_simp; ring
    · congr 1
      · field_simp; ring
      · rw [inv_mul_cancel₀ hr]
  · intro u v
    refine ⟨![(u - c.cu) / c.fu, (v - c.cv) / c.fv, 1], ?_, rfl, ?_⟩
    · simp only [Cam.toNormalized, npDiv, if_neg hfu, if_neg hfv]
      rfl
    · intro d hd
      rw [project_ok c (by simpa using hd)]
      refine congrArg Except.ok ?_
      simp
      constructor <;> field_simp <;> ring

/-- **C59, `to_pixel_coors`.** On two numbers it inverts `to_normalized_coords`; but it raises `ValueError` on what
`to_normalized_coords` returns (three numbers), for every camera and pixel. -/
theorem C59_to_pixel (c : Cam) (hfu : c.fu ≠ 0) (hfv : c.fv ≠ 0) (u v : ℝ) :
    (∃ a b, c.toNormalized [u, v] = .ok [a, b, 1] ∧ c.toPixel [a, b] = .ok [u, v]) ∧
    (c.toNormalized [u, v] >>= c.toPixel) = .error .valueError := by
  have h : c.toNormalized [u, v] = .ok [(u - c.cu) / c.fu, (v - c.cv) / c.fv, 1] := by
    simp only [Cam.toNormalized, npDiv, if_neg hfu, if_neg hfv]
    rfl
  refine ⟨⟨_, _, h, ?_⟩, ?_⟩
  · simp only [Cam.toPixel]
    refine congrArg Except.ok ?_
    rw [div_mul_cancel₀ _ hfu, div_mul_cancel₀ _ hfv, sub_add_cancel, sub_add_cancel]
  · rw [h]; rfl

/-- **C59, validity.** A pixel is valid exactly when it lies strictly inside the image; the pixels of the first row and
column (`0`) are not valid. -/
theorem C59_valid (c : Cam) (u v : ℝ) :
    ∃ P : Prop, c.isValid [u, v] = .ok P ∧ (P ↔ (0 < u ∧ u < c.width) ∧ (0 < v ∧ v < c.height)) := by
  refine ⟨_, rfl, ?_⟩
  tauto

/-- A camera pose in the world: the body pose times the extrinsics. -/
theorem resolve_eq (c : Cam) {pose : Pose} (hp : IsPose pose) (hc : IsPose c.Tbc) (p : Vec 3) :
    c.resolve pose p = inFrame (pose * c.Tbc) p := by
  unfold Cam.resolve inFrame
  rw [hp.eq, hc.eq, mkPose_mul, mkPose_rot, mkPose_pos, mkPose_rot, mkPose_pos, mkPose_rot, mkPose_pos, transpose_mul,
    ← mulVec_mulVec]
  congr 1
  rw [sub_add_eq_sub_sub, sub_right_comm, mulVec_sub _ (p - pose.pos), mulVec_mulVec, show pose.rotᵀ * pose.rot = 1 from hp.ortho, one_mulVec]

/-- **C59, extrinsics.** `evaluate` projects the landmark's position in the frame of the camera, whose pose is the body pose
times `T_bc`. -/
theorem C59_evaluate (c : Cam) (pose : Pose) (hp : IsPose pose) (hc : IsPose c.Tbc) (p : Vec 3) :
    c.evaluate pose p = c.project (ravel3 (inFrame (pose * c.Tbc) p)) := by
  unfold Cam.evaluate
  rw [resolve_eq c hp hc]

/-- **C59, choice of world frame.** Moving the body and the landmark by the same rigid motion changes neither the measurement
nor the visibility test. -/
theorem C59_frame_invariance (c : Cam) (g pose : Pose) (hg : IsPose g) (hp : IsPose pose) (p : Vec 3) :
    c.evaluate (g * pose) (g.act p) = c.evaluate pose p ∧ (c.inFront (g * pose) (g.act p) ↔ c.inFront pose p) := by
  have h : c.resolve (g * pose) (g.act p) = c.resolve pose p := by
    unfold Cam.resolve Pose.act
    congr 2
    rw [hg.eq, hp.eq, mkPose_mul, mkPose_rot, mkPose_pos, mkPose_rot, mkPose_pos, mkPose_rot, mkPose_pos, transpose_mul,
      ← mulVec_mulVec]
    congr 1
    rw [add_sub_add_right_eq_sub, ← mulVec_sub, mulVec_mulVec, show g.rotᵀ * g.rot = 1 from hg.ortho, one_mulVec]
  unfold Cam.evaluate Cam.inFront
  rw [h]
  exact ⟨rfl, Iff.rfl⟩

/-- **C59, positive depth.** A landmark is reported in front of the camera exactly when its displacement from the camera
centre has a positive component along the optical axis (the third axis of the camera frame). -/
theorem C59_in_front (c : Cam) (pose : Pose) (hp : IsPose pose) (hc : IsPose c.Tbc) (p : Vec 3) :
    c.inFront pose p ↔ 0 < (Pose.rot (pose * c.Tbc) *ᵥ ![0, 0, 1]) ⬝ᵥ (p - Pose.pos (pose * c.Tbc)) := by
  unfold Cam.inFront
  rw [resolve_eq c hp hc]
  unfold inFrame
  generalize Pose.rot (pose * c.Tbc) = C
  generalize p - Pose.pos (pose * c.Tbc) = d
  have : (Cᵀ *ᵥ d) 2 = (C *ᵥ ![0, 0, 1]) ⬝ᵥ d := by
    simp [Matrix.mulVec, dotProduct, Fin.sum_univ_three]
  rw [this]

/-- **C59, noise.** The noise covariance of normalized coordinates is that of pixels, `sigma² I`, propagated through the
derivative of `to_normalized_coords`; it needs nonzero focal lengths. -/
theorem C59_noise (c : Cam) :
    ((c.fu = 0 ∨ c.fv = 0) → c.rNormalized = .error .zeroDivision) ∧
    (c.fu ≠ 0 → c.fv ≠ 0 → ∃ J : Mat 2 2, c.rNormalized = .ok (J * (c.sigma ^ 2 • 1) * Jᵀ) ∧
      ∀ u v du dv : ℝ, ∃ a b, c.toNormalized [u, v] = .ok [a, b, 1] ∧
        c.toNormalized [u + du, v + dv] = .ok [a + (J *ᵥ ![du, dv]) 0, b + (J *ᵥ ![du, dv]) 1, 1]) := by
  constructor
  · intro h
    unfold Cam.rNormalized Cam.sigmaNormalized pyDiv
    by_cases h1 : c.fu = 0
    · rw [if_pos h1]; rfl
    · rw [if_neg h1, ok_bindE, if_pos (h.resolve_left h1)]; rfl
  · intro h1 h2
    refine ⟨!![1 / c.fu, 0; 0, 1 / c.fv], ?_, ?_⟩
    · unfold Cam.rNormalized Cam.sigmaNormalized pyDiv
      rw [if_neg h1, if_neg h2]
      refine congrArg Except.ok ?_
      ext i j
      fin_cases i <;> fin_cases j <;> simp [Matrix.mul_apply, Fin.sum_univ_two, div_pow] <;> field_simp
    · intro u v du dv
      refine ⟨(u - c.cu) / c.fu, (v - c.cv) / c.fv, ?_, ?_⟩
      · simp only [Cam.toNormalized, npDiv, if_neg h1, if_neg h2]; rfl
      · simp only [Cam.toNormalized, npDiv, if_neg h1, if_neg h2]
        refine congrArg Except.ok ?_
        simp [Matrix.mulVec, dotProduct, Fin.sum_univ_two]
        constructor <;> field_simp <;> ring

/-- **C59, copies and axes.** A copy has the same parameters, so it gives the same measurements; the default extrinsics are
the identity; `get_cam_to_enu` is a rotation that maps right, down, forward to minus the second, minus the third and the first
axis. -/
theorem C59_copy (c : Cam) : c.copy = c ∧
    (∀ fu fv cu cv w h s, (mkCam fu fv cu cv w h s none).Tbc = 1) ∧
    (IsOrtho camToEnu ∧ camToEnu.det = 1 ∧ camToEnu *ᵥ ![1, 0, 0] = ![0, -1, 0] ∧ camToEnu *ᵥ ![0, 1, 0] = ![0, 0, -1] ∧
      camToEnu *ᵥ ![0, 0, 1] = ![1, 0, 0]) := by
  have hi : ∀ k : ℤ, pyInt (k : ℝ) = k := by
    intro k
    unfold pyInt
    split_ifs <;> simp
  refine ⟨?_, fun _ _ _ _ _ _ _ => rfl, ?_, ?_, ?_, ?_, ?_⟩
  · unfold Cam.copy mkCam
    rw [hi, hi]
    rfl
  · unfold IsOrtho camToEnu
    ext i j
    fin_cases i <;> fin_cases j <;> simp [Matrix.mul_apply, Fin.sum_univ_three]
  · unfold camToEnu; simp [Matrix.det_fin_three]
  · ext i; fin_cases i <;> simp [camToEnu, Matrix.mulVec, dotProduct, Fin.sum_univ_three]
  · ext i; fin_cases i <;> simp [camToEnu, Matrix.mulVec, dotProduct, Fin.sum_univ_three]
  · ext i; fin_cases i <;> simp [camToEnu, Matrix.mulVec, dotProduct, Fin.sum_univ_three]

/-- Non-vacuity: a camera with usual parameters and a point in front of it. -/
example : ((⟨400, 400, 320, 240, 640, 480, 1, 1⟩ : Cam).project (ravel3 ![1, 2, 4]) = .ok [420, 440]) ∧
    IsPose (⟨400, 400, 320, 240, 640, 480, 1, 1⟩ : Cam).Tbc := by
  refine ⟨?_, isPose_one⟩
  rw [project_ok _ (by simp)]
  norm_num [show (![1, 2, 4] : Vec 3) 2 = 4 from rfl]

end Verif
