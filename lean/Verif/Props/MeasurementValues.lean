import Verif.Props.MeasurementsPair

/-!
C64: what the measurement models measure, stated by the geometry: a pose `(C, r)` takes body coordinates `b` to the world
coordinates `C b + r`.
-/

namespace Verif

open Matrix

set_option linter.unusedVariables false
set_option linter.unusedSectionVars false

section

variable {S κ α : Type} [Fintype α] {n : ℕ} (P : PoseOps S κ α n)

/-- The world coordinates of a point given in the body frame of a pose with attitude `C` and position `r` (specification). -/
def toWorld (C : Mat n n) (r b : Vec n) : Vec n := C *ᵥ b + r

/-- Distance of two points (specification). -/
noncomputable def distance (a b : Vec n) : ℝ := Real.sqrt (∑ i, (a i - b i) ^ 2)

theorem npNorm_distance (a b : Vec n) : npNorm (a - b) = distance a b := by
  unfold npNorm distance dotProduct
  congr 1
  apply Finset.sum_congr rfl
  intro i _
  rw [Pi.sub_apply, sq]

theorem distance_comm (a b : Vec n) : distance a b = distance b a := by
  unfold distance
  congr 1
  apply Finset.sum_congr rfl
  intro i _
  ring

theorem transpose_iff {C : Mat n n} (hC : Cᵀ * C = 1) (y v : Vec n) : Cᵀ *ᵥ v = y ↔ C *ᵥ y = v := by
  have hC' : C * Cᵀ = 1 := mul_eq_one_comm.1 hC
  constructor
  · rintro rfl
    rw [mulVec_mulVec, hC', one_mulVec]
  · rintro rfl
    rw [mulVec_mulVec, hC, one_mulVec]

/-- C64: `PointRelativePosition` (and `PointRelativePositionSLAM`, whose landmark is a state) measures the point's coordinates in
the body frame: `y` is measured iff the pose takes `y` to the landmark. -/
theorem C64_value_point (x : S) (r : Vec n) (hr : P.pos x = .ok r) (hC : (P.att x)ᵀ * P.att x = 1) (p y : Vec n) :
    (prpEval P p x = .ok y ↔ toWorld (P.att x) r y = p) ∧ (slamEval P x p = .ok y ↔ toWorld (P.att x) r y = p) := by
  have e : prpEval P p x = .ok ((P.att x)ᵀ *ᵥ (p - r)) := by rw [prpEval, hr]; rfl
  have key : prpEval P p x = .ok y ↔ toWorld (P.att x) r y = p := by
    rw [e, Except.ok.injEq, transpose_iff hC]
    unfold toWorld
    constructor
    · intro h; rw [h]; simp
    · intro h; rw [← h]; simp
  exact ⟨key, key⟩

/-- C64: `RangePoseToAnchor` measures the distance between the anchor and the world position of the tag; `RangePoseToPose` the
distance between the world positions of the two tags; `RangePointToAnchor` the distance between the point and the anchor. -/
theorem C64_value_range (x : S) (r : Vec n) (hr : P.pos x = .ok r) (anchor tag : Vec n) :
    rangeEval P anchor tag x = .ok (distance (toWorld (P.att x) r tag) anchor) ∧
    (∀ {S' κ' : Type} (P' : PoseOps S' κ' α n) (x' : S') (r' t' : Vec n), P'.pos x' = .ok r' →
      rppEval P P' tag t' x x' = .ok (distance (toWorld (P.att x) r tag) (toWorld (P'.att x') r' t'))) ∧
    ∀ {N : ℕ} (h : n ≤ N) (z : Vec N), rpaEval h anchor z = distance (headVec h z) anchor := by
  refine ⟨?_, ?_, ?_⟩
  · rw [rangeEval, hr, ← npNorm_distance]; rfl
  · intro S' κ' P' x' r' t' hr'
    rw [rppEval, hr, hr', ← npNorm_distance]; rfl
  · intro N h z
    rw [rpaEval, npNorm_distance, distance_comm]

/-- C64: `AbsolutePosition`, `AbsoluteVelocity` measure the entries of the pose matrix that hold them. -/
theorem C64_value_absolute :
    (∀ x, apEval se2Ops x = .ok fun i => x.value (.inl i) (.inr 0)) ∧
    (∀ x, apEval se3Ops x = .ok fun i => x.value (.inl i) (.inr 0)) ∧
    (∀ x, apEval se23Ops x = .ok fun i => x.value (.inl i) (.inr 1)) ∧
    (∀ x, avEval se23Ops x = .ok fun i => x.value (.inl i) (.inr 0)) ∧
    (∀ x, apEval imuOps x = .ok fun i => x.pose (.inl i) (.inr 1)) ∧
    ∀ x, avEval imuOps x = .ok fun i => x.pose (.inl i) (.inr 0) :=
  ⟨fun _ => rfl, fun _ => rfl, fun _ => rfl, fun _ => rfl, fun _ => rfl, fun _ => rfl⟩

end

section

variable {S κ : Type} (P : PoseOps S κ (Fin 3) 3)

/-- C64: `Gravitometer` and `Magnetometer` measure the body-frame coordinates of a world vector: the given one, or by default
`(0, 0, -9.80665)` and `(0, 1, 0)`. -/
theorem C64_value_direction (x : S) (hC : (P.att x)ᵀ * P.att x = 1) (y : Vec 3) :
    (∀ g, vdEval P (gravityVector (some g)) x = .ok y ↔ P.att x *ᵥ y = g) ∧
    (vdEval P (gravityVector none) x = .ok y ↔ P.att x *ᵥ y = ![0, 0, -9.80665]) ∧
    (∀ m, vdEval P (magneticVector (some m)) x = .ok y ↔ P.att x *ᵥ y = m) ∧
    (vdEval P (magneticVector none) x = .ok y ↔ P.att x *ᵥ y = ![0, 1, 0]) := by
  have key : ∀ g, vdEval P g x = .ok y ↔ P.att x *ᵥ y = g := fun g => by
    unfold vdEval
    rw [Except.ok.injEq, transpose_iff hC]
  exact ⟨fun g => key g, key _, fun m => key m, key _⟩

/-- C64: the point whose pixel `CameraProjection` returns is the landmark in the camera frame: camera frame to body frame to world
gives the landmark back. -/
theorem C64_value_camera (c : Cam) (C : Mat 3 3) (r p q : Vec 3) (hC : Cᵀ * C = 1) (hB : c.Tbc.rotᵀ * c.Tbc.rot = 1) :
    camResolve c C r p = q ↔ toWorld C r (toWorld c.Tbc.rot c.Tbc.pos q) = p := by
  unfold camResolve toWorld
  rw [transpose_iff hB, eq_sub_iff_add_eq, eq_comm, transpose_iff hC, eq_sub_iff_add_eq]

end

/-- The hypotheses hold of every `SE3State` whose value is a pose; for example of the identity, at which the tag at the origin is at
distance 5 of the anchor `(3, 4, 0)`. -/
example : rangeEval se3Ops ![3, 4, 0] 0 ⟨1, .right, none⟩ = .ok 5 := by
  rw [(C64_value_range se3Ops (⟨1, .right, none⟩ : GSt (Fin 3 ⊕ Fin 1)) 0 (by
    show Except.ok _ = Except.ok _
    rfl) ![3, 4, 0] 0).1]
  congr 1
  unfold distance toWorld
  rw [mulVec_zero, add_zero, Fin.sum_univ_three]
  simp
  rw [show (3 : ℝ) ^ 2 + 4 ^ 2 = 5 ^ 2 by norm_num]
  exact Real.sqrt_sq (by norm_num)

example : (Pose.rot (1 : Matrix (Fin 3 ⊕ Fin 1) (Fin 3 ⊕ Fin 1) ℝ))ᵀ * Pose.rot (1 : Matrix (Fin 3 ⊕ Fin 1) (Fin 3 ⊕ Fin 1) ℝ) = 1 := by
  have : Pose.rot (1 : Matrix (Fin 3 ⊕ Fin 1) (Fin 3 ⊕ Fin 1) ℝ) = 1 := by
    ext i j
    show (1 : Matrix (Fin 3 ⊕ Fin 1) (Fin 3 ⊕ Fin 1) ℝ) (.inl i) (.inl j) = _
    simp [Matrix.one_apply]
  rw [this]
  simp

end Verif
